import Verif.Model.Logs
import Verif.Spec.Jobs

/-!
# What log files are expected to hold
-/

namespace Verif

namespace Logs

open Jobs

/-- `filepath` in the directory `baseDir` is the file `name` in the directory `dir`. -/
structure Located (baseDir : Option Str) (filepath dir name : Str) : Prop where
  dirNe : dir ≠ []
  dirLast : dir.getLast? ≠ some '/'
  nameNe : name ≠ []
  nameSlash : '/' ∉ name
  path : match baseDir with
    | none => filepath = dir ++ '/' :: name
    | some b => (b = [] ∧ filepath = dir ++ '/' :: name) ∨
        (b ≠ [] ∧ b.getLast? ≠ some '/' ∧ filepath.head? ≠ some '/' ∧ b ++ '/' :: filepath = dir ++ '/' :: name)

/-- The directory is there or can be made. -/
def Usable (w : World) (dir : Str) : Prop := w.dirs dir = true ∨ (w.files dir = none ∧ w.writable dir = true)

/-- Words in a line with one blank between them. -/
def lineOf (ws : List Str) : Str := (ws.intersperse [' ']).flatten

/-- A call that writes lines, and the lines. -/
inductive Writes : Op → List Str → Prop
  | line (v : Str) : Writes (.line v) [v]
  | none : Writes (.list []) []
  | list (v : Str) (vs : List Str) : Writes (.list (v :: vs)) [lineOf (v :: vs)]
  | comment (v : Str) : Writes (.comment v) [['#', ' '] ++ v]

/-- The code points that Python takes for white space. -/
def whiteSpace : List ℕ :=
  [9, 10, 11, 12, 13, 28, 29, 30, 31, 32, 133, 160, 5760, 8192, 8193, 8194, 8195, 8196, 8197, 8198, 8199, 8200, 8201, 8202, 8232, 8233,
    8239, 8287, 12288]

/-- A word: not empty, without white space. -/
def Word (s : Str) : Prop := s ≠ [] ∧ ∀ c ∈ s, Str.isSpace c = false

end Logs

end Verif
