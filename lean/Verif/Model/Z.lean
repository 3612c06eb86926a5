import Verif.Model.ACCalls
import Verif.Model.CTW
import Verif.Model.FMN
import Verif.Model.Strings

/-!
# The command line program (z.py)

Simplifications.
* Paths are elements of a type with equality: two paths name the same file exactly if they are equal.  A file is a list of bytes.
  Files are not changed by others, and files can be created, read and written.
* `docopt` has parsed the command line; what is left of it is the command, the value of `-m`, and what `int` makes of the value
  of `-d` (`none` if it raises).  The usage names the commands `compress` and `uncompress`, so these are the keys of `args`.
* Output is buffered: the four bytes of the length are not yet in the file when the input is first read.
* What is printed is modelled only as far as printing can raise; the elapsed time is positive.
* The C library of `modelfast` can be compiled.
* `byteorder` is a parameter.
-/

namespace Verif

namespace Z

/-- The commands of the usage (z.py:3-4). -/
inductive Command | compress | uncompress
  deriving DecidableEq

/-- The values of `-m` (z.py:48-72); `other` is any other string. -/
inductive ModelName
  | CTW | FastCTW | PTW_FastCTW | FMN_FastCTW | CTW_KT | KT | PTW | FMN | PTW_CTW | FMN_CTW | CTW_PTW | other
  deriving DecidableEq

/-- Whether constructing the model raises (z.py:48-72): model.py has no `CommonHistory`, and `Error` is not defined. -/
def ModelName.construct : ModelName → Py Unit
  | .PTW_FastCTW | .FMN_FastCTW | .PTW_CTW | .FMN_CTW => .error .attributeError
  | .other => .error .nameError
  | _ => .ok ()

/-- `msglen.to_bytes(4, byteorder)` for a byte order (z.py:84). -/
def toBytes4 (little : Bool) (n : ℕ) : Py (List ℕ) :=
  if n < 256 ^ 4 then
    let l := (List.range 4).map fun i => n / 256 ^ i % 256
    .ok (if little then l else l.reverse)
  else .error .overflowError

/-- The bits that the encoder has returned before an exception (ac.py:22-23). -/
noncomputable def emitted {σ : Type} (P : Predictor σ Bool) (N fuel : ℕ) : AC.Enc → σ → List Bool → List Bool
  | _, _, [] => []
  | s, st, b :: bs =>
    match AC.encode P N fuel s st b with
    | .error _ => []
    | .ok (o, s', st') => o ++ emitted P N fuel s' st' bs

/-- The bytes that `compress_bytes` yields, and how it ends (ac.py:27-34): a group of fewer than eight bits is lost if an exception
interrupts it. -/
noncomputable def yielded {σ : Type} (P : Predictor σ Bool) (N fuel : ℕ) (st : σ) (data : List ℕ) : List ℕ × Run Unit :=
  match AC.compressBytes P N fuel st data with
  | .ok c => (c, .ok ())
  | .error e =>
    let o := emitted P N fuel (AC.Enc.init N) st (AC.unpack data)
    (AC.pack (o.take (o.length / 8 * 8)), .error e)

/-- `ac.compress_bytes(probmodel, data)` (z.py:86) for the models that can be constructed (z.py:48-70).  The calls are those of
`AC.asCalled`; the methods of `modelfast.CTW_KT` have the parameters of those of `model.CTW_KT` (modelfast.py:181, 185). -/
noncomputable def compressed (fuel : ℕ) (m : ModelName) (depth : ℤ) (data : List ℕ) : List ℕ × Run Unit :=
  let kt := KTBinary.init none
  let ctx : List Bool → List Bool := CTW.mkcontext depth.toNat false
  match m with
  | .CTW => yielded (AC.asCalled .CTW (CTW.predictor KTBinary.predictor kt ctx)) 32 fuel (CTW.init kt) data
  | .FastCTW | .CTW_KT => yielded (AC.asCalled .CTW_KT (CTW.predictor KTBinary.predictor kt ctx)) 32 fuel (CTW.init kt) data
  | .CTW_PTW =>
    yielded (AC.asCalled .CTW (CTW.predictor (PTW.predictor KTBinary.predictor kt 0) (PTW.init kt 0) ctx)) 32 fuel
      (CTW.init (PTW.init kt 0)) data
  | .KT =>
    match KT.init [false, true] none with
    | .ok s => yielded (AC.asCalled .KT KT.predictor) 32 fuel s data
    | .error e => ([], .error (.raised e))
  | .PTW => yielded (AC.asCalled .PTW (PTW.predictor KTBinary.predictor kt 0)) 32 fuel (PTW.init kt 0) data
  | .FMN =>
    match FMN.init (LogStore.store KTBinary) KTBinary.predictor kt 10 with
    | .ok s => yielded (AC.asCalled .FMN (FMN.predictor (LogStore.store KTBinary) KTBinary.predictor 10)) 32 fuel s data
    | .error e => ([], .error (.raised e))
  | _ => ([], .ok ())

/-- The files. -/
abbrev Files (Path : Type) := Path → Option (List ℕ)

section Main

variable {Path : Type} [DecidableEq Path]

/-- The program (z.py:42-105): the files when it ends, and whether it ends normally.  The input is opened before the output is
emptied, and first read afterwards; if both are the same file then it is empty by then.  The statistics divide by the length of
the message (z.py:92). -/
noncomputable def main (fuel : ℕ) (little : Bool) (cmd : Command) (m : ModelName) (depth : Option ℤ) (inp out : Path)
    (fs : Files Path) : Files Path × Run Unit :=
  match depth with
  | none => (fs, .error (.raised .valueError))
  | some depth =>
    match m.construct with
    | .error e => (fs, .error (.raised e))
    | .ok () =>
      match cmd with
      | .uncompress => (fs, .error (.raised .keyError))
      | .compress =>
        match fs inp with
        | none => (fs, .error (.raised .osError))
        | some data =>
          match toBytes4 little data.length with
          | .error e => (Function.update fs out (some []), .error (.raised e))
          | .ok header =>
            let (code, result) := compressed fuel m depth (if inp = out then [] else data)
            let fs' := Function.update fs out (some (header ++ code))
            match result with
            | .error e => (fs', .error e)
            | .ok () => (fs', if data.length = 0 then .error (.raised .zeroDivisionError) else .ok ())

/-- What the program writes to the output file from beginning to end (z.py:82-88), or nothing if it does not open it. -/
noncomputable def written (fuel : ℕ) (little : Bool) (cmd : Command) (m : ModelName) (depth : Option ℤ) (inp out : Path)
    (fs : Files Path) : Option (List ℕ) :=
  match cmd, depth, m.construct, fs inp with
  | .compress, some depth, .ok (), some data =>
    match toBytes4 little data.length with
    | .error _ => some []
    | .ok header => some (header ++ (compressed fuel m depth (if inp = out then [] else data)).1)
  | _, _, _, _ => none

/-- The files at every moment of a run (z.py:42-105), which are also those left if it is stopped there or the disk is full: as they
were before the output file is opened, and then with a beginning of what is written.  How much is kept in buffers is up to the
system, so that there is a stage for every length. -/
noncomputable def stages (fuel : ℕ) (little : Bool) (cmd : Command) (m : ModelName) (depth : Option ℤ) (inp out : Path)
    (fs : Files Path) : List (Files Path) :=
  fs :: match written fuel little cmd m depth inp out fs with
    | none => []
    | some l => (List.range (l.length + 1)).map fun k => Function.update fs out (some (l.take k))

end Main

/-! ### Progress -/

/-- `progress_bar` (z.py:22-29): the bar, and the number printed after it. -/
noncomputable def progressBar (frac : ℝ) : Str × ℤ :=
  let bar : ℤ := 60
  let prog := pyInt (frac * bar)
  (List.replicate prog.toNat '=' ++ (if prog < bar then '>' :: List.replicate (bar - prog - 1).toNat ' ' else []),
    pyInt (frac * 100))

/-- What `_bytes_with_progress` does (z.py:31-39): it yields a byte or draws the progress. -/
inductive Event | byte (b : ℕ) | draw (frac : ℝ)

/-- The loop of `_bytes_with_progress` (z.py:33-39), when `rest` is left of the file and `count` bytes have been yielded. -/
noncomputable def progressLoop (nbytes : ℕ) (count : ℕ) (rest : List ℕ) : List Event × Py Unit :=
  if h : rest = [] then ([], .ok ())
  else
    let chunk := rest.take 1024
    let count := count + chunk.length
    match pyDiv count nbytes with
    | .error e => (chunk.map .byte, .error e)
    | .ok frac =>
      let (es, r) := progressLoop nbytes count (rest.drop 1024)
      (chunk.map .byte ++ .draw frac :: es, r)
termination_by rest.length
decreasing_by
  have := List.length_pos_iff.mpr h
  simp only [List.length_drop]
  omega

end Z

end Verif
