import Verif.Model.Strings

/-!
# Lines and words

The methods of Python strings and text files which `jobs.py` and `logfiles.py` use.  Line ends are `\n`, white space is ASCII.
-/

namespace Verif

namespace Str

/-- `f.readlines()`: the lines with their ends. -/
def readlines : Str → List Str
  | [] => []
  | c :: cs =>
    if c = '\n' then [c] :: readlines cs
    else
      match readlines cs with
      | [] => [[c]]
      | l :: ls => (c :: l) :: ls

/-- `s.split()`. -/
def words : Str → List Str
  | [] => []
  | c :: cs =>
    if isSpace c then words cs
    else
      match cs with
      | [] => [[c]]
      | d :: _ =>
        if isSpace d then [c] :: words cs
        else
          match words cs with
          | [] => [[c]]
          | w :: ws => (c :: w) :: ws

end Str

end Verif
