import Verif.Model.Readers

/-!
# The script `comparefiles.py`

The two places on disk are parameters: the lines of the file of results, and the files of
the directory in the order of `listdir`, each with its name and lines.
-/

namespace Verif

/-- One line of the results, comparefiles.py lines 10-13.  Unpacking anything but two
parts raises `ValueError`. -/
def equalsLine (d : List (List Char × Bool)) (line : List Char) : Py (List (List Char × Bool)) :=
  match splitAtChar ':' line with
  | [key, value] =>
      let key := ((splitAtChar '.' (strip key)).head?).getD []
      .ok (dictSet d (key ++ ['.', 'd', 'i', 's', 'a', 'm']) (decide (strip value = ['T', 'r', 'u', 'e'])))
  | _ => .error .value

/-- Reading the results, comparefiles.py lines 7-13. -/
def readEquals (lines : List (List Char)) : Py (List (List Char × Bool)) := lines.foldlM equalsLine []

/-- A printed line: the file, the number of the line, the original line and the line. -/
abbrev DiffRow := List Char × Nat × List Char × List Char

/-- The loop over the lines of a file, comparefiles.py lines 30-35, from line `k` on with
`diff` differences so far: what is printed and the exception, if any. -/
def compareFrom (name : List Char) (original : List (List Char)) :
    List (List Char) → Nat → Nat → List DiffRow × Option Err
  | [], _, _ => ([], none)
  | line :: rest, k, diff =>
      match original[k]? with
      | none => ([], some .index)
      | some o =>
          if o ≠ line then
            let r := compareFrom name original rest (k + 1) (diff + 1)
            if diff + 1 > 1 then ((name, k, strip o, strip line) :: r.1, r.2) else r
          else compareFrom name original rest (k + 1) diff

/-- The loop over the files, comparefiles.py lines 24-35. -/
def compareEach (equals : List (List Char × Bool)) (original : List (List Char)) :
    List (List Char × List (List Char)) → List DiffRow × Option Err
  | [] => ([], none)
  | f :: rest =>
      match dictGet equals f.1 with
      | none => ([], some .key)
      | some false => compareEach equals original rest
      | some true =>
          match compareFrom f.1 original f.2 0 0 with
          | (rows, some e) => (rows, some e)
          | (rows, none) =>
              let r := compareEach equals original rest
              (rows ++ r.1, r.2)

/-- `comparefiles.py`: what is printed and the exception, if any.  The original is the
first file of the directory, line 18. -/
def compareScript (results : List (List Char)) (files : List (List Char × List (List Char))) :
    List DiffRow × Option Err :=
  match readEquals results with
  | .error e => ([], some e)
  | .ok equals =>
      match files with
      | [] => ([], some .index)
      | f :: _ => compareEach equals f.2 files

end Verif
