import Verif.Model.Instruction

/-!
# `semantic_codec/architecture/disassembler_readers.py`

A file is the list of its lines, each with its line end; a line is a list of
characters.  White space and word characters are the ASCII ones.  The creation of
an instruction is a parameter `mk encoding address` (see `encodingBytes`): it may
raise.  The instruction set is `ARM_SET`, the default.
-/

namespace Verif

/-- What `str.strip` removes. -/
def isBlank (c : Char) : Bool :=
  c = ' ' || c = '\t' || c = '\n' || c = '\r' || c.toNat = 11 || c.toNat = 12

/-- `str.rstrip`. -/
def rstrip (s : List Char) : List Char := (s.reverse.dropWhile isBlank).reverse

/-- `str.strip`. -/
def strip (s : List Char) : List Char := rstrip (s.dropWhile isBlank)

/-- `str.split(c)` for one character. -/
def splitAtChar (c : Char) : List Char → List (List Char)
  | [] => [[]]
  | x :: t =>
      if x = c then [] :: splitAtChar c t
      else match splitAtChar c t with
        | [] => [[x]]
        | p :: ps => (x :: p) :: ps

/-- The value of a hexadecimal digit. -/
def hexDigit (c : Char) : Option Nat :=
  if '0'.toNat ≤ c.toNat ∧ c.toNat ≤ '9'.toNat then some (c.toNat - '0'.toNat)
  else if 'a'.toNat ≤ c.toNat ∧ c.toNat ≤ 'f'.toNat then some (c.toNat - 'a'.toNat + 10)
  else if 'A'.toNat ≤ c.toNat ∧ c.toNat ≤ 'F'.toNat then some (c.toNat - 'A'.toNat + 10)
  else none

/-- Digits, single underscores allowed between them. -/
def hexLoop : List Char → Nat → Bool → Option Nat
  | [], acc, digit => if digit then some acc else none
  | c :: t, acc, digit =>
      if c = '_' then (if digit then hexLoop t acc false else none)
      else match hexDigit c with
        | none => none
        | some d => hexLoop t (acc * 16 + d) true

/-- Digits after an optional `0x`. -/
def hexBody (s : List Char) : Option Nat :=
  match s with
  | '0' :: 'x' :: '_' :: t => hexLoop t 0 false
  | '0' :: 'X' :: '_' :: t => hexLoop t 0 false
  | '0' :: 'x' :: t => hexLoop t 0 false
  | '0' :: 'X' :: t => hexLoop t 0 false
  | t => hexLoop t 0 false

/-- A sign, then the digits. -/
def signedHex : List Char → Option Int
  | [] => none
  | c :: t =>
      if c = '-' then (hexBody t).map fun n => -((n : Nat) : Int)
      else if c = '+' then (hexBody t).map fun n => ((n : Nat) : Int)
      else (hexBody (c :: t)).map fun n => ((n : Nat) : Int)

/-- `int(s, 16)`. -/
def pyInt16 (s : List Char) : Py Int :=
  match signedHex (strip s) with
  | some n => .ok n
  | none => .error .value

/-! ### `ElfioTextDisassembleReader` -/

/-- What one line amounts to. -/
inductive RdEvent
  | skip
  | sect (name : List Char)
  | func (address : Int) (name : List Char)
  | inst (encoding address : Int)
  deriving DecidableEq

/-- `section.startswith('init') or …`, disassembler_readers.py lines 63-64. -/
def isCode (s : List Char) : Bool :=
  "init".toList.isPrefixOf s || "text".toList.isPrefixOf s || "plt".toList.isPrefixOf s
    || "fini".toList.isPrefixOf s

/-- Reading one line in a section, disassembler_readers.py lines 55-72. -/
def classify (sect : Option (List Char)) (line : List Char) : Py RdEvent :=
  if strip line = [] then .ok .skip
  else if line.head? = some '.' then
    match splitAtChar '.' line with
    | _ :: s :: _ => .ok (.sect s)
    | _ => .error .index
  else match sect with
    | none => .error .attribute
    | some s =>
        if "function".toList.isPrefixOf s then
          match splitAtChar ';' line with
          | [a, name] => do
              let a ← pyInt16 a
              pure (.func a (rstrip name))
          | _ => .error .value
        else if isCode s then
          match splitAtChar ';' line with
          | a :: e :: _ => do
              let e ← pyInt16 e
              let a ← pyInt16 a
              pure (.inst e a)
          | _ => .ok .skip
        else .ok .skip

/-- The variables of `read`: the function objects made so far (name and
instructions), the dictionary from addresses to them, the current one, the
instructions and the section. -/
structure RdSt (α : Type) where
  objs : List (List Char × List α) := []
  dict : List (Int × Nat) := []
  cur : Option Nat := none
  insts : List α := []
  sect : Option (List Char) := none

/-- Acting on one line, disassembler_readers.py lines 58, 62 and 73-78. -/
def rdApply {α : Type} (mk : Int → Int → Py α) (s : RdSt α) : RdEvent → Py (RdSt α)
  | .skip => .ok s
  | .sect n => .ok { s with sect := some n }
  | .func a n => .ok { s with objs := s.objs ++ [(n, [])], dict := dictSet s.dict a s.objs.length }
  | .inst e a => do
      let i ← mk e a
      let cur := match dictGet s.dict a with
        | some k => some k
        | none => s.cur
      let objs := match cur with
        | some k => s.objs.modify k fun f => (f.1, f.2 ++ [i])
        | none => s.objs
      pure { s with objs := objs, cur := cur, insts := s.insts ++ [i] }

/-- One line. -/
def rdLine {α : Type} (mk : Int → Int → Py α) (s : RdSt α) (line : List Char) : Py (RdSt α) := do
  let ev ← classify s.sect line
  rdApply mk s ev

/-- `read`, disassembler_readers.py lines 46-82: functions (name and
instructions) and instructions. -/
def elfioRead {α : Type} (mk : Int → Int → Py α) (lines : List (List Char)) :
    Py (List (List Char × List α) × List α) := do
  let s ← lines.foldlM (rdLine mk) {}
  pure (s.dict.filterMap (fun p => s.objs[p.2]?), s.insts)

/-! ### `TextDisassembleReader` -/

/-- `rstrip('\n')`. -/
def rstripNl (s : List Char) : List Char := (s.reverse.dropWhile (· = '\n')).reverse

/-- `s.split(":", 1)[1]` and the like: what follows the first separator. -/
def afterFirst (c : Char) (s : List Char) : Py (List Char) :=
  match s.dropWhile (· ≠ c) with
  | [] => .error .index
  | _ :: t => .ok t

/-- `s.split("  ", 1)[0]`. -/
def beforeDouble : List Char → List Char
  | ' ' :: ' ' :: _ => []
  | c :: t => c :: beforeDouble t
  | [] => []

/-- The instruction of a line, disassembler_readers.py lines 120-123 and 138-140. -/
def rdTextInst {α : Type} (mk : Int → Int → Py α) (line : List Char) : Py α := do
  let t ← afterFirst ':' line
  let e := beforeDouble t
  let e0 := e.takeWhile (· ≠ ' ')
  let e1 ← afterFirst ' ' e
  let enc := reverseText e1
  let a ← pyInt16 e0
  let v ← pyInt16 enc
  mk v a

/-- `\w`. -/
def isWord (c : Char) : Bool := c.isAlphanum || c = '_'

/-- `[0-9a-f]`. -/
def isLowHex (c : Char) : Bool :=
  ('0'.toNat ≤ c.toNat && c.toNat ≤ '9'.toNat) || ('a'.toNat ≤ c.toNat && c.toNat ≤ 'f'.toNat)

/-- The regular expression of line 102: a dot, word characters, a colon, digits,
white space, `<` and a dollar, bar, plus or word character. Each repetition is
followed by a character it cannot contain. -/
def isHeader (line : List Char) : Bool :=
  match line with
  | '.' :: t =>
      !(t.takeWhile isWord).isEmpty &&
      match t.dropWhile isWord with
      | ':' :: t =>
          !(t.takeWhile isLowHex).isEmpty &&
          match (t.dropWhile isLowHex).dropWhile isBlank with
          | '<' :: c :: _ => c = '$' || c = '|' || c = '+' || isWord c
          | _ => false
      | _ => false
  | _ => false

/-- One line of `read_functions`, disassembler_readers.py lines 112-123. `k in
result` compares a text with function objects and is never true. -/
def textFnLine {α : Type} (mk : Int → Int → Py α) (s : List (List Char × List α)) (line : List Char) :
    Py (List (List Char × List α)) :=
  let line := rstripNl line
  if isHeader line then .ok (s ++ [(line, [])])
  else if line.head? = some ' ' then do
    let i ← rdTextInst mk line
    pure (s.modify (s.length - 1) fun f => (f.1, f.2 ++ [i]))
  else .ok s

/-- `read_functions`, disassembler_readers.py lines 100-125. -/
def textReadFunctions {α : Type} (mk : Int → Int → Py α) (lines : List (List Char)) :
    Py (List (List Char × List α)) :=
  lines.foldlM (textFnLine mk) [("no_method".toList, [])]

/-- One line of `read_instructions`, disassembler_readers.py lines 137-141; a line
is never empty, it has at least its end. -/
def textInstLine {α : Type} (mk : Int → Int → Py α) (s : List α) (line : List Char) : Py (List α) :=
  match line with
  | [] => .error .index
  | ' ' :: _ => do
      let i ← rdTextInst mk (rstripNl line)
      pure (s ++ [i])
  | _ => .ok s

/-- `read_instructions`, disassembler_readers.py lines 130-143. -/
def textReadInstructions {α : Type} (mk : Int → Int → Py α) (lines : List (List Char)) : Py (List α) :=
  lines.foldlM (textInstLine mk) []

end Verif
