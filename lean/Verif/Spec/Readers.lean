/-! # Specification of function listings -/

namespace Verif.Spec

/-- Hexadecimal digits and their values. -/
def hexTable : List (Char × Nat) :=
  [('0', 0), ('1', 1), ('2', 2), ('3', 3), ('4', 4), ('5', 5), ('6', 6), ('7', 7), ('8', 8), ('9', 9),
   ('a', 10), ('b', 11), ('c', 12), ('d', 13), ('e', 14), ('f', 15),
   ('A', 10), ('B', 11), ('C', 12), ('D', 13), ('E', 14), ('F', 15)]

/-- `t` is a hexadecimal numeral, with or without `0x`, of the number `n`. -/
def Numeral (t : List Char) (n : Nat) : Prop :=
  ∃ ds : List (Char × Nat), ds ≠ [] ∧ (∀ d ∈ ds, d ∈ hexTable) ∧
    (t = ds.map (·.1) ∨ t = '0' :: 'x' :: ds.map (·.1)) ∧ n = ds.foldl (fun a d => 16 * a + d.2) 0

/-- The white characters of ASCII. -/
def whites : List Char := [' ', '\t', '\n', '\r', Char.ofNat 11, Char.ofNat 12]

/-- White space. -/
def White (s : List Char) : Prop := ∀ c ∈ s, c ∈ whites

/-- A line of the function table: blank, or an address, a name and white space. -/
inductive FnLine
  | blank (ws : List Char)
  | entry (text : List Char) (address : Nat) (name pad : List Char)

/-- A line of code: junk, or an address, an encoding and the rest. -/
inductive CodeLine
  | junk (text : List Char)
  | entry (aText : List Char) (address : Nat) (eText : List Char) (encoding : Nat) (rest : List Char)

/-- A section: of code, or another with any lines. -/
inductive Sec
  | code (name : List Char) (lines : List CodeLine)
  | other (name : List Char) (lines : List (List Char))

/-- A listing: the function table and the sections. -/
structure Listing where
  functions : List FnLine
  sections : List Sec

/-- The text of a line. -/
def FnLine.text : FnLine → List Char
  | .blank ws => ws
  | .entry t _ n pad => t ++ ';' :: (n ++ pad)

/-- The text of a line. -/
def CodeLine.text : CodeLine → List Char
  | .junk t => t
  | .entry a _ e _ r => a ++ ';' :: (e ++ r)

/-- The lines of a section. -/
def Sec.text : Sec → List (List Char)
  | .code n ls => ('.' :: n ++ ['\n']) :: ls.map CodeLine.text
  | .other n ls => ('.' :: n ++ ['\n']) :: ls

/-- The lines of the file. -/
def Listing.text (l : Listing) : List (List Char) :=
  ".functions\n".toList :: l.functions.map FnLine.text ++ l.sections.flatMap Sec.text

/-- The names of code sections start with one of these. -/
def codeNames : List (List Char) := ["init".toList, "text".toList, "plt".toList, "fini".toList]

/-- Names have no `;` and do not end in white space, numerals denote their numbers. -/
def FnLine.Ok : FnLine → Prop
  | .blank ws => White ws
  | .entry t a n pad => Numeral t a ∧ ';' ∉ n ∧ (∀ c, n.getLast? = some c → c ∉ whites) ∧ White pad

/-- The rest of a line is white space or starts with `;`; there is no `;` in junk,
and no dot at its start. -/
def CodeLine.Ok : CodeLine → Prop
  | .junk t => ';' ∉ t ∧ t.head? ≠ some '.'
  | .entry a va e ve r => Numeral a va ∧ Numeral e ve ∧ (White r ∨ ∃ t, r = ';' :: t)

/-- Section names have no dot; code sections have the names of code sections, the
others neither those nor that of a function table. -/
def Sec.Ok : Sec → Prop
  | .code n ls => '.' ∉ n ∧ (∃ k ∈ codeNames, k <+: n) ∧ ∀ l ∈ ls, l.Ok
  | .other n ls => '.' ∉ n ∧ (∀ k ∈ "function".toList :: codeNames, ¬ k <+: n ++ ['\n']) ∧
      ∀ l ∈ ls, l.head? ≠ some '.'

/-- A well-formed listing. -/
def Listing.Ok (l : Listing) : Prop := (∀ f ∈ l.functions, f.Ok) ∧ ∀ s ∈ l.sections, s.Ok

/-- The function headers, in order. -/
def Listing.headers (l : Listing) : List (Int × List Char) :=
  l.functions.filterMap fun
    | .blank _ => none
    | .entry _ a n _ => some ((a : Int), n)

/-- The instructions of a section: encoding and address. -/
def Sec.insts : Sec → List (Int × Int)
  | .code _ ls => ls.filterMap fun
      | .junk _ => none
      | .entry _ a _ e _ => some ((e : Int), (a : Int))
  | .other _ _ => []

/-- The instructions, in the order of the file. -/
def Listing.insts (l : Listing) : List (Int × Int) := l.sections.flatMap Sec.insts

/-- The function that the `i`-th of some instructions belongs to: the one that
starts at the latest of the instructions up to it that starts a function. -/
def owner (starts : List Int) (insts : List (Int × Int)) (i : Nat) : Option Int :=
  ((insts.take (i + 1)).map (·.2)).reverse.find? fun a => starts.contains a

/-- The instructions belonging to the function that starts at `a`, in order. -/
def owned (starts : List Int) (insts : List (Int × Int)) (a : Int) : List (Int × Int) :=
  (insts.zipIdx.filter fun p => owner starts insts p.2 == some a).map (·.1)

/-- The name of the function that starts at `a`: the last one listed. -/
def lastName (headers : List (Int × List Char)) (a : Int) : Option (List Char) :=
  (headers.reverse.find? fun p => p.1 == a).map (·.2)

/-- Without repetitions, the first of equal values kept. -/
def firsts : List Int → List Int
  | [] => []
  | a :: t => a :: (firsts t).filter (· ≠ a)

/-! ### The text of the online disassembler -/

/-- A letter, a digit or an underscore. -/
def Word (c : Char) : Prop := c.isAlphanum = true ∨ c = '_'

/-- A function header: a section, an address and a name in angle brackets. -/
def Header (l : List Char) : Prop :=
  ∃ (name addr ws : List Char) (c : Char) (rest : List Char),
    l = '.' :: (name ++ ':' :: (addr ++ (ws ++ '<' :: c :: rest))) ∧
    name ≠ [] ∧ (∀ x ∈ name, Word x) ∧ addr ≠ [] ∧ (∀ x ∈ addr, x ∈ "0123456789abcdef".toList) ∧
    White ws ∧ (c ∈ "$|+".toList ∨ Word c)

/-- Two hexadecimal digits. -/
abbrev Digits := (Char × Nat) × (Char × Nat)

/-- A line: one that does not start with a space, or an instruction: a section, an
address, the four bytes from the lowest and the rest. -/
inductive TextLine
  | other (text : List Char)
  | inst (sect addr : List Char) (address : Nat) (b0 b1 b2 b3 : Digits) (rest : List Char)

/-- Its text. -/
def TextLine.text : TextLine → List Char
  | .other t => t
  | .inst s a _ b0 b1 b2 b3 r =>
      ' ' :: (s ++ ':' :: (a ++ ' ' :: b0.1.1 :: b0.2.1 :: ' ' :: b1.1.1 :: b1.2.1 :: ' ' :: b2.1.1 :: b2.2.1 ::
        ' ' :: b3.1.1 :: b3.2.1 :: r))

/-- Two digits of the table. -/
def Digits.Ok (b : Digits) : Prop := b.1 ∈ hexTable ∧ b.2 ∈ hexTable

/-- Well-formed lines: the rest is after two spaces, or the line end. -/
def TextLine.Ok : TextLine → Prop
  | .other t => t ≠ [] ∧ t.head? ≠ some ' '
  | .inst s a v b0 b1 b2 b3 r => ':' ∉ s ∧ Numeral a v ∧ b0.Ok ∧ b1.Ok ∧ b2.Ok ∧ b3.Ok ∧
      ((∀ c ∈ r, c = '\n') ∨ ∃ t, r = ' ' :: ' ' :: t)

/-- The value of two digits. -/
def Digits.value (b : Digits) : Nat := 16 * b.1.2 + b.2.2

/-- Encoding and address of the instruction of a line. -/
def TextLine.content : TextLine → Option (Int × Int)
  | .other _ => none
  | .inst _ _ v b0 b1 b2 b3 _ =>
      some (((b0.value + 256 * b1.value + 65536 * b2.value + 16777216 * b3.value : Nat) : Int), (v : Int))

end Verif.Spec
