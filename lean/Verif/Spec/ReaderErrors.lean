import Verif.Spec.Readers
import Verif.Model.Basic

/-! # Specification: which listings are malformed, and where -/

namespace Verif.Spec

/-- Hexadecimal digits with single underscores between them, and their value. -/
inductive HexDigits : List Char → Nat → Prop
  | one {c : Char} {v : Nat} : (c, v) ∈ hexTable → HexDigits [c] v
  | more {t : List Char} {n : Nat} {c : Char} {v : Nat} : HexDigits t n → (c, v) ∈ hexTable → HexDigits (t ++ [c]) (16 * n + v)
  | under {t : List Char} {n : Nat} {c : Char} {v : Nat} : HexDigits t n → (c, v) ∈ hexTable →
      HexDigits (t ++ ['_', c]) (16 * n + v)

/-- What may come before the digits. -/
def hexPrefixes : List (List Char) := [[], ['0', 'x'], ['0', 'X'], ['0', 'x', '_'], ['0', 'X', '_']]

/-- A text that is a number in base 16: white space, a sign or none, a prefix or none and
digits, white space. -/
def HexText (s : List Char) (n : Int) : Prop :=
  ∃ (w1 sign pre body w2 : List Char) (m : Nat), s = w1 ++ sign ++ pre ++ body ++ w2 ∧ White w1 ∧ White w2 ∧
    pre ∈ hexPrefixes ∧ HexDigits body m ∧
    ((sign = [] ∧ n = m) ∨ (sign = ['+'] ∧ n = m) ∨ (sign = ['-'] ∧ n = -(m : Int)))

/-- The section that a line opens: what is between its first two dots. -/
def opens (line : List Char) : Option (List Char) :=
  match line with
  | '.' :: t => some (t.takeWhile (· ≠ '.'))
  | _ => none

/-- The section after some lines. -/
def sectAfter (lines : List (List Char)) : Option (List Char) := (lines.filterMap opens).getLast?

/-- A line that cannot be read in a section, and why: there is no section; in the function
table there is not exactly one semicolon with a number before it; in code there is a
semicolon and one of the first two fields is not a number, or the two numbers do not give
an instruction. -/
def BadLine {α : Type} (mk : Int → Int → Py α) (sect : Option (List Char)) (line : List Char) (e : Err) : Prop :=
  ¬ White line ∧ opens line = none ∧
  match sect with
  | none => e = .attribute
  | some s =>
      ("function".toList <+: s ∧ e = .value ∧
        ¬ ∃ a n v, line = a ++ ';' :: n ∧ ';' ∉ a ∧ ';' ∉ n ∧ HexText a v) ∨
      (¬ "function".toList <+: s ∧ (∃ k ∈ codeNames, k <+: s) ∧ ∃ a f r, line = a ++ ';' :: (f ++ r) ∧ ';' ∉ a ∧ ';' ∉ f ∧
        (r = [] ∨ r.head? = some ';') ∧
        ((e = .value ∧ ¬ ∃ v w, HexText a v ∧ HexText f w) ∨ ∃ v w, HexText a v ∧ HexText f w ∧ mk w v = .error e))

/-- A line of code with two numbers, the address and the encoding. -/
def CodeAt (sect : Option (List Char)) (line : List Char) (address encoding : Int) : Prop :=
  ¬ White line ∧ opens line = none ∧ ∃ s, sect = some s ∧ ¬ "function".toList <+: s ∧ (∃ k ∈ codeNames, k <+: s) ∧
    ∃ a f r, line = a ++ ';' :: (f ++ r) ∧ ';' ∉ a ∧ ';' ∉ f ∧ (r = [] ∨ r.head? = some ';') ∧ HexText a address ∧ HexText f encoding

/-- The text of a number with its bytes in the opposite order: white space is left out and
of the digits the fourth pair comes first. -/
def swapped (s : List Char) : List Char :=
  let h := s.filter fun c => c ∉ [' ', '\t', '\n', '\r']
  (h.drop 6).take 2 ++ (h.drop 4).take 2 ++ (h.drop 2).take 2 ++ h.take 2

/-- `t` up to the first two spaces in a row. -/
def Upto (t p : List Char) : Prop :=
  (∀ u v, p ≠ u ++ ' ' :: ' ' :: v) ∧
    ((t = p) ∨ ∃ r, t = p ++ ' ' :: ' ' :: r ∧ p.getLast? ≠ some ' ')

/-- An instruction line of a text listing that cannot be read, and why: there is no colon
or no space after it; the address or the bytes are not a number; or they give no
instruction.  Line ends do not count. -/
def BadText {α : Type} (mk : Int → Int → Py α) (line : List Char) (e : Err) : Prop :=
  ∃ l nls, line = l ++ nls ∧ (∀ c ∈ nls, c = '\n') ∧ l.getLast? ≠ some '\n' ∧ l.head? = some ' ' ∧
    ((e = .index ∧ ':' ∉ l) ∨
     ∃ p t q, l = p ++ ':' :: t ∧ ':' ∉ p ∧ Upto t q ∧
      ((e = .index ∧ ' ' ∉ q) ∨
       ∃ a b, q = a ++ ' ' :: b ∧ ' ' ∉ a ∧
        ((e = .value ∧ ¬ ∃ v w, HexText a v ∧ HexText (swapped b) w) ∨
          ∃ v w, HexText a v ∧ HexText (swapped b) w ∧ mk w v = .error e)))

end Verif.Spec
