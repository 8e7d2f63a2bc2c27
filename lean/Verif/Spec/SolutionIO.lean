/-! # The format of solution files

Numbers are little endian.  A file is the eight bytes of the magic number, the
number of entries in four bytes, and the entries; an entry is its address, the
number of its words, and its words, four bytes each. -/

namespace Verif.Spec

/-- Four little-endian bytes. -/
def le32 (n : Nat) : List UInt8 :=
  [UInt8.ofNat (n % 256), UInt8.ofNat (n / 2 ^ 8 % 256), UInt8.ofNat (n / 2 ^ 16 % 256),
    UInt8.ofNat (n / 2 ^ 24 % 256)]

/-- One entry of a file. -/
def entryBytes (e : Nat × List Nat) : List UInt8 :=
  le32 e.1 ++ le32 e.2.length ++ e.2.flatMap le32

/-- The magic number in the order of the file. -/
def header : List UInt8 := [0xF7, 0xE6, 0xC5, 0xA4, 0xF3, 0xE2, 0xC1, 0xA0]

/-- A whole file. -/
def solutionFile (es : List (Nat × List Nat)) : List UInt8 :=
  header ++ le32 es.length ++ es.flatMap entryBytes

/-- The words up to and including the first `e`. -/
def upTo (e : Nat) : List Nat → List Nat
  | [] => []
  | x :: xs => if x = e then [x] else x :: upTo e xs

/-- All numbers of an entry fit four bytes and it has a word. -/
def entryFits (e : Nat × List Nat) : Prop :=
  e.1 < 2 ^ 32 ∧ 0 < e.2.length ∧ e.2.length < 2 ^ 32 ∧ ∀ w ∈ e.2, w < 2 ^ 32

end Verif.Spec
