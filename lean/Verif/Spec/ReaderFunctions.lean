import Verif.Spec.ReaderErrors

/-! # Specification: the functions of any listing -/

namespace Verif.Spec

/-- What a line of a listing holds: an entry of the function table or code. -/
inductive Item
  | entry (address : Int) (name : List Char)
  | code (address encoding : Int)
  deriving DecidableEq

/-- A line of the function table: an address, a semicolon, a name and white space. -/
def TableAt (sect : Option (List Char)) (line : List Char) (address : Int) (name : List Char) : Prop :=
  ¬ White line ∧ opens line = none ∧ ∃ s, sect = some s ∧ "function".toList <+: s ∧
    ∃ a w, line = a ++ ';' :: (name ++ w) ∧ ';' ∉ a ∧ ';' ∉ name ++ w ∧ HexText a address ∧ White w ∧
      ∀ c ∈ name.getLast?, c ∉ whites

/-- What a line holds in a section. -/
def ItemAt (sect : Option (List Char)) (line : List Char) : Item → Prop
  | .entry a n => TableAt sect line a n
  | .code a e => CodeAt sect line a e

/-- The items of the lines, in order. -/
def Reads (lines : List (List Char)) (items : List Item) : Prop :=
  ∃ pieces : List (List Item), items = pieces.flatten ∧ pieces.length = lines.length ∧
    ∀ p line q, lines = p ++ line :: q → ∃ piece, pieces[p.length]? = some piece ∧
      ((∃ x, ItemAt (sectAfter p) line x ∧ piece = [x]) ∨ ((¬ ∃ x, ItemAt (sectAfter p) line x) ∧ piece = []))

/-- The entries among items. -/
def entries (items : List Item) : List (Int × List Char) :=
  items.filterMap fun x => match x with
    | .entry a n => some (a, n)
    | .code _ _ => none

/-- The number of the last entry for an address. -/
def lastEntry (es : List (Int × List Char)) (a : Int) : Option Nat :=
  ((List.range es.length).filter fun j => es[j]?.map (·.1) = some a).getLast?

/-- The places of code among items. -/
def codes (items : List Item) : List Nat :=
  (List.range items.length).filter fun (k : Nat) => match items[k]? with
    | some (Item.code _ _) => true
    | _ => false

/-- The entries that code refers to: those that are the last before it for its address. -/
def picks (items : List Item) : List Nat :=
  (List.range items.length).filterMap fun (k : Nat) => match items[k]? with
    | some (Item.code a _) => lastEntry (entries (items.take k)) a
    | _ => none

/-- The entry that the code at place `k` belongs to: the last one referred to, there or
before. -/
def ownerAt (items : List Item) (k : Nat) : Option Nat := (picks (items.take (k + 1))).getLast?

/-- The places of the code that belongs to an entry. -/
def placesOf (items : List Item) (j : Nat) : List Nat := (codes items).filter fun k => ownerAt items k = some j

/-- `i` is the instruction made from the code at place `k`. -/
def MadeFrom {α : Type} (mk : Int → Int → Py α) (items : List Item) (k : Nat) (i : α) : Prop :=
  ∃ a e, items[k]? = some (.code a e) ∧ mk e a = .ok i

end Verif.Spec
