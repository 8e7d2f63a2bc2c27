import Verif.Model.Metadata

/-! # Specification of the collected statistics

Only the record of instruction answers comes from the model. -/

namespace Verif.Spec

/-- The defined instructions of a program. -/
def defined (p : List MInst) : List MInst := p.filter fun i => !i.ignore

/-- The last instruction before `j` that reads or writes `s`. -/
def lastTouch (p : List MInst) (s j : Nat) : Option Nat :=
  (List.range j).reverse.find? fun i =>
    match p[i]? with
    | none => false
    | some x => decide (s ∈ x.read ∨ s ∈ x.written)

/-- The number of instructions strictly between a write of `s` and its read by
instruction `j`, when `j` reads `s` and the last instruction before `j` that
touches `s` writes it. -/
def distAt (p : List MInst) (s j : Nat) : Option Nat :=
  match p[j]?, lastTouch p s j with
  | some y, some i =>
      match p[i]? with
      | none => none
      | some x => if s ∈ y.read ∧ s ∈ x.written then some (j - i - 1) else none
  | _, _ => none

/-- All write-to-read distances of storage `s` in a list of instructions. -/
def distances (p : List MInst) (s : Nat) : List Nat :=
  (List.range p.length).filterMap (distAt p s)

/-- The number of addresses having a defined candidate that satisfies `f`. -/
def addressesWith {α : Type} (program : List (α × List MInst)) (f : MInst → Bool) : Nat :=
  program.countP fun q => q.2.any fun i => !i.ignore && f i

end Verif.Spec
