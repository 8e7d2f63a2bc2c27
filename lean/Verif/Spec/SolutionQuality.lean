import Mathlib.Algebra.Order.Field.Rat

/-! # Specification of the measures of a candidate program -/

namespace Verif.Spec

/-- All ways of choosing one element of every list. -/
def choices {α : Type} : List (List α) → List (List α)
  | [] => [[]]
  | c :: cs => c.flatMap fun x => (choices cs).map (x :: ·)

/-- `a` should be tried before `b`: a higher score, or the same score and a
smaller encoding. -/
def Better (score₁ score₂ : Rat) (enc₁ enc₂ : Nat) : Prop :=
  score₂ < score₁ ∨ score₁ = score₂ ∧ enc₁ < enc₂

instance (s₁ s₂ : Rat) (e₁ e₂ : Nat) : Decidable (Better s₁ s₂ e₁ e₂) := by
  unfold Better; infer_instance

/-- The relative rank of `c` in `v`: its place when the candidates are tried in
order, divided by their number. -/
def relRank {α : Type} (score : α → Rat) (enc : α → Nat) (v : List α) (c : α) : Rat :=
  ((v.filter fun x => Better (score x) (score c) (enc x) (enc c)).length + 1 : Rat) / v.length

/-- The number the candidates of an address are ordered by, from the smallest encoding
of the address. -/
def trialKey (least : Nat) (score : Rat) (enc : Nat) : Rat :=
  if least = 0 then 0 else score * 10 ^ 9 + (least : Rat) / enc

/-- `least` is the smallest encoding of the list (and of `sys.maxsize`). -/
def LeastEncoding {α : Type} (enc : α → Nat) (v : List α) (least : Nat) : Prop :=
  (∀ x ∈ v, least ≤ enc x) ∧ least ≤ 2 ^ 63 - 1 ∧ (least = 2 ^ 63 - 1 ∨ ∃ x ∈ v, enc x = least)

/-- `w` is the order in which the candidates `v` are tried: the same candidates, from the
largest number to the smallest, those with the same number in the order they were in. -/
def TriedIn {α : Type} (score : α → Rat) (enc : α → Nat) (v w : List α) : Prop :=
  ∃ least, LeastEncoding enc v least ∧ w.Perm v ∧
    w.Pairwise (fun a b => trialKey least (score b) (enc b) ≤ trialKey least (score a) (enc a)) ∧
    ∀ k, w.filter (fun x => trialKey least (score x) (enc x) = k) = v.filter fun x => trialKey least (score x) (enc x) = k

/-- The depth of an original: the candidates tried up to the first that looks like it (one
more than all when none does), as a part of all. -/
def depthIn {α : Type} (like : α → Bool) (w : List α) : Rat :=
  ((w.takeWhile fun x => !like x).length + 1 : Rat) / w.length

end Verif.Spec
