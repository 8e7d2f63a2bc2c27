import Mathlib.Data.List.Basic

/-! # Specification of counting a field over an assignment -/

namespace Verif.Spec

variable {V I K : Type} [DecidableEq K]

/-- How often the field value `k` occurs among the assigned values that are not
ignored. -/
def occurrences (ignore : I → Bool) (field : I → List K) (vars : List V)
    (assignments : V → Option I) (k : K) : Nat :=
  (vars.map fun v =>
    match assignments v with
    | none => 0
    | some i => if ignore i then 0 else (field i).count k).sum

/-- What a table requires of `k`: the entry, and no occurrence without one. -/
def required (exact : List (K × Int)) (k : K) : Int :=
  match exact.find? fun p => p.1 = k with
  | some p => p.2
  | none => 0

/-- Every field value occurs exactly as often as required. -/
def Satisfies (ignore : I → Bool) (field : I → List K) (exact : List (K × Int))
    (vars : List V) (assignments : V → Option I) : Prop :=
  ∀ k, (occurrences ignore field vars assignments k : Int) = required exact k

/-- `full` assigns every variable, agrees with `part` where that is defined and
takes the rest from the domains. -/
def Completes (vars : List V) (domains : V → List I) (part full : V → Option I) : Prop :=
  ∀ v ∈ vars, ∃ i, full v = some i ∧
    match part v with
    | some j => i = j
    | none => i ∈ domains v

end Verif.Spec
