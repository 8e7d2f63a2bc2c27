import Verif.Model.Rules

/-! # Specification of what a scoring rule may do -/

namespace Verif.Spec

open Verif

/-- The score stored under `k` in the `i`-th candidate of address `a`. -/
def scoreAt (k : String) (prog : RuleProg) (a : Int) (i : Nat) : Option Rat :=
  (dictGet prog a).bind fun l => l[i]?.bind fun x => dictGet x.scores k

/-- Some score stored under `k` differs. -/
def Changed (k : String) (before after : RuleProg) : Prop :=
  ∃ a i, scoreAt k after a i ≠ scoreAt k before a i

/-- The addresses, in order, with the answers of their candidates, in order. -/
def candidates (prog : RuleProg) : List (Int × List RuleInst) :=
  prog.map fun q => (q.1, q.2.map (·.a))

/-- Only scores stored under `k` may differ. -/
def OnlyKey (k : String) (before after : RuleProg) : Prop :=
  candidates after = candidates before ∧
    ∀ k' ≠ k, ∀ a i, scoreAt k' after a i = scoreAt k' before a i

end Verif.Spec
