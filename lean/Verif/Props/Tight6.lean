import Verif.Props.RuleValues
import Verif.Props.Tight

/-!
# When the rules fail (C91)
-/

namespace Verif

open Spec

/-- **C91** Exactly when a counting rule fails, and how: the first time it is asked, when
a settled candidate has a value that is not counted; and whenever it is asked about an
address that the program does not have. It raises a key error. -/
theorem C91_counting_fails {κ : Type} [DecidableEq κ] (r : CountRule κ) (counts : List (κ × Nat)) (hn : (counts.map (·.1)).Nodup)
    (pass position : Int) (cache : List (κ × Rat)) (prog : RuleProg) (e : Err) :
    countRecover r counts pass cache prog position = .error e ↔
      e = .key ∧ ((cache = [] ∧ ∃ i ∈ settled prog, ∃ v ∈ r.field i, v ∉ counts.map (·.1)) ∨ position ∉ prog.map (·.1)) := by
  have habs : dictGet prog position = none ↔ position ∉ prog.map (·.1) := dictGet_eq_none prog position
  by_cases hm : cache = [] ∧ ∃ i ∈ settled prog, ∃ v ∈ r.field i, v ∉ counts.map (·.1)
  · obtain ⟨rfl, hs⟩ := hm
    rw [C91_counting_missing r counts pass position prog hs]
    constructor
    · intro h; cases h; exact ⟨rfl, .inl ⟨rfl, hs⟩⟩
    · rintro ⟨rfl, _⟩; rfl
  · have hk : ∃ c, countCache r counts cache prog = .ok c := by
      unfold countCache
      by_cases hc : cache = []
      · subst hc
        rw [if_pos (by simp)]
        obtain ⟨c, h, _⟩ := remainingScores_kept r counts hn prog (by
          intro i hi v hv
          by_contra hv'
          exact hm ⟨rfl, i, hi, v, hv, hv'⟩)
        exact ⟨c, h⟩
      · rw [if_neg (by simpa using hc)]
        exact ⟨_, rfl⟩
    obtain ⟨c, hk⟩ := hk
    rw [← habs]
    unfold countRecover
    rw [hk]
    show (match dictGet prog position with
      | none => (.error .key : Py (List (κ × Rat) × RuleProg × Bool))
      | some insts => .ok (c, dictSet prog position (countUpdate r (r.name ++ toString pass) c insts).1,
          (countUpdate r (r.name ++ toString pass) c insts).2)) = .error e ↔ _
    cases hp : dictGet prog position with
    | none =>
      constructor
      · intro h; cases h; exact ⟨rfl, .inr rfl⟩
      · rintro ⟨rfl, _⟩; rfl
    | some l =>
      refine ⟨fun h => (by cases h), ?_⟩
      rintro ⟨_, h | h⟩
      · exact absurd h hm
      · cases h

/-- An address that the program does not have. -/
example : (countRecover instructionCount [(1, 2)] 1 [] [(4, [ruleSample false [] [] []])] 8).map (·.2.2) = .error .key := by
  decide +kernel

/-- **C91** The other rules fail too, with a key error, on an address that the program does
not have. -/
theorem C91_absent (coll : Collector) (pass position : Int) (prog : RuleProg) (h : position ∉ prog.map (·.1)) :
    distanceRecover coll pass prog position = .error .key ∧
    (Conditions (at_ prog (position - 4)) → Conditions (at_ prog (position + 4)) → cfgRecover pass prog position = .error .key) := by
  have habs := (dictGet_eq_none prog position).2 h
  constructor
  · unfold distanceRecover
    rw [habs]
  · intro h1 h2
    obtain ⟨s, s1, _⟩ := cfgCount_counted _ h1
    obtain ⟨t, t1, _⟩ := cfgCount_counted _ h2
    have : dictGet (answers prog) position = none := by
      unfold answers
      rw [dictGet_map_snd, habs]
      rfl
    unfold cfgRecover cfgRuleScores
    rw [answers_get, answers_get, s1, t1, this]
    rfl

example : (cfgRecover 1 [(4, [condSample 0 true])] 8).map (·.2) = .error .key ∧
    (distanceRecover {} 1 [(4, [condSample 0 true])] 8).map (·.2) = .error .key :=
  ⟨by decide +kernel, by decide +kernel⟩

end Verif
