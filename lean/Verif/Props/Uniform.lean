import Verif.Model.Probability
import Mathlib.Tactic.Ring
import Mathlib.Tactic.Linarith
import Mathlib.Tactic.FieldSimp
import Mathlib.Algebra.Order.Field.Basic
import Mathlib.Algebra.Order.Field.Rat

/-! # Property C120: the uniform distribution -/

namespace Verif

/-- **C120.**  The density is the number whose product with the length is one; equal ends raise. -/
theorem C120_total (a b p : Rat) :
    (uniform a b = .ok p ↔ p * (b - a) = 1) ∧ (uniform a b = .error .zeroDiv ↔ a = b) := by
  unfold uniform
  by_cases h : b - a = 0
  · rw [if_pos h]
    refine ⟨⟨fun e => (by cases e), fun e => ?_⟩, ⟨fun _ => (by linarith), fun _ => rfl⟩⟩
    rw [h, mul_zero] at e
    exact absurd e (by decide)
  · rw [if_neg h]
    refine ⟨⟨fun e => ?_, fun e => ?_⟩, ⟨fun e => (by cases e), fun e => ?_⟩⟩
    · cases e
      exact one_div_mul_cancel h
    · rw [eq_one_div_of_mul_eq_one_left e]
    · exact absurd (by rw [e, sub_self]) h

/-- **C120, consequences**: the sign, shifting, swapping and the length. -/
theorem C120_shape (a b p : Rat) (h : uniform a b = .ok p) :
    (0 < p ↔ a < b) ∧ (∀ t, uniform (a + t) (b + t) = .ok p) ∧ uniform b a = .ok (-p) ∧
      ∀ c d, (uniform c d = .ok p ↔ d - c = b - a) := by
  have hp := (C120_total a b p).1.1 h
  have hp0 : p ≠ 0 := by rintro rfl; rw [zero_mul] at hp; exact absurd hp (by decide)
  refine ⟨⟨fun hpos => ?_, fun hlt => ?_⟩, fun t => ?_, ?_, fun c d => ?_⟩
  · by_contra hc
    have : p * (b - a) ≤ 0 := mul_nonpos_of_nonneg_of_nonpos hpos.le (by linarith)
    linarith
  · by_contra hc
    have : p * (b - a) ≤ 0 := mul_nonpos_of_nonpos_of_nonneg (by linarith) (by linarith)
    linarith
  · rw [(C120_total _ _ _).1]
    linarith
  · rw [(C120_total _ _ _).1]
    linarith
  · rw [(C120_total _ _ _).1]
    constructor
    · intro e
      exact mul_left_cancel₀ hp0 (e.trans hp.symm)
    · intro e
      rw [e, hp]

/-- The interval from 2 to 6. -/
example : uniform 2 6 = .ok (1 / 4) ∧ uniform 6 2 = .ok (-(1 / 4)) ∧ uniform 3 3 = .error .zeroDiv := by
  decide +kernel

end Verif
