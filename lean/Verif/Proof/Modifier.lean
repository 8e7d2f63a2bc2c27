import Verif.Model.Modifier
import Verif.Proof.BitQueue

namespace Verif
open Spec

theorem applyEdit_eq (inst : Nat) (f : Field) (v : Nat) :
    applyEdit inst (f, v) = .ok (overlay inst (fieldPos f) (bitsAt v 0 4)) := by
  cases f
  · exact copyBits_overlay v inst 0 28 4 3 (by omega) (by omega) (by omega) (by omega)
  · exact copyBits_overlay v inst 0 21 4 3 (by omega) (by omega) (by omega) (by omega)
  · exact copyBits_overlay v inst 0 16 4 3 (by omega) (by omega) (by omega) (by omega)
  · exact copyBits_overlay v inst 0 12 4 3 (by omega) (by omega) (by omega) (by omega)
  · exact copyBits_overlay v inst 0 8 4 3 (by omega) (by omega) (by omega) (by omega)
  · exact copyBits_overlay v inst 0 0 4 3 (by omega) (by omega) (by omega) (by omega)

theorem fieldPos_disjoint (f g : Field) (h : f ≠ g) :
    fieldPos f + 4 ≤ fieldPos g ∨ fieldPos g + 4 ≤ fieldPos f := by
  cases f <;> cases g <;> simp_all [fieldPos]

theorem applyEdits_spec (es : List (Field × Nat)) : ∀ inst : Nat,
    ∃ r, applyEdits inst es = .ok r ∧
      (∀ f, bitsAt r (fieldPos f) 4 =
        match lastEdit f es with
        | some v => bitsAt v 0 4
        | none => bitsAt inst (fieldPos f) 4) ∧
      (∀ i, ¬ inSomeField i → r.testBit i = inst.testBit i) := by
  induction es with
  | nil => intro inst; exact ⟨inst, rfl, fun f => rfl, fun i _ => rfl⟩
  | cons e es ih =>
    intro inst
    obtain ⟨g, v⟩ := e
    obtain ⟨r, h1, h2, h3⟩ := ih (overlay inst (fieldPos g) (bitsAt v 0 4))
    refine ⟨r, ?_, ?_, ?_⟩
    · simp only [applyEdits, applyEdit_eq, bind, Except.bind]
      exact h1
    · intro f
      rw [h2 f]
      simp only [lastEdit]
      cases lastEdit f es with
      | some w => rfl
      | none =>
        by_cases hgf : g = f
        · subst hgf
          simp only [if_true]
          have := bitsAt_overlay_self inst (fieldPos g) (bitsAt v 0 4)
          rwa [length_bitsAt] at this
        · simp only [hgf, if_false]
          exact bitsAt_overlay_other _ _ _ _ _ (by
            rw [length_bitsAt]
            rcases fieldPos_disjoint f g (fun h => hgf h.symm) with h | h
            · left; omega
            · right; omega)
    · intro i hi
      rw [h3 i hi, testBit_overlay, if_neg]
      rw [length_bitsAt]
      intro h
      exact hi ⟨g, h⟩

end Verif
