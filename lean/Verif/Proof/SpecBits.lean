import Verif.Spec.Bits
import Mathlib.Data.Nat.Bitwise
import Mathlib.Tactic.Ring

/-! Lemmas about the specification vocabulary for bits. -/

namespace Verif.Spec

@[simp] theorem length_bitsAt (v lo w : Nat) : (bitsAt v lo w).length = w := by simp [bitsAt]

theorem getElem_bitsAt (v lo w i : Nat) (h : i < (bitsAt v lo w).length) :
    (bitsAt v lo w)[i] = v.testBit (lo + i) := by simp [bitsAt]

theorem ofBits_lt (bs : List Bool) : ofBits bs < 2 ^ bs.length := by
  induction bs with
  | nil => simp [ofBits]
  | cons b bs ih =>
    simp only [ofBits, List.length_cons, Nat.pow_succ]
    have : b.toNat ≤ 1 := by cases b <;> simp
    omega

theorem testBit_ofBits (bs : List Bool) (i : Nat) :
    (ofBits bs).testBit i = bs[i]?.getD false := by
  induction bs generalizing i with
  | nil => simp [ofBits]
  | cons b bs ih =>
    cases i with
    | zero =>
      simp only [ofBits, Nat.testBit_zero, List.getElem?_cons_zero, Option.getD_some]
      cases b <;> simp
    | succ i =>
      simp only [ofBits, Nat.testBit_succ, List.getElem?_cons_succ]
      rw [show (b.toNat + 2 * ofBits bs) / 2 = ofBits bs by cases b <;> simp; omega]
      exact ih i

theorem testBit_overlay (v lo : Nat) (bs : List Bool) (i : Nat) :
    (overlay v lo bs).testBit i =
      if lo ≤ i ∧ i < lo + bs.length then bs[i - lo]?.getD false else v.testBit i := by
  unfold overlay
  rw [Nat.add_comm, Nat.testBit_two_pow_mul_add _ (Nat.mod_lt _ (Nat.two_pow_pos lo))]
  by_cases h1 : i < lo
  · rw [if_pos h1, if_neg (by omega), Nat.testBit_mod_two_pow]; simp [h1]
  · rw [if_neg h1, Nat.add_comm (ofBits bs), Nat.testBit_two_pow_mul_add _ (ofBits_lt bs)]
    by_cases h2 : i < lo + bs.length
    · rw [if_pos (by omega), if_pos (by omega), testBit_ofBits]
    · rw [if_neg (by omega), if_neg (by omega), Nat.testBit_div_two_pow]
      congr 1; omega

theorem bitsAt_eq_iff (v lo w : Nat) (bs : List Bool) :
    bitsAt v lo w = bs ↔ bs.length = w ∧ ∀ i, i < w → bs[i]? = some (v.testBit (lo + i)) := by
  constructor
  · rintro rfl
    refine ⟨by simp, fun i hi => ?_⟩
    simp [bitsAt, hi]
  · rintro ⟨h1, h2⟩
    apply List.ext_getElem?
    intro i
    by_cases hi : i < w
    · rw [h2 i hi]; simp [bitsAt, hi]
    · simp [bitsAt, hi, h1]

theorem bitsAt_overlay_self (v lo : Nat) (bs : List Bool) :
    bitsAt (overlay v lo bs) lo bs.length = bs := by
  rw [bitsAt_eq_iff]
  refine ⟨rfl, fun i hi => ?_⟩
  rw [testBit_overlay, if_pos (by omega), Nat.add_sub_cancel_left]
  simp [hi]

theorem bitsAt_overlay_other (v lo : Nat) (bs : List Bool) (lo' w' : Nat)
    (h : lo' + w' ≤ lo ∨ lo + bs.length ≤ lo') :
    bitsAt (overlay v lo bs) lo' w' = bitsAt v lo' w' := by
  unfold bitsAt
  apply List.map_congr_left
  intro i hi
  have := List.mem_range.1 hi
  rw [testBit_overlay, if_neg (by omega)]

@[simp] theorem length_stream (ws : List Nat) : (stream ws).length = 32 * ws.length := by
  induction ws with
  | nil => rfl
  | cons w ws ih =>
    simp only [stream, List.flatMap_cons, List.length_append, length_bitsAt, List.length_cons] at *
    omega

theorem stream_append (a b : List Nat) : stream (a ++ b) = stream a ++ stream b := by
  simp [stream]

@[simp] theorem stream_nil : stream [] = [] := rfl

@[simp] theorem stream_cons (w : Nat) (ws : List Nat) :
    stream (w :: ws) = bitsAt w 0 32 ++ stream ws := by simp [stream]

theorem bitsAt_add (v lo a b : Nat) : bitsAt v lo (a + b) = bitsAt v lo a ++ bitsAt v (lo + a) b := by
  simp only [bitsAt, List.range_add, List.map_append, List.map_map]
  congr 1
  apply List.map_congr_left
  intro i _
  simp [Nat.add_assoc]

theorem bitsAt_zero_val (lo w : Nat) : bitsAt 0 lo w = List.replicate w false := by
  simp [bitsAt, List.eq_replicate_iff]

end Verif.Spec
