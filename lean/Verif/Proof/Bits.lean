import Verif.Model.Bits
import Mathlib.Data.Nat.Bitwise

/-! Bit-level lemmas about `Bits`. -/

namespace Verif

theorem checkRange_ok {lo hi : Int} (h1 : lo ≤ hi) (h2 : 0 ≤ lo) (h3 : hi < 32) :
    checkRange lo hi = .ok () := by
  unfold checkRange
  rw [if_neg (by omega), if_neg (by omega)]

theorem checkRange_err {lo hi : Int} (h : ¬ (lo ≤ hi ∧ 0 ≤ lo ∧ hi < 32)) :
    checkRange lo hi = .error .runtime := by
  unfold checkRange
  by_cases h1 : lo > hi
  · rw [if_pos h1]
  · rw [if_neg h1, if_pos (by omega)]

theorem bitsSet_ok {h l : Int} (h1 : l ≤ h) (h2 : 0 ≤ l) (h3 : h < 32) :
    bitsSet h l = .ok ((2 ^ (h + 1).toNat - 1) ^^^ (2 ^ l.toNat - 1)) := by
  simp [bitsSet, checkRange_ok h1 h2 h3, bind, Except.bind, pure, Except.pure]

theorem bitsSet_err {h l : Int} (hh : ¬ (l ≤ h ∧ 0 ≤ l ∧ h < 32)) :
    bitsSet h l = .error .runtime := by
  simp [bitsSet, checkRange_err hh, bind, Except.bind]

theorem testBit_mask (a b i : Nat) (hab : b ≤ a) :
    ((2 ^ a - 1) ^^^ (2 ^ b - 1)).testBit i = (decide (b ≤ i) && decide (i < a)) := by
  rw [Nat.testBit_xor, Nat.testBit_two_pow_sub_one, Nat.testBit_two_pow_sub_one]
  by_cases h1 : i < a <;> by_cases h2 : i < b <;> simp [h1, h2] <;> omega

theorem testBit_andNot (v m i : Nat) :
    (andNot v m).testBit i = (v.testBit i && !m.testBit i) := by
  unfold andNot
  rw [Nat.testBit_xor, Nat.testBit_and]
  cases v.testBit i <;> cases m.testBit i <;> rfl

/-- Successful `copy_bits` with natural positions, bit by bit. -/
theorem copyBits_spec (vf vt : Nat) (sf st df : Int)
    (h1 : 0 ≤ sf) (h2 : sf ≤ st) (h3 : st < 32) (h4 : 0 ≤ df) (h5 : df + (st - sf) < 32) :
    ∃ r, copyBits vf vt sf st df = .ok r ∧
      ∀ i : Nat, r.testBit i =
        if df ≤ (i : Int) ∧ (i : Int) ≤ df + (st - sf)
        then vf.testBit ((i : Int) - df + sf).toNat else vt.testBit i := by
  have e1 : checkRange sf st = .ok () := checkRange_ok h2 h1 h3
  have e2 : checkRange df (df + (st - sf)) = .ok () := checkRange_ok (by omega) h4 h5
  have e3 := bitsSet_ok (h := df + (st - sf)) (l := df) (by omega) h4 h5
  unfold copyBits
  simp only [e1, e2, e3, bind, Except.bind, pure, Except.pure]
  by_cases hc : sf > df
  · rw [if_pos hc]
    refine ⟨_, rfl, fun i => ?_⟩
    rw [Nat.testBit_or, testBit_andNot, Nat.testBit_and, testBit_mask _ _ _ (by omega),
      Nat.testBit_shiftRight]
    by_cases hi : df ≤ (i : Int) ∧ (i : Int) ≤ df + (st - sf)
    · rw [if_pos hi, show (sf - df).toNat + i = ((i : Int) - df + sf).toNat by omega]
      have a1 : df.toNat ≤ i := by omega
      have a2 : i < (df + (st - sf) + 1).toNat := by omega
      simp [a1, a2]
    · rw [if_neg hi]
      have : ¬ (df.toNat ≤ i ∧ i < (df + (st - sf) + 1).toNat) := by omega
      by_cases a1 : df.toNat ≤ i
      · have a2 : ¬ i < (df + (st - sf) + 1).toNat := fun h => this ⟨a1, h⟩
        simp [a2]
      · simp [a1]
  · rw [if_neg hc]
    refine ⟨_, rfl, fun i => ?_⟩
    rw [Nat.testBit_or, testBit_andNot, Nat.testBit_and, testBit_mask _ _ _ (by omega),
      Nat.testBit_shiftLeft]
    by_cases hi : df ≤ (i : Int) ∧ (i : Int) ≤ df + (st - sf)
    · rw [if_pos hi, show i - (df - sf).toNat = ((i : Int) - df + sf).toNat by omega]
      have a1 : df.toNat ≤ i := by omega
      have a2 : i < (df + (st - sf) + 1).toNat := by omega
      have a3 : (df - sf).toNat ≤ i := by omega
      simp [a1, a2, a3]
    · rw [if_neg hi]
      have : ¬ (df.toNat ≤ i ∧ i < (df + (st - sf) + 1).toNat) := by omega
      by_cases a1 : df.toNat ≤ i
      · have a2 : ¬ i < (df + (st - sf) + 1).toNat := fun h => this ⟨a1, h⟩
        simp [a2]
      · simp [a1]

theorem copyBits_err (vf vt : Nat) (sf st df : Int)
    (h : ¬ (0 ≤ sf ∧ sf ≤ st ∧ st < 32 ∧ 0 ≤ df ∧ df + (st - sf) < 32)) :
    copyBits vf vt sf st df = .error .runtime := by
  unfold copyBits
  by_cases h1 : sf ≤ st ∧ 0 ≤ sf ∧ st < 32
  · have e1 : checkRange sf st = .ok () := checkRange_ok h1.1 h1.2.1 h1.2.2
    have e2 : checkRange df (df + (st - sf)) = .error .runtime := checkRange_err (by omega)
    simp [e1, e2, bind, Except.bind]
  · simp [checkRange_err h1, bind, Except.bind]

theorem and_ne_zero_iff (v m : Nat) :
    v &&& m ≠ 0 ↔ ∃ i, v.testBit i = true ∧ m.testBit i = true := by
  constructor
  · intro h
    obtain ⟨i, hi⟩ := Nat.exists_testBit_of_ne_zero h
    rw [Nat.testBit_and, Bool.and_eq_true] at hi
    exact ⟨i, hi⟩
  · rintro ⟨i, h1, h2⟩ h
    have := congrArg (fun n => n.testBit i) h
    simp [Nat.testBit_and, h1, h2] at this

end Verif
