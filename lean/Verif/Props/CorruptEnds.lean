import Verif.Proof.CorruptEnds
import Verif.Props.CorruptInstruction

/-! # C117: when random program corruption ends -/

namespace Verif
open Spec

theorem least_minAddr {prog : Program} {low : Nat} (h : Least prog low) : minAddr prog = low :=
  minAddr_least prog _ _ h.2.1 (by have := h.1; omega) (.inr h.2.2)

theorem badPercent_false (p : Rat) : badPercent p = false := by
  unfold badPercent
  rw [Bool.and_eq_false_iff]
  by_cases h : 0 > p
  · right
    rw [decide_eq_false_iff_not]
    intro h2
    have : (0 : Rat) > 100 := lt_trans h2 h
    revert this; decide
  · left; simpa using h

theorem leftToHit_reachable (prog : Program) (low : Nat) : leftToHit prog.length low prog = reachable prog low := by
  unfold leftToHit reachable
  rw [List.countP_eq_length_filter]
  congr 1
  apply List.filter_congr
  intro k _
  rw [Nat.add_comm, Nat.mul_comm]

/-- **C117, the exact condition.**  Corruption can return, for some behaviour of the
generator, exactly when the number of instructions to corrupt, at least one and the
product rounded up, is at most the number of words, counted in fours from the least
address and not beyond the size of the program, where the program has one instruction.
In particular words after a gap do not count when they lie too far. -/
theorem C117_ends_iff (prog : Program) (low : Nat) (hl : Least prog low) (percent prod : Rat) (maxAmount : Int) :
    (∃ ds r, corruptProgram prog percent prod maxAmount ds = some (.ok r)) ↔
      max 1 prod ≤ (reachable prog low : Rat) := by
  have hk : corruptedAmount prod ≤ reachable prog low ↔ max 1 prod ≤ (reachable prog low : Rat) := by
    unfold corruptedAmount
    rw [Int.toNat_le, Rat.ceil_le_iff]
    simp
  rw [← hk]
  unfold corruptProgram
  simp only [badPercent_false, Bool.false_eq_true, if_false, least_minAddr hl]
  constructor
  · rintro ⟨ds, r, h⟩
    have := cpLoop_enough _ _ _ _ _ h
    rwa [leftToHit_reachable] at this
  · intro h
    rw [← leftToHit_reachable] at h
    obtain ⟨ds, hd⟩ := cpLoop_can_end (maxA := (max 1 maxAmount).toNat) (by omega) _ _ h
    obtain ⟨r, hr⟩ := hd _ (Nat.le_refl _)
    exact ⟨ds, _, hr⟩

/-- **C117, no way back is ever cut off.**  With at most 32 errors for an instruction and
enough such words, whatever has been drawn so far, corruption has returned or some further
draws make it return. -/
theorem C117_never_stuck (prog : Program) (low : Nat) (hl : Least prog low) (percent prod : Rat) (maxAmount : Int)
    (h32 : maxAmount ≤ 32) (hr : max 1 prod ≤ (reachable prog low : Rat)) (ds : Draws) :
    (∃ r, corruptProgram prog percent prod maxAmount ds = some (.ok r)) ∨
    ∃ more r, corruptProgram prog percent prod maxAmount (ds ++ more) = some (.ok (r, [])) := by
  have hk : corruptedAmount prod ≤ leftToHit prog.length low prog := by
    rw [leftToHit_reachable]
    unfold corruptedAmount
    rw [Int.toNat_le, Rat.ceil_le_iff]
    simpa using hr
  unfold corruptProgram
  simp only [badPercent_false, Bool.false_eq_true, if_false, least_minAddr hl]
  cases hc : cpLoop (max 1 maxAmount).toNat prog.length low ds.length (corruptedAmount prod) prog ds with
  | none =>
    right
    obtain ⟨ext, he⟩ := cpLoop_extends (by omega) (by omega) _ _ _ _ (Nat.le_refl _) hk hc
    obtain ⟨r, hr⟩ := he _ (Nat.le_refl _)
    exact ⟨ext, r, hr⟩
  | some o =>
    cases o with
    | error e => exact absurd hc (cpLoop_no_error (by omega) _ _ _ _ _)
    | ok r => exact .inl ⟨r, rfl⟩

/-- **C117 is false with more than 32 errors for an instruction**: once 33 or more of the
32 bits are to be flipped, corruption never returns, whatever is drawn next. -/
theorem C117_stuck (prog : Program) (low : Nat) (hl : Least prog low) (percent prod : Rat) (maxAmount : Int)
    (h33 : 32 < maxAmount) (k : Nat) (hk : k ≤ prog.length) (hs : isSingle (dictGet prog (low + 4 * k)) = true)
    (more : Draws) :
    corruptProgram prog percent prod maxAmount (k :: 32 :: more) = none := by
  obtain ⟨n, hn⟩ : ∃ n, corruptedAmount prod = n + 1 := by
    refine ⟨corruptedAmount prod - 1, ?_⟩
    have : 1 ≤ (max 1 prod).ceil := by
      have h1 : (1 : Rat) ≤ (((max 1 prod).ceil : Int) : Rat) := le_trans (le_max_left 1 prod) Rat.le_ceil
      exact_mod_cast h1
    unfold corruptedAmount
    omega
  unfold corruptProgram
  simp only [badPercent_false, Bool.false_eq_true, if_false, least_minAddr hl, hn, List.length_cons]
  obtain ⟨c, hc⟩ : ∃ c, dictGet prog (k * 4 + low) = some [c] := by
    rw [Nat.add_comm, Nat.mul_comm] 
    revert hs
    rcases dictGet prog (low + 4 * k) with _ | (_ | ⟨c, _ | ⟨_, _⟩⟩) <;> simp [isSingle]
  unfold cpLoop
  simp only [bind, Rnd.seq]
  have h1 : randint 0 prog.length (k :: 32 :: more) = some (.ok (k, 32 :: more)) := by
    simp only [randint]
    rw [if_neg (by omega), Nat.mod_eq_of_lt (by omega)]
    simp
  have h2 : randint 1 (max 1 maxAmount).toNat (32 :: more) = some (.ok (33, more)) := by
    simp only [randint]
    rw [if_neg (by omega), Nat.mod_eq_of_lt (by omega)]
  have h3 : corruptBits 31 0 33 c.encoding more = none :=
    (C19_no_error 31 0 33 c.encoding more).2 (by omega) (by omega)
  rw [h1]
  dsimp only
  rw [hc]
  simp only [Rnd.seq, h2, h3]

/-- Three instructions of which the last lies after a gap: it is not reached, so two of
three can be corrupted and not all. -/
theorem C117_case :
    let prog : Program := [(100, [⟨7, 100⟩]), (104, [⟨8, 104⟩]), (200, [⟨9, 200⟩])]
    Least prog 100 ∧ reachable prog 100 = 2 ∧
      (∃ ds r, corruptProgram prog 60 (9 / 5) 1 ds = some (.ok r)) ∧
      ¬ ∃ ds r, corruptProgram prog 100 3 1 ds = some (.ok r) := by
  have hl : Least [(100, [⟨7, 100⟩]), (104, [⟨8, 104⟩]), (200, [(⟨9, 200⟩ : CInst)])] 100 := by
    refine ⟨by decide, by decide, by decide⟩
  have hr : reachable [(100, [⟨7, 100⟩]), (104, [⟨8, 104⟩]), (200, [(⟨9, 200⟩ : CInst)])] 100 = 2 := by decide +kernel
  refine ⟨hl, hr, ?_, ?_⟩
  · rw [C117_ends_iff _ _ hl, hr]; decide +kernel
  · rw [C117_ends_iff _ _ hl, hr]; decide +kernel

end Verif
