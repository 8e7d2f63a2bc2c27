import Verif.Model.Blaum
import Verif.Spec.Round
import Mathlib.Tactic.Linarith
import Mathlib.Data.Rat.Cast.Order

/-! # Property C16: the lattice interleaving matrix -/

namespace Verif
open Spec

theorem pyRound_spec (q : Rat) : |((pyRound q : Int) : Rat) - q| ≤ 1 / 2 := by
  have h1 := Int.floor_le q
  have h2 := Int.lt_floor_add_one q
  change ((q.floor : Int) : Rat) ≤ q at h1
  change q < ((q.floor : Int) : Rat) + 1 at h2
  unfold pyRound
  dsimp only
  rw [abs_le]
  split
  · constructor <;> linarith
  · split
    · push_cast
      constructor <;> linarith
    · split
      · constructor <;> linarith
      · push_cast
        constructor <;> linarith

/-- A message smaller than half a packet gives no packet. -/
theorem pyRound_small {q : Rat} (h0 : 0 ≤ q) (h : q < 1 / 2) : pyRound q = 0 := by
  have hf : q.floor = 0 := by
    change ⌊q⌋ = 0
    rw [Int.floor_eq_iff]
    constructor
    · simpa using h0
    · push_cast; linarith
  unfold pyRound
  rw [hf]
  simp only [Int.cast_zero, sub_zero]
  rw [if_pos h]

/-- Rounding a quotient: the divisor is not zero, and the result is the nearest whole
number, the even one of two. -/
theorem roundDiv_iff (a b m : Int) : roundDiv a b = .ok m ↔ Rounds a b m := by
  have key : ∀ q : Rat, pyRound q = m ↔ |(m : Rat) - q| ≤ 1 / 2 ∧ (|(m : Rat) - q| = 1 / 2 → m % 2 = 0) := by
    intro q
    have h1 := Int.floor_le q
    have h2 := Int.lt_floor_add_one q
    change ((q.floor : Int) : Rat) ≤ q at h1
    change q < ((q.floor : Int) : Rat) + 1 at h2
    generalize hf : q.floor = f at h1 h2
    have hm : ∀ k : Int, (k : Rat) < (m : Rat) + 1 → k ≤ m := by
      intro k hk
      have : ((k : Int) : Rat) < ((m + 1 : Int) : Rat) := by push_cast; exact hk
      have := Int.cast_lt.1 this
      omega
    have hm' : ∀ k : Int, (m : Rat) < (k : Rat) + 1 → m ≤ k := by
      intro k hk
      have : ((m : Int) : Rat) < ((k + 1 : Int) : Rat) := by push_cast; exact hk
      have := Int.cast_lt.1 this
      omega
    have hff : |(m : Rat) - q| ≤ 1 / 2 → m = f ∨ m = f + 1 := by
      intro hab
      rw [abs_le] at hab
      have a1 := hm f (by linarith [hab.1])
      have a2 := hm' (f + 1) (by push_cast; linarith [hab.2])
      omega
    unfold pyRound
    dsimp only
    rw [hf]
    split
    · rename_i hd
      constructor
      · rintro rfl
        have : |(f : Rat) - q| < 1 / 2 := by rw [abs_lt]; constructor <;> linarith
        exact ⟨le_of_lt this, fun h => absurd h (ne_of_lt this)⟩
      · rintro ⟨hab, _⟩
        rcases hff hab with h | h
        · exact h.symm
        · rw [h, abs_le] at hab
          push_cast at hab
          linarith [hab.2]
    · rename_i hd
      split
      · rename_i hd2
        constructor
        · rintro rfl
          have : |((f + 1 : Int) : Rat) - q| < 1 / 2 := by push_cast; rw [abs_lt]; constructor <;> linarith
          exact ⟨le_of_lt this, fun h => absurd h (ne_of_lt this)⟩
        · rintro ⟨hab, _⟩
          rcases hff hab with h | h
          · rw [h, abs_le] at hab
            linarith [hab.1]
          · exact h.symm
      · rename_i hd2
        have hq : q - f = 1 / 2 := by linarith
        have e1 : |(f : Rat) - q| = 1 / 2 := by
          rw [abs_of_nonpos (by linarith)]; linarith
        have e2 : |((f + 1 : Int) : Rat) - q| = 1 / 2 := by
          push_cast
          rw [abs_of_nonneg (by linarith)]; linarith
        split
        · rename_i hev
          constructor
          · rintro rfl
            exact ⟨le_of_eq e1, fun _ => hev⟩
          · rintro ⟨hab, hodd⟩
            rcases hff hab with h | h
            · exact h.symm
            · subst h
              have := hodd e2
              omega
        · rename_i hev
          constructor
          · rintro rfl
            exact ⟨le_of_eq e2, fun _ => by omega⟩
          · rintro ⟨hab, hodd⟩
            rcases hff hab with h | h
            · subst h
              exact absurd (hodd e1) hev
            · exact h.symm
  unfold roundDiv Rounds
  split
  · simp [*]
  · rw [Except.ok.injEq, key]
    simp [*]

/-- **C16.**  When a matrix is returned, it has the requested shape, its
entries name packets `0..m-1` for `m` the rounded number of packets, and
horizontally adjacent cells are in different packets when `m` is at least 2. -/
theorem C16_blaum (isqrt : Int → Int) (message packet width height : Int) (mat : List (List Int))
    (h : blaum isqrt message packet width height = .ok mat) :
    ∃ w h' m : Int, Rounds message packet m ∧ 1 ≤ m ∧
      (width ≠ -1 → w = width) ∧ (height ≠ -1 → h' = height) ∧
      (width = -1 → Rounds message height w) ∧
      (height = -1 → Rounds message width h') ∧
      mat.length = h'.toNat ∧ (∀ row ∈ mat, row.length = w.toNat) ∧
      (∀ row ∈ mat, ∀ e ∈ row, 0 ≤ e ∧ e < m) ∧
      (2 ≤ m → ∀ row ∈ mat, ∀ i (hi : i + 1 < row.length), row[i] ≠ row[i + 1]) := by
  have hshape : ∃ w h' : Int, (width ≠ -1 → w = width) ∧ (height ≠ -1 → h' = height) ∧
      (width = -1 → roundDiv message height = .ok w) ∧
      (height = -1 → roundDiv message width = .ok h') ∧
      ∃ m, roundDiv message packet = .ok m ∧ ¬ 2 * m - 1 < 0 ∧
        mat = blaumRows m (isqrt (2 * m - 1)) w h' := by
    unfold blaum at h
    have fin : ∀ w h' : Int, (do
        let m ← roundDiv message packet
        if 2 * m - 1 < 0 then Except.error Err.value
        else pure (blaumRows m (isqrt (2 * m - 1)) w h') : Py _) = .ok mat →
        ∃ m, roundDiv message packet = .ok m ∧ ¬ 2 * m - 1 < 0 ∧
          mat = blaumRows m (isqrt (2 * m - 1)) w h' := by
      intro w h' hh
      simp only [bind, Except.bind] at hh
      split at hh
      · simp at hh
      · rename_i m hm
        split at hh
        · simp at hh
        · rename_i hneg
          simp only [pure, Except.pure, Except.ok.injEq] at hh
          exact ⟨m, hm, hneg, hh.symm⟩
    by_cases c1 : width ≠ -1 ∧ height = -1
    · rw [if_pos c1] at h
      cases hr : roundDiv message width with
      | error e => rw [hr] at h; simp [bind, Except.bind] at h
      | ok h' =>
        rw [hr] at h
        exact ⟨width, h', fun _ => rfl, fun a => absurd c1.2 a, fun a => absurd a c1.1,
          fun _ => rfl, fin _ _ h⟩
    · rw [if_neg c1] at h
      by_cases c2 : height ≠ -1 ∧ width = -1
      · rw [if_pos c2] at h
        cases hr : roundDiv message height with
        | error e => rw [hr] at h; simp [bind, Except.bind] at h
        | ok w =>
          rw [hr] at h
          exact ⟨w, height, fun a => absurd c2.2 a, fun _ => rfl, fun _ => rfl,
            fun a => absurd a c2.1, fin _ _ h⟩
      · rw [if_neg c2] at h
        by_cases c3 : height = -1 ∧ width = -1
        · rw [if_pos c3] at h
          simp [bind, Except.bind] at h
        · rw [if_neg c3] at h
          exact ⟨width, height, fun _ => rfl, fun _ => rfl, fun a => by omega, fun a => by omega,
            fin _ _ h⟩
  obtain ⟨w, h', s1, s2, s3, s4, m, hm, hneg, rfl⟩ := hshape
  refine ⟨w, h', m, (roundDiv_iff _ _ _).1 hm, by omega, s1, s2, fun h => (roundDiv_iff _ _ _).1 (s3 h),
    fun h => (roundDiv_iff _ _ _).1 (s4 h), ?_, ?_, ?_, ?_⟩
  · simp [blaumRows]
  · intro row hr
    unfold blaumRows at hr
    rw [List.mem_map] at hr
    obtain ⟨y, _, rfl⟩ := hr
    simp
  · intro row hr e he
    unfold blaumRows at hr
    rw [List.mem_map] at hr
    obtain ⟨y, _, rfl⟩ := hr
    rw [List.mem_map] at he
    obtain ⟨x, _, rfl⟩ := he
    refine ⟨abs_nonneg _, ?_⟩
    rw [abs_lt]
    generalize (x : Int) - (y : Int) * isqrt (2 * m - 1) = a
    have h1 := Int.tmod_lt_of_pos a (show 0 < m by omega)
    have h2 := Int.tmod_lt_of_pos (-a) (show 0 < m by omega)
    rw [Int.neg_tmod] at h2
    omega
  · intro h2m row hr i hi
    unfold blaumRows at hr
    rw [List.mem_map] at hr
    obtain ⟨y, _, rfl⟩ := hr
    simp only [List.getElem_map, List.getElem_range]
    generalize (y : Int) * isqrt (2 * m - 1) = c
    intro e
    have key : ∀ a : Int, 0 ≤ a → |a.tmod m| ≠ |(a + 1).tmod m| := by
      intro a ha e
      rw [Int.tmod_eq_emod_of_nonneg ha, Int.tmod_eq_emod_of_nonneg (by omega),
        abs_of_nonneg (Int.emod_nonneg _ (by omega)),
        abs_of_nonneg (Int.emod_nonneg _ (by omega))] at e
      have h1 : (a + 1 - a) % m = 0 := by rw [Int.sub_emod, e]; simp
      rw [show a + 1 - a = 1 by ring, Int.emod_eq_of_lt (by omega) (by omega)] at h1
      omega
    by_cases hc : 0 ≤ (i : Int) - c
    · apply key _ hc
      rw [e]; push_cast; congr 2; ring
    · have habs : ∀ a : Int, |a.tmod m| = |(-a).tmod m| := by
        intro a
        rw [Int.neg_tmod, abs_neg]
      apply key (-((i : Int) + 1 - c)) (by omega)
      rw [habs, neg_neg, show -((i : Int) + 1 - c) + 1 = -((i : Int) - c) by ring, ← habs]
      push_cast at e
      exact e.symm

/-- C16, rejections: no dimension given, a zero divisor, an empty message, or
less than half a packet. -/
theorem C16_rejections (isqrt : Int → Int) (message packet width height : Int) :
    blaum isqrt message packet (-1) (-1) = .error .runtime ∧
    (width ≠ -1 → height ≠ -1 → packet = 0 →
      blaum isqrt message packet width height = .error .zeroDiv) ∧
    (height = -1 → width = 0 → blaum isqrt message packet width height = .error .zeroDiv) ∧
    (width = -1 → height = 0 → blaum isqrt message packet width height = .error .zeroDiv) ∧
    (0 ≤ message → 2 * message < packet → ¬ (width = -1 ∧ height = -1) →
      ¬ (height = -1 ∧ width = 0) → ¬ (width = -1 ∧ height = 0) →
      blaum isqrt message packet width height = .error .value) := by
  refine ⟨by simp [blaum, bind, Except.bind], ?_, ?_, ?_, ?_⟩
  · rintro h1 h2 rfl
    simp [blaum, h1, h2, roundDiv, bind, Except.bind, pure, Except.pure]
  · rintro rfl rfl
    simp [blaum, roundDiv, bind, Except.bind]
  · rintro rfl rfl
    simp [blaum, roundDiv, bind, Except.bind]
  · intro h0 hp hw hh hh'
    have hm : roundDiv message packet = .ok 0 := by
      unfold roundDiv
      rw [if_neg (by omega), pyRound_small]
      · have hpp : (0 : Rat) < packet := by exact_mod_cast (show 0 < packet by omega)
        have : (0 : Rat) ≤ message := by exact_mod_cast h0
        exact div_nonneg this (le_of_lt hpp)
      · have hpp : (0 : Rat) < packet := by exact_mod_cast (show 0 < packet by omega)
        rw [div_lt_iff₀ hpp]
        have : (2 * message : Rat) < packet := by exact_mod_cast hp
        linarith
    unfold blaum
    by_cases c1 : width ≠ -1 ∧ height = -1
    · rw [if_pos c1]
      have : width ≠ 0 := fun e => hh ⟨c1.2, e⟩
      simp [roundDiv, this] at hm ⊢
      simp [bind, Except.bind, hm]
    · rw [if_neg c1]
      by_cases c2 : height ≠ -1 ∧ width = -1
      · rw [if_pos c2]
        have : height ≠ 0 := fun e => hh' ⟨c2.2, e⟩
        simp [roundDiv, this] at hm ⊢
        simp [bind, Except.bind, hm]
      · rw [if_neg c2, if_neg (by omega)]
        simp [hm, bind, Except.bind, pure, Except.pure]

/-- The case of the unit test in the project, and a rejected message. -/
example : blaum (fun _ => 3) 16 4 4 (-1) =
    .ok [[0, 1, 2, 3], [3, 2, 1, 0], [2, 1, 0, 3], [1, 0, 3, 2]] := by decide +kernel

end Verif
