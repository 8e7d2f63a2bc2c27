import Verif.Model.Predict
import Verif.Spec.Predict
import Verif.Proof.Basic
import Verif.Proof.BitQueue
import Mathlib.Data.List.Nodup

/-! The loop of `predict_corruption`. -/

namespace Verif
open Spec

theorem mem_addErr (es : List ErrT) (t e : ErrT) : e ∈ addErr es t ↔ e ∈ es ∨ e = t := by
  unfold addErr
  split
  · rename_i h
    constructor
    · exact Or.inl
    · rintro (h' | rfl)
      · exact h'
      · exact h
  · simp

theorem nodup_addErr (es : List ErrT) (t : ErrT) (h : es.Nodup) : (addErr es t).Nodup := by
  unfold addErr
  split
  · exact h
  · rename_i h'
    rw [List.nodup_append]
    refine ⟨h, by simp, ?_⟩
    rintro a ha b hb rfl
    rw [List.mem_singleton] at hb
    subst hb
    exact h' ha

theorem foldl_addErr (ts : List ErrT) : ∀ es : List ErrT,
    (∀ e, e ∈ ts.foldl addErr es ↔ e ∈ es ∨ e ∈ ts) ∧ (es.Nodup → (ts.foldl addErr es).Nodup) := by
  induction ts with
  | nil => intro es; simp
  | cons t ts ih =>
    intro es
    obtain ⟨h1, h2⟩ := ih (addErr es t)
    refine ⟨fun e => ?_, fun h => h2 (nodup_addErr es t h)⟩
    rw [List.foldl_cons, h1, mem_addErr, List.mem_cons, or_assoc]

theorem foldl_predict (bpi total : Nat) (b : List Nat) : ∀ es : List ErrT,
    (∀ e, e ∈ b.foldl (fun es x =>
        if x < total then (errTuples bpi x).foldl addErr es else es) es ↔
      e ∈ es ∨ ∃ x ∈ b, x < total ∧ e ∈ errTuples bpi x) ∧
    (es.Nodup → (b.foldl (fun es x =>
        if x < total then (errTuples bpi x).foldl addErr es else es) es).Nodup) := by
  induction b with
  | nil => intro es; simp
  | cons x b ih =>
    intro es
    rw [List.foldl_cons]
    obtain ⟨h1, h2⟩ := ih (if x < total then (errTuples bpi x).foldl addErr es else es)
    refine ⟨fun e => ?_, fun h => h2 ?_⟩
    · rw [h1]
      by_cases hx : x < total
      · rw [if_pos hx, (foldl_addErr _ es).1]
        simp only [List.mem_cons, exists_eq_or_imp, hx, true_and, or_assoc]
      · rw [if_neg hx]
        simp only [List.mem_cons, exists_eq_or_imp, hx, false_and, false_or]
    · split
      · exact (foldl_addErr _ es).2 h
      · exact h

/-- How many turns the loop makes. -/
def predictRounds (x0 jump total : Nat) : Nat := (total + jump - 1 - x0) / jump

theorem lt_predictRounds {x0 jump total t : Nat} (hj : 0 < jump) :
    t < predictRounds x0 jump total ↔ x0 + t * jump < total := by
  unfold predictRounds
  rw [Nat.lt_iff_add_one_le, Nat.le_div_iff_mul_le hj, Nat.add_mul]
  omega

theorem predictLoop (bpi jump total x0 : Nat) (b0 : List Nat) (hj : 0 < jump) (fuel : Nat)
    (hf : predictRounds x0 jump total < fuel) :
    ∃ s, whileLoop (firstBelow total) (fun s => .ok (predictTurn bpi jump total s)) fuel
        { b := x0 :: b0, errors := [] } = some (.ok s) ∧ s.errors.Nodup ∧
      ∀ e, e ∈ s.errors ↔ ∃ t x, x0 + t * jump < total ∧ x ∈ x0 :: b0 ∧ x + t * jump < total ∧
        e ∈ errTuples bpi (x + t * jump) := by
  obtain ⟨s, h1, h2, h3, h4⟩ := whileLoop_count (cond := firstBelow total)
    (body := fun s => .ok (predictTurn bpi jump total s))
    (fun t s => s.b = (x0 :: b0).map (· + t * jump) ∧ s.errors.Nodup ∧
      ∀ e, e ∈ s.errors ↔ ∃ t' x, t' < t ∧ x ∈ x0 :: b0 ∧ x + t' * jump < total ∧
        e ∈ errTuples bpi (x + t' * jump))
    (predictRounds x0 jump total)
    (by
      rintro t s ht ⟨hb, hn, he⟩
      constructor
      · unfold firstBelow
        rw [hb]
        simpa using (lt_predictRounds hj).1 ht
      · refine ⟨_, rfl, ?_, ?_, ?_⟩
        · unfold predictTurn
          rw [hb]
          simp only [List.map_map]
          apply List.map_congr_left
          intro x _
          simp only [Function.comp, Nat.add_mul]
          omega
        · exact (foldl_predict bpi total s.b s.errors).2 hn
        · intro e
          unfold predictTurn
          rw [(foldl_predict bpi total s.b s.errors).1, he, hb]
          constructor
          · rintro (⟨t', x, a, b, c, d⟩ | ⟨y, hy, c, d⟩)
            · exact ⟨t', x, by omega, b, c, d⟩
            · rw [List.mem_map] at hy
              obtain ⟨x, hx, rfl⟩ := hy
              exact ⟨t, x, by omega, hx, c, d⟩
          · rintro ⟨t', x, a, b, c, d⟩
            by_cases htt : t' < t
            · left; exact ⟨t', x, htt, b, c, d⟩
            · have : t' = t := by omega
              subst this
              right
              exact ⟨_, List.mem_map.2 ⟨x, b, rfl⟩, c, d⟩)
    (by
      rintro s ⟨hb, _, _⟩
      unfold firstBelow
      rw [hb]
      have := (lt_predictRounds (x0 := x0) (total := total)
        (t := predictRounds x0 jump total) hj)
      simp only [List.map_cons, decide_eq_false_iff_not]
      omega)
    (predictRounds x0 jump total) 0 { b := x0 :: b0, errors := [] } (by omega)
    (by refine ⟨by simp, by simp, by simp⟩) fuel hf
  refine ⟨s, h1, h3, fun e => ?_⟩
  rw [h4]
  constructor
  · rintro ⟨t, x, a, b⟩
    exact ⟨t, x, (lt_predictRounds hj).1 a, b⟩
  · rintro ⟨t, x, a, b⟩
    exact ⟨t, x, (lt_predictRounds hj).2 a, b⟩

theorem startBits_ok (bpi : Nat) (order : List Nat) : ∀ lost : List Nat, (∀ p ∈ lost, p ∈ order) →
    startBits bpi order lost = .ok (lost.map fun p => bpi * order.idxOf p) := by
  intro lost
  induction lost with
  | nil => intro _; rfl
  | cons p ps ih =>
    intro h
    simp only [startBits, pyIndex, if_pos (h p (by simp)), bind, Except.bind,
      ih fun q hq => h q (by simp [hq])]
    rfl

theorem startBits_err (bpi : Nat) (order : List Nat) : ∀ lost : List Nat, (∃ p ∈ lost, p ∉ order) →
    startBits bpi order lost = .error .value := by
  intro lost
  induction lost with
  | nil => rintro ⟨p, h, _⟩; simp at h
  | cons p ps ih =>
    rintro ⟨q, hq, hn⟩
    by_cases hp : p ∈ order
    · rcases List.mem_cons.1 hq with rfl | hq
      · exact absurd hp hn
      · simp only [startBits, pyIndex, if_pos hp, bind, Except.bind, ih ⟨q, hq, hn⟩]
    · simp only [startBits, pyIndex, if_neg hp, bind, Except.bind]

/-- The bits of the tuples made for one group: from bit 31 of its word on,
everything is reported one bit too late. -/
theorem errTuples_bits (bpi b x : Nat) :
    predictedBit bpi (errTuples bpi b) x ↔
      (b ≤ x ∧ x < b + bpi ∧ x < 32 * (b / 32) + 31) ∨
      (b < x ∧ x ≤ b + bpi ∧ 32 * (b / 32) + 32 ≤ x) := by
  unfold errTuples predictedBit tupleBits
  dsimp only
  have h1 := Nat.div_add_mod b 32
  have h2 := Nat.mod_lt b (show 32 > 0 by omega)
  split
  · simp only [List.mem_cons, List.not_mem_nil, or_false, exists_eq_or_imp, exists_eq_left,
      Option.getD_some]
    omega
  · simp only [List.mem_cons, List.not_mem_nil, or_false, exists_eq_left, Option.getD_none]
    omega

end Verif
