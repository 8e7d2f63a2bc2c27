import Verif.Model.StoreScript
import Verif.Proof.Predict
import Verif.Proof.Basic
import Mathlib.Algebra.Order.Floor.Ring
import Mathlib.Tactic.Linarith
import Mathlib.Tactic.Ring
import Mathlib.Tactic.FieldSimp

namespace Verif

theorem rat_floor_toNat {b : Rat} {k : Nat} (h1 : (k : Rat) ≤ b) (h2 : b < k + 1) : b.floor = (k : Int) := by
  have : ⌊b⌋ = (k : Int) := by
    rw [Int.floor_eq_iff]
    exact ⟨by exact_mod_cast h1, by exact_mod_cast h2⟩
  exact this

/-- The tuples depend on the whole part of the position only. -/
theorem errTuplesQ_floor {bpi : Nat} {b : Rat} {k : Nat} (h1 : (k : Rat) ≤ b) (h2 : b < k + 1) :
    errTuplesQ bpi b = errTuples bpi k := by
  have hdm : ((32 * (k / 32) + k % 32 : Nat) : Rat) = (k : Rat) := by rw [Nat.div_add_mod]
  push_cast at hdm
  have hm : k % 32 + 1 ≤ 32 := Nat.mod_lt k (by omega)
  have hm' : ((k % 32 : Nat) : Rat) + 1 ≤ 32 := by exact_mod_cast hm
  have h0 : (0 : Rat) ≤ ((k % 32 : Nat) : Rat) := Nat.cast_nonneg _
  have e1 : (b / 32).floor = ((k / 32 : Nat) : Int) := by
    apply rat_floor_toNat
    · rw [le_div_iff₀ (by norm_num)]; linarith
    · rw [div_lt_iff₀ (by norm_num)]; linarith
  have e2 : (b - 32 * ((k / 32 : Nat) : Rat)).floor = ((k % 32 : Nat) : Int) := by
    apply rat_floor_toNat
    · linarith
    · linarith
  unfold errTuplesQ errTuples
  simp only [e1, Int.cast_natCast, Int.toNat_natCast, e2]

theorem foldl_predictQ (bpi total : Nat) (b : List Rat) : ∀ es : List ErrT,
    (∀ e, e ∈ b.foldl (fun (es : List ErrT) (x : Rat) =>
        if x < (total : Rat) then (errTuplesQ bpi x).foldl addErr es else es) es ↔
      e ∈ es ∨ ∃ x ∈ b, x < (total : Rat) ∧ e ∈ errTuplesQ bpi x) ∧
    (es.Nodup → (b.foldl (fun (es : List ErrT) (x : Rat) =>
        if x < (total : Rat) then (errTuplesQ bpi x).foldl addErr es else es) es).Nodup) := by
  induction b with
  | nil => intro es; simp
  | cons x b ih =>
    intro es
    rw [List.foldl_cons]
    obtain ⟨h1, h2⟩ := ih (if x < (total : Rat) then (errTuplesQ bpi x).foldl addErr es else es)
    refine ⟨fun e => ?_, fun h => h2 ?_⟩
    · rw [h1]
      by_cases hx : x < (total : Rat)
      · rw [if_pos hx, (foldl_addErr _ es).1]
        simp only [List.mem_cons, exists_eq_or_imp, hx, true_and, or_assoc]
      · rw [if_neg hx]
        simp only [List.mem_cons, exists_eq_or_imp, hx, false_and, false_or]
    · split
      · exact (foldl_addErr _ es).2 h
      · exact h

theorem lt_roundsQ {x0 jump : Rat} {total t : Nat} (hj : 0 < jump) :
    t < ⌈((total : Rat) - x0) / jump⌉₊ ↔ x0 + t * jump < total := by
  rw [Nat.lt_ceil, lt_div_iff₀ hj]
  constructor <;> intro h <;> linarith

theorem predictLoopQ (bpi : Nat) (jump : Rat) (total : Nat) (x0 : Rat) (b0 : List Rat) (hj : 0 < jump) (fuel : Nat)
    (hf : ⌈((total : Rat) - x0) / jump⌉₊ < fuel) :
    ∃ s, whileLoop (firstBelowQ total) (fun s => .ok (predictTurnQ bpi jump total s)) fuel
        { b := x0 :: b0, errors := [] } = some (.ok s) ∧ s.errors.Nodup ∧
      ∀ e, e ∈ s.errors ↔ ∃ (t : Nat) (x : Rat), x0 + t * jump < total ∧ x ∈ x0 :: b0 ∧ x + t * jump < total ∧
        e ∈ errTuplesQ bpi (x + t * jump) := by
  obtain ⟨s, h1, h2, h3, h4⟩ := whileLoop_count (cond := firstBelowQ total)
    (body := fun s => .ok (predictTurnQ bpi jump total s))
    (fun t s => s.b = (x0 :: b0).map (· + (t : Rat) * jump) ∧ s.errors.Nodup ∧
      ∀ e, e ∈ s.errors ↔ ∃ (t' : Nat) (x : Rat), t' < t ∧ x ∈ x0 :: b0 ∧ x + t' * jump < total ∧
        e ∈ errTuplesQ bpi (x + t' * jump))
    ⌈((total : Rat) - x0) / jump⌉₊
    (by
      rintro t s ht ⟨hb, hn, he⟩
      constructor
      · unfold firstBelowQ
        rw [hb]
        simpa using (lt_roundsQ hj).1 ht
      · refine ⟨_, rfl, ?_, ?_, ?_⟩
        · unfold predictTurnQ
          rw [hb]
          simp only [List.map_map]
          apply List.map_congr_left
          intro x _
          simp only [Function.comp]
          push_cast
          ring
        · exact (foldl_predictQ bpi total s.b s.errors).2 hn
        · intro e
          unfold predictTurnQ
          rw [(foldl_predictQ bpi total s.b s.errors).1, he, hb]
          constructor
          · rintro (⟨t', x, a, b, c, d⟩ | ⟨y, hy, c, d⟩)
            · exact ⟨t', x, by omega, b, c, d⟩
            · rw [List.mem_map] at hy
              obtain ⟨x, hx, rfl⟩ := hy
              exact ⟨t, x, by omega, hx, c, d⟩
          · rintro ⟨t', x, a, b, c, d⟩
            by_cases htt : t' < t
            · left; exact ⟨t', x, htt, b, c, d⟩
            · have : t' = t := by omega
              subst this
              right
              exact ⟨_, List.mem_map.2 ⟨x, b, rfl⟩, c, d⟩)
    (by
      rintro s ⟨hb, _, _⟩
      unfold firstBelowQ
      rw [hb]
      have := (lt_roundsQ (x0 := x0) (total := total) (t := ⌈((total : Rat) - x0) / jump⌉₊) hj)
      simp only [List.map_cons, decide_eq_false_iff_not]
      intro hc
      exact absurd (this.2 hc) (Nat.lt_irrefl _))
    ⌈((total : Rat) - x0) / jump⌉₊ 0 { b := x0 :: b0, errors := [] } (by omega)
    (by refine ⟨by simp, by simp, by simp⟩) fuel hf
  refine ⟨s, h1, h3, fun e => ?_⟩
  rw [h4]
  constructor
  · rintro ⟨t, x, a, b⟩
    exact ⟨t, x, (lt_roundsQ hj).1 a, b⟩
  · rintro ⟨t, x, a, b⟩
    exact ⟨t, x, (lt_roundsQ hj).2 a, b⟩

/-- What the script's call of `predict_corruption` returns for a program of `len` words. -/
theorem predict_store {len fuel : Nat} (hlen : 0 < len) (hf : 256 < fuel) {order lost : List Nat} {p : Nat}
    (hin : ∀ q ∈ p :: lost, q ∈ order) :
    ∃ es, predictCorruptionQ fuel (((len * 4 : Nat) : Rat) / 16) 2 (len * 4) order (p :: lost) = some (.ok es) ∧
      es.Nodup ∧ ∀ e, e ∈ es ↔ ∃ t q, q ∈ p :: lost ∧ 4 * order.idxOf p + t * len < 256 * len ∧
        4 * order.idxOf q + t * len < 256 * len ∧ e ∈ errTuples 2 ((4 * order.idxOf q + t * len) / 2) := by
  have hl : (0 : Rat) < (len : Rat) := by exact_mod_cast hlen
  have hjump : ((2 : Nat) : Rat) * (((len * 4 : Nat) : Rat) / 16) = (len : Rat) / 2 := by push_cast; ring
  unfold predictCorruptionQ
  rw [startBits_ok 2 order (p :: lost) hin]
  simp only [List.map_cons]
  rw [hjump]
  obtain ⟨s, h1, h2, h3⟩ := predictLoopQ 2 ((len : Rat) / 2) (len * 4 * 32) ((2 * order.idxOf p : Nat) : Rat)
    (List.map (fun n : Nat => (n : Rat)) (List.map (fun p => 2 * order.idxOf p) lost)) (by linarith) fuel (by
      refine lt_of_le_of_lt ?_ hf
      rw [Nat.ceil_le, div_le_iff₀ (by linarith)]
      push_cast
      have : (0 : Rat) ≤ (order.idxOf p : Rat) := Nat.cast_nonneg _
      linarith)
  rw [h1]
  refine ⟨s.errors, rfl, h2, fun e => ?_⟩
  rw [h3]
  have hlt : ∀ (i t : Nat), ((2 * i : Nat) : Rat) + (t : Rat) * ((len : Rat) / 2) < ((len * 4 * 32 : Nat) : Rat) ↔
      4 * i + t * len < 256 * len := by
    intro i t
    rw [← Nat.cast_lt (α := Rat)]
    push_cast
    constructor <;> intro h <;> linarith
  have hfl : ∀ (i t : Nat), errTuplesQ 2 (((2 * i : Nat) : Rat) + (t : Rat) * ((len : Rat) / 2)) =
      errTuples 2 ((4 * i + t * len) / 2) := by
    intro i t
    obtain ⟨k, hk⟩ : ∃ k, k = (4 * i + t * len) / 2 := ⟨_, rfl⟩
    rw [← hk]
    have a : 2 * k ≤ 4 * i + t * len := by omega
    have b : 4 * i + t * len < 2 * (k + 1) := by omega
    have a' : (2 : Rat) * k ≤ 4 * i + t * len := by exact_mod_cast a
    have b' : (4 : Rat) * i + t * len < 2 * (k + 1) := by exact_mod_cast b
    apply errTuplesQ_floor
    · push_cast; linarith
    · push_cast; linarith
  have hmem : ∀ x : Rat, x ∈ ((2 * order.idxOf p : Nat) : Rat) ::
      List.map (fun n : Nat => (n : Rat)) (List.map (fun p => 2 * order.idxOf p) lost) ↔
      ∃ q ∈ p :: lost, x = ((2 * order.idxOf q : Nat) : Rat) := by
    intro x
    rw [List.map_map, List.mem_cons, List.mem_map]
    constructor
    · rintro (rfl | ⟨q, hq, rfl⟩)
      · exact ⟨p, by simp, rfl⟩
      · exact ⟨q, by simp [hq], rfl⟩
    · rintro ⟨q, hq, rfl⟩
      rcases List.mem_cons.1 hq with rfl | hq
      · exact .inl rfl
      · exact .inr ⟨q, hq, rfl⟩
  constructor
  · rintro ⟨t, x, ha, hx, hb, he⟩
    obtain ⟨q, hq, rfl⟩ := (hmem x).1 hx
    exact ⟨t, q, hq, (hlt _ _).1 ha, (hlt _ _).1 hb, by rw [← hfl]; exact he⟩
  · rintro ⟨t, q, hq, ha, hb, he⟩
    exact ⟨t, _, (hlt _ _).2 ha, (hmem _).2 ⟨q, hq, rfl⟩, (hlt _ _).2 hb, by rw [hfl]; exact he⟩

end Verif
