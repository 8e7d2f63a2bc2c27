import Mathlib.Algebra.BigOperators.Group.List.Lemmas
import Mathlib.Algebra.BigOperators.Ring.List
import Mathlib.Algebra.Order.BigOperators.Group.List
import Verif.Props.Probability

/-!
# C149: combining probabilities in stages, and bounds of the result
-/

namespace Verif

/-- **C149.**  The union of all events is the union of the unions of two parts, the
intersection the product of the intersections, and the union is one minus the
intersection of the opposite events. -/
theorem C149_stages (ps qs : List Rat) (hp : ps ≠ []) (hq : qs ≠ []) {fuel : Nat} (hf : 2 ^ (ps ++ qs).length ≤ fuel) :
    ∃ u v, indepEventsUnion fuel ps = some (.ok u) ∧ indepEventsUnion fuel qs = some (.ok v) ∧
      indepEventsUnion fuel (ps ++ qs) = indepEventsUnion fuel [u, v] ∧
      indepIntersection (ps ++ qs) = indepIntersection [indepIntersection ps, indepIntersection qs] ∧
      u = 1 - indepIntersection (ps.map fun p => 1 - p) := by
  have hl1 : 0 < ps.length := List.length_pos_iff.2 hp
  have hl2 : 0 < qs.length := List.length_pos_iff.2 hq
  rw [List.length_append] at hf
  have f1 : 2 ^ ps.length ≤ fuel := le_trans (Nat.pow_le_pow_right (by omega) (by omega)) hf
  have f2 : 2 ^ qs.length ≤ fuel := le_trans (Nat.pow_le_pow_right (by omega) (by omega)) hf
  have f3 : 2 ^ 2 ≤ fuel := le_trans (Nat.pow_le_pow_right (by omega) (by omega)) hf
  refine ⟨_, _, (C29_union ps).1 hp fuel f1, (C29_union qs).1 hq fuel f2, ?_, ?_, ?_⟩
  · rw [(C29_union (ps ++ qs)).1 (by simp [hp]) fuel (by rwa [List.length_append]),
      (C29_union [_, _]).1 (by simp) fuel f3]
    simp
  · simp [intersection_prod]
  · rw [intersection_prod]

theorem prod_complement_le {ps : List Rat} (h : ∀ p ∈ ps, 0 ≤ p ∧ p ≤ 1) :
    1 - ps.sum ≤ (ps.map fun p => 1 - p).prod ∧ 0 ≤ (ps.map fun p => 1 - p).prod ∧ (ps.map fun p => 1 - p).prod ≤ 1 := by
  induction ps with
  | nil => simp
  | cons p ps ih =>
    obtain ⟨h1, h2, h3⟩ := ih fun q hq => h q (List.mem_cons_of_mem _ hq)
    obtain ⟨p1, p2⟩ := h p List.mem_cons_self
    have hs : 0 ≤ ps.sum := List.sum_nonneg fun q hq => (h q (List.mem_cons_of_mem _ hq)).1
    rw [List.map_cons, List.prod_cons, List.sum_cons]
    refine ⟨?_, mul_nonneg (by linarith) h2, ?_⟩
    · nlinarith
    · nlinarith

/-- **C149.**  The union of probabilities is at most their sum and at least their
intersection; it is certain exactly when one of the events is, and impossible exactly
when all are; the intersection is certain exactly when all are, and impossible exactly
when one is. -/
theorem C149_bounds (ps : List Rat) (hp : ps ≠ []) (h : ∀ p ∈ ps, 0 ≤ p ∧ p ≤ 1) {fuel : Nat}
    (hf : 2 ^ ps.length ≤ fuel) :
    ∃ u, indepEventsUnion fuel ps = some (.ok u) ∧ u ≤ ps.sum ∧ indepIntersection ps ≤ u ∧
      (u = 1 ↔ 1 ∈ ps) ∧ (u = 0 ↔ ∀ p ∈ ps, p = 0) ∧
      (indepIntersection ps = 0 ↔ 0 ∈ ps) ∧ (indepIntersection ps = 1 ↔ ∀ p ∈ ps, p = 1) := by
  obtain ⟨u, u1, ⟨u2, u3, u4⟩, ⟨i1, i2, i3⟩, _⟩ := C30_probabilities ps hp h fuel hf
  obtain ⟨c1, _, _⟩ := prod_complement_le h
  have hu := u1
  rw [(C29_union ps).1 hp fuel hf] at hu
  have hu' : 1 - (ps.map fun p => 1 - p).prod = u := by simpa using hu
  refine ⟨u, u1, by linarith, ?_, ?_, ?_, ?_, ?_⟩
  · obtain ⟨p, hpm⟩ := List.exists_mem_of_ne_nil ps hp
    exact le_trans (i3 p hpm) (u4 p hpm)
  · constructor
    · intro e
      have hz : (ps.map fun p => 1 - p).prod = 0 := by linarith
      rw [List.prod_eq_zero_iff, List.mem_map] at hz
      obtain ⟨p, hpm, hp1⟩ := hz
      rwa [show (1 : Rat) = p by linarith]
    · intro h1
      exact le_antisymm u3 (u4 1 h1)
  · constructor
    · intro e p hpm
      exact le_antisymm (e ▸ u4 p hpm) (h p hpm).1
    · intro h0
      have : (ps.map fun p => 1 - p).prod = 1 := by
        rw [List.map_congr_left (g := fun _ => (1 : Rat)) fun p hpm => by rw [h0 p hpm]; norm_num]
        simp
      linarith
  · rw [intersection_prod, List.prod_eq_zero_iff]
  · constructor
    · intro e p hpm
      exact le_antisymm (h p hpm).2 (e ▸ i3 p hpm)
    · intro h1
      rw [intersection_prod]
      exact List.prod_eq_one h1

/-- **C149.**  Likelier events never have a less likely union or intersection. -/
theorem C149_mono {ps qs : List Rat} (hle : List.Forall₂ (· ≤ ·) ps qs) (hp : ps ≠ []) (h0 : ∀ p ∈ ps, 0 ≤ p)
    (h1 : ∀ q ∈ qs, q ≤ 1) {fuel : Nat} (hf : 2 ^ ps.length ≤ fuel) :
    ∃ u v, indepEventsUnion fuel ps = some (.ok u) ∧ indepEventsUnion fuel qs = some (.ok v) ∧ u ≤ v ∧
      indepIntersection ps ≤ indepIntersection qs := by
  have hq : qs ≠ [] := by
    rintro rfl
    exact hp (List.forall₂_nil_right_iff.1 hle)
  refine ⟨_, _, (C29_union ps).1 hp fuel hf, (C29_union qs).1 hq fuel (by rwa [← hle.length_eq]), ?_, ?_⟩
  · have key : 0 ≤ (qs.map fun q => 1 - q).prod ∧ (qs.map fun q => 1 - q).prod ≤ (ps.map fun p => 1 - p).prod := by
      clear hp hq hf h0
      induction hle with
      | nil => simp
      | cons hpq _ ih =>
        obtain ⟨k1, k2⟩ := ih fun q hq => h1 q (List.mem_cons_of_mem _ hq)
        have := h1 _ List.mem_cons_self
        simp only [List.map_cons, List.prod_cons]
        exact ⟨mul_nonneg (by linarith) k1, mul_le_mul (by linarith) k2 k1 (by linarith)⟩
    linarith [key.2]
  · rw [intersection_prod, intersection_prod]
    have key : 0 ≤ ps.prod ∧ ps.prod ≤ qs.prod := by
      clear hp hq hf h1
      induction hle with
      | nil => simp
      | cons hpq _ ih =>
        obtain ⟨k1, k2⟩ := ih fun q hq => h0 q (List.mem_cons_of_mem _ hq)
        have := h0 _ List.mem_cons_self
        simp only [List.prod_cons]
        exact ⟨mul_nonneg this k1, mul_le_mul hpq k2 k1 (by linarith)⟩
    exact key.2

/-- Three events, in two stages. -/
theorem C149_case :
    indepEventsUnion 8 [1 / 2, 1 / 3] = some (.ok (2 / 3)) ∧ indepEventsUnion 8 [1 / 4] = some (.ok (1 / 4)) ∧
    indepEventsUnion 8 [1 / 2, 1 / 3, 1 / 4] = some (.ok (3 / 4)) ∧ indepEventsUnion 8 [2 / 3, 1 / 4] = some (.ok (3 / 4)) ∧
    indepIntersection [1 / 2, 1 / 3, 1 / 4] = 1 / 24 := by
  refine ⟨?_, ?_, ?_, ?_, ?_⟩
  · rw [(C29_union _).1 (by simp) 8 (by decide)]; norm_num
  · rw [(C29_union _).1 (by simp) 8 (by decide)]; norm_num
  · rw [(C29_union _).1 (by simp) 8 (by decide)]; norm_num
  · rw [(C29_union _).1 (by simp) 8 (by decide)]; norm_num
  · rw [intersection_prod]; norm_num

end Verif
