import Verif.Props.Corruptors

/-! Lemmas about the loss of a single packet out of at least four. -/

namespace Verif
open Spec

theorem predict_single {fuel count bpi size p : Nat} {order : List Nat} (hp : p ∈ order) (hj : 0 < bpi * count)
    (hf : 32 * size < fuel) :
    ∃ es, predictCorruption fuel count bpi size order [p] = some (.ok es) ∧ es.Nodup ∧
      ∀ e, e ∈ es ↔ ∃ t, bpi * order.idxOf p + t * (bpi * count) < size * 32 ∧
        e ∈ errTuples bpi (bpi * order.idxOf p + t * (bpi * count)) := by
  have hr : predictRounds (bpi * order.idxOf p) (bpi * count) (size * 32) < fuel := by
    have : predictRounds (bpi * order.idxOf p) (bpi * count) (size * 32) ≤ size * 32 := by
      by_contra h
      have := (lt_predictRounds hj).1 (Nat.lt_of_not_le h)
      have h2 : size * 32 * 1 ≤ size * 32 * (bpi * count) := Nat.mul_le_mul_left _ hj
      omega
    omega
  obtain ⟨s, h1, h2, h3⟩ := predictLoop bpi (bpi * count) (size * 32) (bpi * order.idxOf p) [] hj fuel hr
  refine ⟨s.errors, ?_, h2, ?_⟩
  · unfold predictCorruption
    rw [startBits_ok bpi order [p] (by simpa using hp)]
    simp only [List.map_cons, List.map_nil]
    rw [h1]
    rfl
  · intro e
    rw [h3]
    constructor
    · rintro ⟨t, x, _, hx, h5, h6⟩
      rw [List.mem_singleton] at hx
      subst hx
      exact ⟨t, h5, h6⟩
    · rintro ⟨t, h5, h6⟩
      exact ⟨t, _, h5, by simp, h5, h6⟩

/-- A tuple made for a group of two bits at an even place. -/
theorem errTuples_two {b : Nat} (hb : 2 ∣ b) {e : ErrT} (he : e ∈ errTuples 2 b) :
    (32 * e.1 + e.2.1 = b ∧ e.2.1 < 32 ∧ e.2.2 = (if e.2.1 = 30 then some 1 else none)) ∨ e = (b / 32 + 1, 0, some 1) := by
  unfold errTuples at he
  dsimp only at he
  have h1 := Nat.div_add_mod b 32
  have h2 := Nat.mod_lt b (show 32 > 0 by omega)
  split at he
  · have h30 : b % 32 = 30 := by omega
    rw [h30] at he
    simp only [List.mem_cons, List.not_mem_nil, or_false] at he
    rcases he with rfl | rfl
    · left; simp; omega
    · right; rfl
  · rw [List.mem_singleton] at he
    subst he
    left
    refine ⟨by simpa using h1, h2, ?_⟩
    rw [if_neg (by simp only; omega)]

theorem word_sum_le {es : List ErrT} (hn : es.Nodup) {x0 count total : Nat} (h2 : 2 ∣ x0) (h4 : 4 ≤ count)
    (hes : ∀ e, e ∈ es ↔ ∃ t, x0 + t * (2 * count) < total ∧ e ∈ errTuples 2 (x0 + t * (2 * count))) (w : Nat) :
    ((es.filter fun e => decide (e.1 = w)).map fun e => e.2.2.getD 2).sum ≤ 10 := by
  have hL : ∀ e ∈ es.filter fun e => decide (e.1 = w), e.1 = w ∧
      ((∃ t, 32 * w + e.2.1 = x0 + t * (2 * count) ∧ e.2.1 < 32 ∧ e.2.2 = (if e.2.1 = 30 then some 1 else none)) ∨
        e = (w, 0, some 1)) := by
    intro e he
    rw [List.mem_filter, decide_eq_true_eq] at he
    obtain ⟨he, rfl⟩ := he
    obtain ⟨t, _, ht⟩ := (hes e).1 he
    refine ⟨rfl, ?_⟩
    rcases errTuples_two (by
        have : 2 ∣ t * (2 * count) := Dvd.dvd.mul_left (Nat.dvd_mul_right 2 count) t
        omega) ht with h | h
    · exact Or.inl ⟨t, h.1, h.2⟩
    · right
      have := congrArg (·.1) h
      simp only at this
      rw [h]
  have hval : ∀ e ∈ es.filter fun e => decide (e.1 = w), e.2.2.getD 2 ≤ 2 := by
    intro e he
    rcases (hL e he).2 with ⟨t, _, _, h⟩ | h
    · rw [h]; split <;> simp
    · rw [h]; simp
  have hlen : (es.filter fun e => decide (e.1 = w)).length ≤ 5 := by
    let f : ErrT → Nat := fun e => if e = (w, 0, some 1) then 4 else e.2.1 / 8
    have hnd : ((es.filter fun e => decide (e.1 = w)).map f).Nodup := by
      refine List.Nodup.map_on ?_ (hn.filter _)
      intro e he e' he' hf
      simp only [f] at hf
      obtain ⟨a1, a2⟩ := hL e he
      obtain ⟨b1, b2⟩ := hL e' he'
      split at hf
      · rename_i hc
        split at hf
        · rename_i hc'; rw [hc, hc']
        · rename_i hc'
          rcases b2 with ⟨_, _, b, _⟩ | b
          · omega
          · exact absurd b hc'
      · rename_i hc
        split at hf
        · rename_i hc'
          rcases a2 with ⟨_, _, b, _⟩ | b
          · omega
          · exact absurd b hc
        · rename_i hc'
          rcases a2 with ⟨t, c1, c2, c3⟩ | a
          · rcases b2 with ⟨t', d1, d2, d3⟩ | b
            · have ht : t = t' := by
                rcases Nat.lt_trichotomy t t' with hlt | heq | hlt
                · exfalso
                  have : (t + 1) * (2 * count) ≤ t' * (2 * count) := Nat.mul_le_mul_right _ hlt
                  rw [Nat.add_mul] at this
                  omega
                · exact heq
                · exfalso
                  have : (t' + 1) * (2 * count) ≤ t * (2 * count) := Nat.mul_le_mul_right _ hlt
                  rw [Nat.add_mul] at this
                  omega
              subst ht
              have hb : e.2.1 = e'.2.1 := by omega
              have hs : e.2.2 = e'.2.2 := by rw [c3, d3, hb]
              exact Prod.ext (a1.trans b1.symm) (Prod.ext hb hs)
            · exact absurd b hc'
          · exact absurd a hc
    have hsub : (es.filter fun e => decide (e.1 = w)).map f ⊆ List.range 5 := by
      intro x hx
      obtain ⟨e, he, rfl⟩ := List.mem_map.1 hx
      rw [List.mem_range]
      simp only [f]
      split
      · omega
      · rename_i hc
        rcases (hL e he).2 with ⟨_, _, b, _⟩ | b
        · omega
        · exact absurd b hc
    have := (List.subperm_of_subset hnd hsub).length_le
    simpa using this
  have : ∀ l : List ErrT, (∀ e ∈ l, e.2.2.getD 2 ≤ 2) → (l.map fun e => e.2.2.getD 2).sum ≤ 2 * l.length := by
    intro l
    induction l with
    | nil => intro _; simp
    | cons e l ih =>
      intro h
      have a := h e (by simp)
      have b := ih fun x hx => h x (by simp [hx])
      simp only [List.map_cons, List.sum_cons, List.length_cons]
      omega
  have := this _ hval
  omega

end Verif
