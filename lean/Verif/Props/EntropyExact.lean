import Verif.Props.Entropy

/-!
# C143: when the reported size is the information
-/

namespace Verif

open Spec

theorem information_lt {msg : List Int} (l : Int → Nat) (hk : ∑ s ∈ msg.toFinset, (1 / 2 : ℝ) ^ l s ≤ 1) {t : Int}
    (ht : t ∈ msg) (hne : msg.count t * 2 ^ l t ≠ msg.length) :
    information msg < (msg.map fun s => (l s : ℝ)).sum := by
  unfold information
  rw [Finset.sum_list_map_count, Finset.sum_list_map_count]
  have hln : 0 < Real.log 2 := Real.log_pos (by norm_num)
  have heq : ∀ s ∈ msg, msg.count s • Real.logb 2 ((msg.length : ℝ) / (msg.count s : ℝ)) - msg.count s • (l s : ℝ)
      = (msg.count s * Real.log ((msg.length : ℝ) / msg.count s * (1 / 2 : ℝ) ^ l s)) / Real.log 2 := by
    intro s hs
    have hc : (0 : ℝ) < msg.count s := by exact_mod_cast List.count_pos_iff.2 hs
    have hN : (0 : ℝ) < msg.length := by exact_mod_cast List.length_pos_of_mem hs
    have h1 : Real.logb 2 ((msg.length : ℝ) / msg.count s) - l s
        = Real.log ((msg.length : ℝ) / msg.count s * (1 / 2 : ℝ) ^ l s) / Real.log 2 := by
      rw [Real.log_mul (by positivity) (by positivity), Real.log_pow, one_div, Real.log_inv, Real.logb]
      field_simp
      ring
    rw [nsmul_eq_mul, nsmul_eq_mul, ← mul_sub, h1, ← mul_div_assoc]
  have hle : ∀ s ∈ msg.toFinset,
      msg.count s • Real.logb 2 ((msg.length : ℝ) / (msg.count s : ℝ)) - msg.count s • (l s : ℝ)
        ≤ (msg.length * (1 / 2 : ℝ) ^ l s - msg.count s) / Real.log 2 := by
    intro s hs
    rw [List.mem_toFinset] at hs
    have hc : (0 : ℝ) < msg.count s := by exact_mod_cast List.count_pos_iff.2 hs
    have hN : (0 : ℝ) < msg.length := by exact_mod_cast List.length_pos_of_mem hs
    have h2 := Real.log_le_sub_one_of_pos (x := (msg.length : ℝ) / msg.count s * (1 / 2 : ℝ) ^ l s) (by positivity)
    rw [heq s hs, div_le_div_iff_of_pos_right hln]
    calc (msg.count s : ℝ) * Real.log ((msg.length : ℝ) / msg.count s * (1 / 2 : ℝ) ^ l s)
        ≤ msg.count s * ((msg.length : ℝ) / msg.count s * (1 / 2 : ℝ) ^ l s - 1) := by gcongr
      _ = msg.length * (1 / 2 : ℝ) ^ l s - msg.count s := by field_simp
  have hlt : msg.count t • Real.logb 2 ((msg.length : ℝ) / (msg.count t : ℝ)) - msg.count t • (l t : ℝ)
        < (msg.length * (1 / 2 : ℝ) ^ l t - msg.count t) / Real.log 2 := by
    have hc : (0 : ℝ) < msg.count t := by exact_mod_cast List.count_pos_iff.2 ht
    have hN : (0 : ℝ) < msg.length := by exact_mod_cast List.length_pos_of_mem ht
    have hx : (msg.length : ℝ) / msg.count t * (1 / 2 : ℝ) ^ l t ≠ 1 := by
      intro h
      rw [one_div, inv_pow, ← div_eq_mul_inv, div_div, div_eq_one_iff_eq (by positivity)] at h
      exact hne (by exact_mod_cast h.symm)
    have h2 := Real.log_lt_sub_one_of_pos (x := (msg.length : ℝ) / msg.count t * (1 / 2 : ℝ) ^ l t) (by positivity) hx
    rw [heq t ht, div_lt_div_iff_of_pos_right hln]
    calc (msg.count t : ℝ) * Real.log ((msg.length : ℝ) / msg.count t * (1 / 2 : ℝ) ^ l t)
        < msg.count t * ((msg.length : ℝ) / msg.count t * (1 / 2 : ℝ) ^ l t - 1) := by gcongr
      _ = msg.length * (1 / 2 : ℝ) ^ l t - msg.count t := by field_simp
  have hsum := Finset.sum_lt_sum hle ⟨t, List.mem_toFinset.2 ht, hlt⟩
  rw [Finset.sum_sub_distrib, ← Finset.sum_div, Finset.sum_sub_distrib, ← Finset.mul_sum, sum_counts] at hsum
  have : ((msg.length : ℝ) * ∑ s ∈ msg.toFinset, (1 / 2 : ℝ) ^ l s - msg.length) / Real.log 2 ≤ 0 := by
    apply div_nonpos_of_nonpos_of_nonneg _ hln.le
    have : (0 : ℝ) ≤ msg.length := by positivity
    nlinarith
  linarith

theorem shortest_equality {msg : List Int} {n : Nat} (hm : msg ≠ []) (hs : Shortest msg n) :
    information msg = n ↔ ∀ s ∈ msg, ∃ k, msg.count s * 2 ^ k = msg.length := by
  constructor
  · intro h s hmem
    obtain ⟨⟨code, hp, hl⟩, _⟩ := hs
    by_contra hno
    push Not at hno
    have := information_lt (fun s => (code s).length) (kraft_prefixFree hp) hmem (hno _)
    rw [h, ← hl, encode_length, Nat.cast_list_sum, List.map_map] at this
    exact lt_irrefl _ this
  · intro h
    classical
    choose k hk using h
    have hk' : ∀ s ∈ msg, msg.count s * 2 ^ (if h : s ∈ msg then k s h else 0) = msg.length := by
      intro s hmem
      rw [dif_pos hmem]
      exact hk s hmem
    have hn := shortest_dyadic hm hs (fun s => if h : s ∈ msg then k s h else 0) hk'
    rw [hn]
    unfold information
    rw [Nat.cast_list_sum, List.map_map]
    congr 1
    apply List.map_congr_left
    intro s hmem
    have hc : (0 : ℝ) < msg.count s := by exact_mod_cast List.count_pos_iff.2 hmem
    have : (msg.length : ℝ) / msg.count s = 2 ^ (if h : s ∈ msg then k s h else 0) := by
      rw [div_eq_iff hc.ne', ← hk' s hmem]
      push_cast
      ring
    rw [this, Real.logb_pow, Real.logb_self_eq_one (by norm_num), mul_one]
    rfl

/-- **C143, exactly when nothing is lost.**  The size reported for a program is the
information of its parts exactly when the share of every part is a power of one half. -/
theorem C143_equality (x : Nat → List Int) (p : List Nat) (hp : p.flatMap x ≠ []) (fuel : Nat)
    (hf : (p.flatMap x).length ≤ fuel) :
    ∃ n, huffmanSize fuel (freqInfo x p).1 [] = some (.ok n) ∧
      (information (p.flatMap x) = n ↔ ∀ s ∈ p.flatMap x, ∃ k, (p.flatMap x).count s * 2 ^ k = (p.flatMap x).length) := by
  obtain ⟨n, hn, h2⟩ := (counts_freqInfo x p).size hp fuel hf
  exact ⟨n, h2, shortest_equality hp hn⟩

/-- **C143, exactly when nothing is lost, texts.** -/
theorem C143_equality_texts (t : List Int) (ht : t ≠ []) (fuel : Nat) (hf : t.length ≤ fuel) :
    ∃ n, huffmanSize fuel (counterItems t) [] = some (.ok n) ∧
      (information t = n ↔ ∀ s ∈ t, ∃ k, t.count s * 2 ^ k = t.length) := by
  obtain ⟨n, hn, h2⟩ := (counts_counter t).size ht fuel hf
  exact ⟨n, h2, shortest_equality ht hn⟩

/-- Of the shares 2/3 and 1/3 the 3 bits are more than the information. -/
theorem C143_equality_case : huffmanSize 9 (counterItems [1, 1, 2]) [] = some (.ok 3) ∧ information [1, 1, 2] < 3 := by
  obtain ⟨n, h1, h2⟩ := C143_equality_texts [1, 1, 2] (by simp) 9 (by decide)
  obtain ⟨n', h1', h2', _⟩ := C143_texts [1, 1, 2] (by simp) 9 (by decide)
  have h3 : huffmanSize 9 (counterItems [1, 1, 2]) [] = some (.ok 3) := by decide +kernel
  rw [h3] at h1 h1'
  obtain rfl : 3 = n := by simpa using h1
  obtain rfl : 3 = n' := by simpa using h1'
  refine ⟨h3, lt_of_le_of_ne (by exact_mod_cast h2') fun h => ?_⟩
  obtain ⟨k, hk⟩ := h2.1 (by exact_mod_cast h) 1 (by simp)
  have hk' : 2 * 2 ^ k = 3 := hk
  omega

end Verif
