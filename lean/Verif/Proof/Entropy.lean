import Mathlib.Algebra.BigOperators.Ring.Finset
import Mathlib.Algebra.Order.BigOperators.Group.List
import Verif.Spec.Entropy
import Verif.Props.HuffmanRelated

/-! # Lemmas for C143 -/

namespace Verif

open Spec

theorem sum_counts (msg : List Int) : ∑ s ∈ msg.toFinset, (msg.count s : ℝ) = msg.length := by
  have := Finset.sum_list_map_count msg (fun _ => (1 : ℝ))
  simpa using this.symm

theorem information_le {msg : List Int} (l : Int → Nat) (hk : ∑ s ∈ msg.toFinset, (1 / 2 : ℝ) ^ l s ≤ 1) :
    information msg ≤ (msg.map fun s => (l s : ℝ)).sum := by
  unfold information
  rw [Finset.sum_list_map_count, Finset.sum_list_map_count]
  have hln : 0 < Real.log 2 := Real.log_pos (by norm_num)
  have hterm : ∀ s ∈ msg.toFinset,
      msg.count s • Real.logb 2 ((msg.length : ℝ) / (msg.count s : ℝ)) - msg.count s • (l s : ℝ)
        ≤ (msg.length * (1 / 2 : ℝ) ^ l s - msg.count s) / Real.log 2 := by
    intro s hs
    rw [List.mem_toFinset] at hs
    have hc : (0 : ℝ) < msg.count s := by exact_mod_cast List.count_pos_iff.2 hs
    have hN : (0 : ℝ) < msg.length := by exact_mod_cast List.length_pos_of_mem hs
    have hp : (0 : ℝ) < (1 / 2 : ℝ) ^ l s := by positivity
    have h1 : Real.logb 2 ((msg.length : ℝ) / msg.count s) - l s
        = Real.log ((msg.length : ℝ) / msg.count s * (1 / 2 : ℝ) ^ l s) / Real.log 2 := by
      rw [Real.log_mul (by positivity) (by positivity), Real.log_pow, one_div, Real.log_inv, Real.logb]
      field_simp
      ring
    have h2 := Real.log_le_sub_one_of_pos (x := (msg.length : ℝ) / msg.count s * (1 / 2 : ℝ) ^ l s) (by positivity)
    rw [nsmul_eq_mul, nsmul_eq_mul, ← mul_sub, h1, ← mul_div_assoc, div_le_div_iff_of_pos_right hln]
    calc (msg.count s : ℝ) * Real.log ((msg.length : ℝ) / msg.count s * (1 / 2 : ℝ) ^ l s)
        ≤ msg.count s * ((msg.length : ℝ) / msg.count s * (1 / 2 : ℝ) ^ l s - 1) := by gcongr
      _ = msg.length * (1 / 2 : ℝ) ^ l s - msg.count s := by field_simp
  have hsum := Finset.sum_le_sum hterm
  rw [Finset.sum_sub_distrib, ← Finset.sum_div, Finset.sum_sub_distrib, ← Finset.mul_sum, sum_counts] at hsum
  have : ((msg.length : ℝ) * ∑ s ∈ msg.toFinset, (1 / 2 : ℝ) ^ l s - msg.length) / Real.log 2 ≤ 0 := by
    apply div_nonpos_of_nonpos_of_nonneg _ hln.le
    have : (0 : ℝ) ≤ msg.length := by positivity
    nlinarith
  linarith

theorem kraft_real (M : Nat) (l : Int → Nat) (ss : List Int) (hn : ss.Nodup) (hM : ∀ s ∈ ss, l s ≤ M) :
    (kraft M (ss.map l) : ℝ) = 2 ^ M * ∑ s ∈ ss.toFinset, (1 / 2 : ℝ) ^ l s := by
  unfold kraft
  rw [List.sum_toFinset _ hn, ← List.sum_map_mul_left, List.map_map, Nat.cast_list_sum, List.map_map]
  congr 1
  apply List.map_congr_left
  intro s hs
  have h2 : (2 : ℝ) ^ M = 2 ^ (M - l s) * 2 ^ l s := by rw [← pow_add, Nat.sub_add_cancel (hM s hs)]
  simp only [Function.comp_apply, Nat.cast_pow, Nat.cast_ofNat]
  rw [h2, mul_assoc, ← mul_pow]
  norm_num

theorem kraft_prefixFree {msg : List Int} {code : Int → List Bool} (hp : PrefixFree msg code) :
    ∑ s ∈ msg.toFinset, (1 / 2 : ℝ) ^ (code s).length ≤ 1 := by
  have hp' : PrefixFree msg.dedup code := fun a ha b hb => hp a (List.mem_dedup.1 ha) b (List.mem_dedup.1 hb)
  obtain ⟨M, hM⟩ := le_maxLength code msg.dedup
  have h1 := kraft_of_free M (msg.dedup.map code) (pairwise_of_prefixFree code _ (List.nodup_dedup _) hp') (by
    intro c hc
    obtain ⟨s, hs, rfl⟩ := List.mem_map.1 hc
    exact hM s hs)
  have h2 := kraft_real M (fun s => (code s).length) msg.dedup (List.nodup_dedup _) hM
  rw [List.map_map] at h1
  have h3 : (kraft M (msg.dedup.map fun s => (code s).length) : ℝ) ≤ 2 ^ M := by exact_mod_cast h1
  have hd : msg.dedup.toFinset = msg.toFinset := by
    ext s
    simp
  rw [h2, hd] at h3
  have : (0 : ℝ) < 2 ^ M := by positivity
  by_contra h
  push Not at h
  nlinarith

/-- The least size is below every assignment of lengths that meets Kraft's inequality. -/
theorem shortest_le_lengths {msg : List Int} {n : Nat} (hm : msg ≠ []) (hs : Shortest msg n) (l : Int → Nat)
    (hk : ∑ s ∈ msg.toFinset, (1 / 2 : ℝ) ^ l s ≤ 1) : n ≤ (msg.map l).sum := by
  have hc := counts_counter msg
  obtain ⟨r, c, _, h2, _, h4, h5, h6⟩ := size_run (counterItems msg) hc.1 (hc.ne_nil hm) msg.length hc.length_le
  obtain ⟨n', hn', h2'⟩ := hc.size hm msg.length le_rfl
  rw [h2] at h2'
  obtain rfl : c = n' := by simpa using h2'
  rw [shortest_unique hs hn']
  obtain ⟨M, hM⟩ := le_maxLength (fun s => List.replicate (l s) true) ((counterItems msg).map (·.1))
  have hlen : (msg.map l).sum = totalSize (counterItems msg) (fun s => List.replicate (l s) true) := by
    rw [hc.totalSize, encode_length]
    simp
  rw [hlen, totalSize_wcost]
  refine huff_le h6 _ M ?_ ?_ ?_
  · simp [Function.comp_def]
  · intro p hp
    obtain ⟨q, hq, rfl⟩ := List.mem_map.1 hp
    exact hM q.1 (List.mem_map.2 ⟨q, hq, rfl⟩)
  · have h := kraft_real M l ((counterItems msg).map (·.1)) hc.1 (fun s hs => by simpa using hM s hs)
    have hT : ((counterItems msg).map (·.1)).toFinset = msg.toFinset := by
      ext s
      rw [List.mem_toFinset, List.mem_toFinset, hc.mem]
    rw [hT] at h
    have h3 : (kraft M (((counterItems msg).map (·.1)).map l) : ℝ) ≤ 2 ^ M := by
      rw [h]
      have : (0 : ℝ) < 2 ^ M := by positivity
      nlinarith
    have h4 : kraft M (((counterItems msg).map (·.1)).map l) ≤ 2 ^ M := by exact_mod_cast h3
    simpa [Function.comp_def] using h4

theorem kraft_shannon {msg : List Int} (l : Int → Nat)
    (h : ∀ s ∈ msg, Real.logb 2 ((msg.length : ℝ) / (msg.count s : ℝ)) ≤ l s) :
    ∑ s ∈ msg.toFinset, (1 / 2 : ℝ) ^ l s ≤ 1 := by
  rcases msg.eq_nil_or_concat with hm | ⟨_, _, hm⟩
  · subst hm
    simp
  have hN : (0 : ℝ) < msg.length := by
    rw [hm]
    simp
    positivity
  have hle : ∀ s ∈ msg.toFinset, (1 / 2 : ℝ) ^ l s ≤ msg.count s / msg.length := by
    intro s hs
    rw [List.mem_toFinset] at hs
    have hc : (0 : ℝ) < msg.count s := by exact_mod_cast List.count_pos_iff.2 hs
    have h1 := h s hs
    rw [Real.logb_le_iff_le_rpow (by norm_num) (by positivity), Real.rpow_natCast, div_le_iff₀ hc] at h1
    rw [one_div, inv_pow, inv_le_iff_one_le_mul₀ (by positivity), div_mul_eq_mul_div, le_div_iff₀ hN]
    linarith
  calc ∑ s ∈ msg.toFinset, (1 / 2 : ℝ) ^ l s ≤ ∑ s ∈ msg.toFinset, (msg.count s : ℝ) / msg.length := Finset.sum_le_sum hle
    _ = 1 := by rw [← Finset.sum_div, sum_counts, div_self hN.ne']

end Verif
