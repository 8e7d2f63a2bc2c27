import Mathlib.Algebra.Order.Floor.Semiring
import Verif.Proof.Entropy

/-!
# C143: the reported size and the information of the message
-/

namespace Verif

open Spec

theorem share_log_nonneg {msg : List Int} {s : Int} (hs : s ∈ msg) :
    0 ≤ Real.logb 2 ((msg.length : ℝ) / (msg.count s : ℝ)) := by
  have hc : (0 : ℝ) < msg.count s := by exact_mod_cast List.count_pos_iff.2 hs
  apply Real.logb_nonneg (by norm_num)
  rw [le_div_iff₀ hc, one_mul]
  exact_mod_cast List.count_le_length

theorem shortest_information {msg : List Int} {n : Nat} (hm : msg ≠ []) (hs : Shortest msg n) :
    information msg ≤ n ∧ (n : ℝ) < information msg + msg.length := by
  constructor
  · obtain ⟨⟨code, hp, hl⟩, _⟩ := hs
    have := information_le (fun s => (code s).length) (kraft_prefixFree hp)
    rw [← hl, encode_length, Nat.cast_list_sum, List.map_map]
    exact this
  · have h1 := shortest_le_lengths hm hs (fun s => ⌈Real.logb 2 ((msg.length : ℝ) / (msg.count s : ℝ))⌉₊)
      (kraft_shannon _ fun s _ => Nat.le_ceil _)
    have h2 : (n : ℝ) ≤ (msg.map fun s => ((⌈Real.logb 2 ((msg.length : ℝ) / (msg.count s : ℝ))⌉₊ : Nat) : ℝ)).sum := by
      have := (Nat.cast_le (α := ℝ)).2 h1
      rw [Nat.cast_list_sum, List.map_map] at this
      exact this
    have h3 : (msg.map fun s => ((⌈Real.logb 2 ((msg.length : ℝ) / (msg.count s : ℝ))⌉₊ : Nat) : ℝ)).sum
        < (msg.map fun s => Real.logb 2 ((msg.length : ℝ) / (msg.count s : ℝ)) + 1).sum :=
      List.sum_lt_sum_of_ne_nil hm _ _ fun s hs => Nat.ceil_lt_add_one (share_log_nonneg hs)
    have h4 : (msg.map fun s => Real.logb 2 ((msg.length : ℝ) / (msg.count s : ℝ)) + 1).sum = information msg + msg.length := by
      unfold information
      rw [List.sum_map_add]
      simp
    linarith

theorem shortest_dyadic {msg : List Int} {n : Nat} (hm : msg ≠ []) (hs : Shortest msg n) (k : Int → Nat)
    (hk : ∀ s ∈ msg, msg.count s * 2 ^ k s = msg.length) : n = (msg.map k).sum := by
  have hlog : ∀ s ∈ msg, Real.logb 2 ((msg.length : ℝ) / (msg.count s : ℝ)) = k s := by
    intro s h
    have hc : (0 : ℝ) < msg.count s := by exact_mod_cast List.count_pos_iff.2 h
    have : (msg.length : ℝ) / msg.count s = 2 ^ k s := by
      rw [div_eq_iff hc.ne', ← hk s h]
      push_cast
      ring
    rw [this, Real.logb_pow, Real.logb_self_eq_one (by norm_num), mul_one]
  have h1 := shortest_le_lengths hm hs k (kraft_shannon k fun s h => (hlog s h).le)
  have h2 := (shortest_information hm hs).1
  have h3 : information msg = (msg.map fun s => (k s : ℝ)).sum := by
    unfold information
    rw [List.map_congr_left hlog]
  rw [h3] at h2
  have h4 : (msg.map k).sum ≤ n := by
    have : (((msg.map k).sum : Nat) : ℝ) ≤ n := by
      rw [Nat.cast_list_sum, List.map_map]
      exact h2
    exact_mod_cast this
  omega

/-- **C143, programs.**  The size reported for a program is at least the information of its
parts, and exceeds it by less than one bit for each part. -/
theorem C143_programs (x : Nat → List Int) (p : List Nat) (hp : p.flatMap x ≠ []) (fuel : Nat)
    (hf : (p.flatMap x).length ≤ fuel) :
    ∃ n, huffmanSize fuel (freqInfo x p).1 [] = some (.ok n) ∧ information (p.flatMap x) ≤ n ∧
      (n : ℝ) < information (p.flatMap x) + (p.flatMap x).length := by
  obtain ⟨n, hn, h2⟩ := (counts_freqInfo x p).size hp fuel hf
  exact ⟨n, h2, shortest_information hp hn⟩

/-- **C143, texts.**  The same of the letters of a text. -/
theorem C143_texts (t : List Int) (ht : t ≠ []) (fuel : Nat) (hf : t.length ≤ fuel) :
    ∃ n, huffmanSize fuel (counterItems t) [] = some (.ok n) ∧ information t ≤ n ∧
      (n : ℝ) < information t + t.length := by
  obtain ⟨n, hn, h2⟩ := (counts_counter t).size ht fuel hf
  exact ⟨n, h2, shortest_information ht hn⟩

/-- **C143.**  When the share of every part is a power of one half, each occurrence costs
exactly as many bits as the power says. -/
theorem C143_powers (x : Nat → List Int) (p : List Nat) (hp : p.flatMap x ≠ []) (fuel : Nat)
    (hf : (p.flatMap x).length ≤ fuel) (k : Int → Nat)
    (hk : ∀ s ∈ p.flatMap x, (p.flatMap x).count s * 2 ^ k s = (p.flatMap x).length) :
    huffmanSize fuel (freqInfo x p).1 [] = some (.ok ((p.flatMap x).map k).sum) ∧
      information (p.flatMap x) = (((p.flatMap x).map k).sum : Nat) := by
  obtain ⟨n, hn, h2⟩ := (counts_freqInfo x p).size hp fuel hf
  have h := shortest_dyadic hp hn k hk
  subst h
  refine ⟨h2, ?_⟩
  unfold information
  rw [Nat.cast_list_sum, List.map_map]
  congr 1
  apply List.map_congr_left
  intro s hs
  have hc : (0 : ℝ) < (p.flatMap x).count s := by exact_mod_cast List.count_pos_iff.2 hs
  have : ((p.flatMap x).length : ℝ) / (p.flatMap x).count s = 2 ^ k s := by
    rw [div_eq_iff hc.ne', ← hk s hs]
    push_cast
    ring
  rw [this, Real.logb_pow, Real.logb_self_eq_one (by norm_num), mul_one]
  rfl

/-- Shares 1/2, 1/4, 1/8 and 1/8: 14 bits for 8 parts.  Shares 2/3 and 1/3: 3 bits, and
the information is 3 log₂ 3 - 2, about 2.75. -/
theorem C143_case :
    (∀ s ∈ [1, 1, 2, 1, 3, 2, 1, 4], ([1, 1, 2, 1, 3, 2, 1, 4] : List Int).count s
        * 2 ^ (if s = 1 then 1 else if s = 2 then 2 else 3) = 8) ∧
    huffmanSize 9 (freqInfo (fun i => if i = 0 then [1, 1, 2, 1] else [3, 2, 1, 4]) [0, 1]).1 [] = some (.ok 14) ∧
    huffmanSize 9 (counterItems [1, 1, 2]) [] = some (.ok 3) ∧
    information [1, 1, 2] = 3 * Real.logb 2 3 - 2 := by
  refine ⟨by decide +kernel, by decide +kernel, by decide +kernel, ?_⟩
  have h1 : Real.logb 2 ((3 : ℝ) / 2) = Real.logb 2 3 - 1 := by
    rw [Real.logb_div (by norm_num) (by norm_num), Real.logb_self_eq_one (by norm_num)]
  simp [information, h1]
  ring

end Verif
