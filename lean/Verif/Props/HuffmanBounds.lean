import Verif.Props.HuffmanScripts

/-!
# C128: how the reported size behaves

Coding two programs (or texts) with one code never takes fewer bits than coding
each with its own; the size lies between one bit per part and the size of a
code with words of equal length.
-/

namespace Verif

open Spec

theorem shortest_append {a b : List Int} {x y n : Nat} (ha : Shortest a x) (hb : Shortest b y)
    (hn : Shortest (a ++ b) n) : x + y ≤ n := by
  obtain ⟨⟨code, hp, hl⟩, -⟩ := hn
  have h1 := ha.2 code fun s hs t ht => hp s (by simp [hs]) t (by simp [ht])
  have h2 := hb.2 code fun s hs t ht => hp s (by simp [hs]) t (by simp [ht])
  simp only [encodeMessage, List.flatMap_append, List.length_append] at h1 h2 hl
  omega

/-- The words of equal length. -/
def fixedCode (msg : List Int) (b : Nat) (s : Int) : List Bool :=
  List.ofFn fun i : Fin b => (msg.dedup.idxOf s).testBit i

theorem fixed_prefixFree (msg : List Int) (b : Nat) (h : msg.dedup.length ≤ 2 ^ b) : PrefixFree msg (fixedCode msg b) := by
  intro s hs t ht hne hp
  have heq : fixedCode msg b s = fixedCode msg b t := hp.eq_of_length (by simp [fixedCode])
  have hs' : s ∈ msg.dedup := List.mem_dedup.2 hs
  have ht' : t ∈ msg.dedup := List.mem_dedup.2 ht
  have hi := List.idxOf_lt_length_of_mem hs'
  have hj := List.idxOf_lt_length_of_mem ht'
  apply hne
  refine (List.idxOf_inj hs').1 (Nat.eq_of_testBit_eq fun k => ?_)
  by_cases hk : k < b
  · have := congrArg (fun l => l[k]?) heq
    simpa [fixedCode, hk] using this
  · have h2 : 2 ^ b ≤ 2 ^ k := Nat.pow_le_pow_right (by omega) (by omega)
    rw [Nat.testBit_lt_two_pow (by omega), Nat.testBit_lt_two_pow (by omega)]

theorem encode_length_fixed (msg : List Int) (code : Int → List Bool) (b : Nat) (h : ∀ s ∈ msg, (code s).length = b) :
    (encodeMessage code msg).length = msg.length * b := by
  induction msg with
  | nil => simp [encodeMessage]
  | cons a t ih =>
    have := ih fun s hs => h s (by simp [hs])
    simp only [encodeMessage, List.flatMap_cons, List.length_append, List.length_cons] at this ⊢
    rw [this, h a (by simp)]; ring

theorem encode_length_ge (msg : List Int) (code : Int → List Bool) (h : ∀ s ∈ msg, 0 < (code s).length) :
    msg.length ≤ (encodeMessage code msg).length := by
  induction msg with
  | nil => simp
  | cons a t ih =>
    have := ih fun s hs => h s (by simp [hs])
    have h2 := h a (by simp)
    simp only [encodeMessage, List.flatMap_cons, List.length_append, List.length_cons] at this ⊢
    omega

theorem shortest_bounds {msg : List Int} {n : Nat} (hn : Shortest msg n) :
    (∀ b, msg.dedup.length ≤ 2 ^ b → n ≤ msg.length * b) ∧
    ((∃ s ∈ msg, ∃ t ∈ msg, s ≠ t) → msg.length ≤ n) := by
  refine ⟨fun b hb => ?_, fun ⟨s, hs, t, ht, hst⟩ => ?_⟩
  · rw [← encode_length_fixed msg (fixedCode msg b) b fun _ _ => by simp [fixedCode]]
    exact hn.2 _ (fixed_prefixFree msg b hb)
  · obtain ⟨⟨code, hp, hl⟩, -⟩ := hn
    rw [← hl]
    apply encode_length_ge
    intro u hu
    apply List.length_pos_iff.2
    intro h0
    by_cases hus : u = s
    · exact hp u hu t ht (by rw [hus]; exact hst) (by rw [h0]; exact List.nil_prefix)
    · exact hp u hu s hs hus (by rw [h0]; exact List.nil_prefix)

/-- **C128, programs.**  The sizes reported for two programs add up to no more
than the size reported for the program made of both. -/
theorem C128_programs (x : Nat → List Int) (p q : List Nat) (hp : p.flatMap x ≠ []) (hq : q.flatMap x ≠ []) (fuel : Nat)
    (hf : ((p ++ q).flatMap x).length ≤ fuel) :
    ∃ a b n, huffmanSize fuel (freqInfo x p).1 [] = some (.ok a) ∧ huffmanSize fuel (freqInfo x q).1 [] = some (.ok b) ∧
      huffmanSize fuel (freqInfo x (p ++ q)).1 [] = some (.ok n) ∧ a + b ≤ n := by
  have hpq : (p ++ q).flatMap x = p.flatMap x ++ q.flatMap x := List.flatMap_append
  have hl : (p.flatMap x).length + (q.flatMap x).length ≤ fuel := by rw [← List.length_append, ← hpq]; exact hf
  obtain ⟨a, ha, ha2⟩ := (counts_freqInfo x p).size hp fuel (by omega)
  obtain ⟨b, hb, hb2⟩ := (counts_freqInfo x q).size hq fuel (by omega)
  obtain ⟨n, hn, hn2⟩ := (counts_freqInfo x (p ++ q)).size (by rw [hpq]; simp [hp]) fuel hf
  rw [hpq] at hn
  exact ⟨a, b, n, ha2, hb2, hn2, shortest_append ha hb hn⟩

/-- **C128, bounds.**  The size reported for a program whose parts have at most
`2 ^ b` different values is at most `b` bits for each part, and at least one bit
for each part when there are two different values. -/
theorem C128_bounds (x : Nat → List Int) (p : List Nat) (hp : p.flatMap x ≠ []) (fuel : Nat)
    (hf : (p.flatMap x).length ≤ fuel) :
    ∃ n, huffmanSize fuel (freqInfo x p).1 [] = some (.ok n) ∧
      (∀ b, (p.flatMap x).dedup.length ≤ 2 ^ b → n ≤ (p.flatMap x).length * b) ∧
      ((∃ s ∈ p.flatMap x, ∃ t ∈ p.flatMap x, s ≠ t) → (p.flatMap x).length ≤ n) := by
  obtain ⟨n, hn, h2⟩ := (counts_freqInfo x p).size hp fuel hf
  exact ⟨n, h2, shortest_bounds hn⟩

/-- **C128, texts.**  The same two facts for the letters of a text. -/
theorem C128_texts (s t : List Int) (hs : s ≠ []) (ht : t ≠ []) (fuel : Nat) (hf : (s ++ t).length ≤ fuel) :
    ∃ a b n, huffmanSize fuel (counterItems s) [] = some (.ok a) ∧ huffmanSize fuel (counterItems t) [] = some (.ok b) ∧
      huffmanSize fuel (counterItems (s ++ t)) [] = some (.ok n) ∧ a + b ≤ n ∧
      (∀ k, s.dedup.length ≤ 2 ^ k → a ≤ s.length * k) ∧
      ((∃ u ∈ s, ∃ v ∈ s, u ≠ v) → s.length ≤ a) := by
  have hl : s.length + t.length ≤ fuel := by rw [← List.length_append]; exact hf
  obtain ⟨a, ha, ha2⟩ := (counts_counter s).size hs fuel (by omega)
  obtain ⟨b, hb, hb2⟩ := (counts_counter t).size ht fuel (by omega)
  obtain ⟨n, hn, hn2⟩ := (counts_counter (s ++ t)).size (by simp [hs]) fuel hf
  exact ⟨a, b, n, ha2, hb2, hn2, shortest_append ha hb hn, shortest_bounds ha⟩

/-- Two texts that share no letter cost more together (10 bits instead of 5), a
text twice costs exactly twice as much, and both bounds are reached. -/
theorem C128_case :
    huffmanSize 9 (counterItems [1, 1, 2]) [] = some (.ok 3) ∧ huffmanSize 9 (counterItems [3, 4]) [] = some (.ok 2) ∧
    huffmanSize 9 (counterItems [1, 1, 2, 3, 4]) [] = some (.ok 10) ∧
    huffmanSize 9 (counterItems [1, 1, 2, 1, 1, 2]) [] = some (.ok 6) ∧
    huffmanSize 9 (counterItems [1, 2, 3, 4]) [] = some (.ok 8) := by decide +kernel

end Verif
