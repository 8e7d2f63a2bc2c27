import Verif.Props.LossCompose

/-!
# C152: the candidates that two receptions of the same program have in common
-/

namespace Verif

open Spec

/-- **C152.**  One program corrupted for two losses of packets: at an address with one
instruction the candidates in both are the words that differ from it only in bits that are
guessed for both. -/
theorem C152_common (lg : Rat → Int) (fuel bpi size p p' : Nat) (order lost lost' : List Nat) (hd : bpi ∣ 32) (hn : order.Nodup)
    (hin : ∀ r ∈ p :: lost, r ∈ order) (hin' : ∀ r ∈ p' :: lost', r ∈ order) (hf : 32 * size < fuel)
    (prog one other : Program) (hk : (prog.map (·.1)).Nodup) (henc : ∀ q ∈ prog, ∀ i ∈ q.2, i.encoding < 2 ^ 32)
    (h : packetCorrupt lg fuel order.length bpi size order (p :: lost) prog = some (.ok one))
    (h' : packetCorrupt lg fuel order.length bpi size order (p' :: lost') prog = some (.ok other))
    (w : Nat) (a : Nat) (hw : ((prog.map (·.1)).insertionSort (· ≤ ·))[w]? = some a) (c : CInst) (hc : dictGet prog a = some [c]) :
    ∃ l l', dictGet one a = some l ∧ dictGet other a = some l' ∧
      ∀ v, (v ∈ l.map (·.encoding) ∧ v ∈ l'.map (·.encoding)) ↔
        agreeOutside (fun i => guessedBit bpi size order p lost w i ∧ guessedBit bpi size order p' lost' w i) c.encoding v := by
  obtain ⟨_, _, h3⟩ := packet_words hd hn hin hf hk henc h
  obtain ⟨_, _, g3⟩ := packet_words hd hn hin' hf hk henc h'
  obtain ⟨l, e1, e2⟩ := h3 w a hw _ hc
  obtain ⟨l', f1, f2⟩ := g3 w a hw _ hc
  refine ⟨l, l', e1, f1, fun v => ?_⟩
  rw [e2, f2]
  simp only [List.map_cons, List.map_nil, List.mem_singleton, exists_eq_left]
  constructor
  · rintro ⟨h1, h2⟩ i hi
    by_cases hg : guessedBit bpi size order p lost w i
    · exact h2 i fun hg' => hi ⟨hg, hg'⟩
    · exact h1 i hg
  · intro hag
    exact ⟨fun i hi => hag i fun hg => hi hg.1, fun i hi => hag i fun hg => hi hg.2⟩

/-- A bit that is guessed for two losses without a common packet is the first of a word
after the first. -/
theorem guessed_twice {bpi size p p' : Nat} {order lost lost' : List Nat}
    (hdis : ∀ r ∈ p :: lost, r ∉ p' :: lost') {w i : Nat} (h : guessedBit bpi size order p lost w i)
    (h' : guessedBit bpi size order p' lost' w i) :
    i = 0 ∧ ∃ y, y % 32 = 31 ∧ y + 1 = 32 * w ∧
      ((lostBit bpi size order (p :: lost) y ∧ lostBit bpi size order (p' :: lost') (y + 1)) ∨
        (lostBit bpi size order (p' :: lost') y ∧ lostBit bpi size order (p :: lost) (y + 1))) := by
  obtain ⟨hi, y, hy, _, hx⟩ := h
  obtain ⟨_, z, hz, _, hx'⟩ := h'
  have hne : y ≠ z := by
    rintro rfl
    obtain ⟨_, q, hq, hget⟩ := hy
    obtain ⟨_, q', hq', hget'⟩ := hz
    rw [hget, Option.some.injEq] at hget'
    subst hget'
    exact hdis q hq hq'
  by_cases h1 : y % 32 = 31 <;> by_cases h2 : z % 32 = 31
  · rw [if_pos h1] at hx
    rw [if_pos h2] at hx'
    omega
  · rw [if_pos h1] at hx
    rw [if_neg h2] at hx'
    obtain rfl : z = y + 1 := by omega
    exact ⟨by omega, y, h1, by omega, .inl ⟨hy, hz⟩⟩
  · rw [if_neg h1] at hx
    rw [if_pos h2] at hx'
    obtain rfl : y = z + 1 := by omega
    exact ⟨by omega, z, h2, by omega, .inr ⟨hz, hy⟩⟩
  · rw [if_neg h1] at hx
    rw [if_neg h2] at hx'
    omega

/-- **C152, what does hold** (missing: the first bits of words after the first,
`C152_refuted`): when no packet is lost twice, a candidate in both differs from the original
in no other bit than the first of the word, and in none in the first word, or when no lost
packet carries the last bit of a word. -/
theorem C152_only_original_partial (lg : Rat → Int) (fuel bpi size p p' : Nat) (order lost lost' : List Nat) (hd : bpi ∣ 32)
    (hn : order.Nodup) (hin : ∀ r ∈ p :: lost, r ∈ order) (hin' : ∀ r ∈ p' :: lost', r ∈ order) (hf : 32 * size < fuel)
    (hdis : ∀ r ∈ p :: lost, r ∉ p' :: lost')
    (prog one other : Program) (hk : (prog.map (·.1)).Nodup) (henc : ∀ q ∈ prog, ∀ i ∈ q.2, i.encoding < 2 ^ 32)
    (h : packetCorrupt lg fuel order.length bpi size order (p :: lost) prog = some (.ok one))
    (h' : packetCorrupt lg fuel order.length bpi size order (p' :: lost') prog = some (.ok other))
    (w : Nat) (a : Nat) (hw : ((prog.map (·.1)).insertionSort (· ≤ ·))[w]? = some a) (c : CInst) (hc : dictGet prog a = some [c]) :
    ∃ l l', dictGet one a = some l ∧ dictGet other a = some l' ∧
      (∀ v, v ∈ l.map (·.encoding) ∧ v ∈ l'.map (·.encoding) → v / 2 = c.encoding / 2) ∧
      ((w = 0 ∨ ∀ y, y % 32 = 31 → ¬ lostBit bpi size order (p :: lost) y ∧ ¬ lostBit bpi size order (p' :: lost') y) →
        ∀ v, (v ∈ l.map (·.encoding) ∧ v ∈ l'.map (·.encoding)) ↔ v = c.encoding) := by
  obtain ⟨l, l', e, e', hv⟩ := C152_common lg fuel bpi size p p' order lost lost' hd hn hin hin' hf prog one other hk henc
    h h' w a hw c hc
  refine ⟨l, l', e, e', fun v hm => ?_, fun hex v => ?_⟩
  · rw [hv] at hm
    apply Nat.eq_of_testBit_eq
    intro i
    rw [Nat.testBit_div_two, Nat.testBit_div_two]
    exact (hm (i + 1) fun hg => absurd (guessed_twice hdis hg.1 hg.2).1 (by omega)).symm
  · rw [hv]
    constructor
    · intro hm
      apply Nat.eq_of_testBit_eq
      intro i
      refine (hm i fun hg => ?_).symm
      obtain ⟨_, y, hy, hyw, hl⟩ := guessed_twice hdis hg.1 hg.2
      rcases hex with rfl | hex
      · omega
      · rcases hl with hl | hl
        · exact (hex y hy).1 hl.1
        · exact (hex y hy).2 hl.1
    · rintro rfl i _
      rfl

/-- C152 is false in general: with eight packets of groups of four bits, the last bit of the first
word is lost with packet 7 and guessed in the first bit of the second word, which is the
bit lost with packet 0.  The word 6 at address 4 has the candidate 7 in both. -/
theorem C152_refuted :
    ((packetCorrupt (fun _ => 0) 100 8 4 2 (List.range 8) [0] [(0, [⟨5, 0⟩]), (4, [⟨6, 4⟩])]).bind fun r =>
      r.toOption.map fun p => p.map fun q => decide (7 ∈ q.2.map (·.encoding))) = some [true, true] ∧
    ((packetCorrupt (fun _ => 0) 100 8 4 2 (List.range 8) [7] [(0, [⟨5, 0⟩]), (4, [⟨6, 4⟩])]).bind fun r =>
      r.toOption.map fun p => p.map fun q => decide (7 ∈ q.2.map (·.encoding))) = some [false, true] := by
  decide +kernel

/-- Sixteen packets of one bit, of which 1 and 9 are lost: four bits of the word have
candidates for the one loss, two for the other, and none for both. -/
theorem C152_case :
    ((packetCorrupt (fun _ => 0) 100 16 1 1 (List.range 16) [1, 9] [(8, [⟨5, 8⟩])]).bind fun r => r.toOption.map fun p =>
        p.map fun q => (q.2.length, (q.2.map (·.encoding)).take 4)) = some [(16, [5, 7, 517, 519])] ∧
    ((packetCorrupt (fun _ => 0) 100 16 1 1 (List.range 16) [3] [(8, [⟨5, 8⟩])]).bind fun r => r.toOption.map fun p =>
        p.map fun q => q.2.map (·.encoding)) = some [[5, 13, 524293, 524301]] := by
  decide +kernel

end Verif
