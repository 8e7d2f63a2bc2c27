import Verif.Props.LossCompose
import Mathlib.Data.Finset.Card
import Mathlib.Data.Finset.Image
import Mathlib.Data.Finset.Dedup

/-!
# C157: how many different candidates a loss makes
-/

namespace Verif

open Spec

theorem agreeing_words (u : Nat) (G : Finset Nat) :
    ∃ s : Finset Nat, s.card = 2 ^ G.card ∧ ∀ v, v ∈ s ↔ agreeOutside (· ∈ G) u v := by
  induction G using Finset.induction_on with
  | empty =>
    refine ⟨{u}, by simp, fun v => ?_⟩
    rw [Finset.mem_singleton]
    constructor
    · rintro rfl i _
      rfl
    · intro h
      exact (Nat.eq_of_testBit_eq fun i => h i (by simp)).symm
  | insert g G hg ih =>
    obtain ⟨s, hc, hs⟩ := ih
    have hx : ∀ v i, (v ^^^ 2 ^ g).testBit i = if i = g then !v.testBit i else v.testBit i := by
      intro v i
      rw [Nat.testBit_xor, Nat.testBit_two_pow]
      by_cases h : i = g
      · subst h
        simp
      · simp [h, Ne.symm h]
    have hxx : ∀ v, v ^^^ 2 ^ g ^^^ 2 ^ g = v := fun v => by
      rw [Nat.xor_assoc, Nat.xor_self, Nat.xor_zero]
    have hin : Function.Injective (· ^^^ 2 ^ g : Nat → Nat) := fun a b h => by
      have : a ^^^ 2 ^ g ^^^ 2 ^ g = b ^^^ 2 ^ g ^^^ 2 ^ g := congrArg (· ^^^ 2 ^ g) h
      rwa [hxx, hxx] at this
    refine ⟨s ∪ s.image (· ^^^ 2 ^ g), ?_, fun v => ?_⟩
    · rw [Finset.card_union_of_disjoint, Finset.card_image_of_injective _ hin, hc, Finset.card_insert_of_notMem hg, pow_succ,
        Nat.mul_two]
      rw [Finset.disjoint_left]
      intro v hv hv'
      obtain ⟨w, hw, rfl⟩ := Finset.mem_image.1 hv'
      have h1 := (hs _).1 hv g hg
      have h2 := (hs _).1 hw g hg
      rw [h2, hx, if_pos rfl] at h1
      revert h1
      cases w.testBit g <;> simp
    · rw [Finset.mem_union, Finset.mem_image]
      constructor
      · rintro (h | ⟨w, hw, rfl⟩) i hi
        · exact (hs v).1 h i fun h => hi (Finset.mem_insert_of_mem h)
        · rw [hx, if_neg fun h : i = g => hi (h ▸ Finset.mem_insert_self g G)]
          exact (hs w).1 hw i fun h => hi (Finset.mem_insert_of_mem h)
      · intro h
        by_cases hb : u.testBit g = v.testBit g
        · left
          rw [hs]
          intro i hi
          by_cases hig : i = g
          · rw [hig, hb]
          · exact h i fun hm => (Finset.mem_insert.1 hm).elim hig hi
        · right
          refine ⟨v ^^^ 2 ^ g, ?_, hxx v⟩
          rw [hs]
          intro i hi
          rw [hx]
          by_cases hig : i = g
          · subst hig
            rw [if_pos rfl]
            revert hb
            cases u.testBit i <;> cases v.testBit i <;> simp
          · rw [if_neg hig]
            exact h i fun hm => (Finset.mem_insert.1 hm).elim hig hi

open Classical in
/-- **C157.**  At an address with one instruction the loss of packets makes as many different
candidates as there are values of the bits that are guessed in its word. -/
theorem C157_count (lg : Rat → Int) (fuel bpi size p : Nat) (order lost : List Nat) (hd : bpi ∣ 32) (hn : order.Nodup)
    (hin : ∀ q ∈ p :: lost, q ∈ order) (hf : 32 * size < fuel) (prog prog' : Program)
    (hk : (prog.map (·.1)).Nodup) (henc : ∀ q ∈ prog, ∀ i ∈ q.2, i.encoding < 2 ^ 32)
    (h : packetCorrupt lg fuel order.length bpi size order (p :: lost) prog = some (.ok prog'))
    (w a : Nat) (hw : ((prog.map (·.1)).insertionSort (· ≤ ·))[w]? = some a) (c : CInst) (hc : dictGet prog a = some [c]) :
    ∃ l, dictGet prog' a = some l ∧
      (l.map (·.encoding)).toFinset.card = 2 ^ ((Finset.range 32).filter (guessedBit bpi size order p lost w)).card := by
  obtain ⟨_, _, h3⟩ := packet_words hd hn hin hf hk henc h
  obtain ⟨l, e1, e2⟩ := h3 w a hw _ hc
  refine ⟨l, e1, ?_⟩
  obtain ⟨s, hs, hm⟩ := agreeing_words c.encoding ((Finset.range 32).filter (guessedBit bpi size order p lost w))
  rw [← hs]
  congr 1
  ext v
  rw [List.mem_toFinset, e2, hm]
  simp only [List.map_cons, List.map_nil, List.mem_singleton, exists_eq_left]
  have : ∀ i, (i ∈ (Finset.range 32).filter (guessedBit bpi size order p lost w)) ↔ guessedBit bpi size order p lost w i := by
    intro i
    rw [Finset.mem_filter, Finset.mem_range]
    exact ⟨fun h => h.2, fun h => ⟨h.1, h⟩⟩
  unfold agreeOutside
  simp only [this]

open Classical in
/-- **C157, what does hold** (missing: losses of the last bit of a word, `C157_refuted`).  When no
lost packet carries the last bit of a word and the first of the list comes
first in the order, these are the bits of the word that are lost: two candidates for one lost
bit, four for two, and so on. -/
theorem C157_lost_bits_partial (lg : Rat → Int) (fuel bpi size p : Nat) (order lost : List Nat) (hd : bpi ∣ 32) (hn : order.Nodup)
    (hin : ∀ q ∈ p :: lost, q ∈ order) (hmin : ∀ q ∈ lost, order.idxOf p ≤ order.idxOf q)
    (h31 : ∀ y, y % 32 = 31 → ¬ lostBit bpi size order (p :: lost) y) (hf : 32 * size < fuel) (prog prog' : Program)
    (hk : (prog.map (·.1)).Nodup) (henc : ∀ q ∈ prog, ∀ i ∈ q.2, i.encoding < 2 ^ 32)
    (h : packetCorrupt lg fuel order.length bpi size order (p :: lost) prog = some (.ok prog'))
    (w a : Nat) (hw : ((prog.map (·.1)).insertionSort (· ≤ ·))[w]? = some a) (c : CInst) (hc : dictGet prog a = some [c]) :
    ∃ l, dictGet prog' a = some l ∧ (l.map (·.encoding)).toFinset.card =
      2 ^ ((Finset.range 32).filter fun i => lostBit bpi size order (p :: lost) (32 * w + i)).card := by
  obtain ⟨l, e1, e2⟩ := C157_count lg fuel bpi size p order lost hd hn hin hf prog prog' hk henc h w a hw c hc
  refine ⟨l, e1, ?_⟩
  rw [e2]
  congr 2
  ext i
  rw [Finset.mem_filter, Finset.mem_filter, guessed_earliest hd hn hin hmin, Finset.mem_range]
  refine and_congr_right fun hi => ⟨?_, fun hl => ⟨hi, _, hl, ?_⟩⟩
  · rintro ⟨_, y, hy, hx⟩
    rw [if_neg fun h => h31 y h hy] at hx
    rw [hx]
    exact hy
  · rw [if_neg fun h => h31 _ h hl]

/-- C157 is false in general: packet 15 of sixteen carries the last bit of the word, which is not
guessed in it, so that there are two candidates for two lost bits. -/
theorem C157_refuted :
    ((packetCorrupt (fun _ => 0) 100 16 1 1 (List.range 16) [15] [(8, [⟨5, 8⟩])]).bind fun r => r.toOption.map fun p =>
        p.map fun q => (q.2.map (·.encoding)).toFinset.card) = some [2] := by
  decide +kernel

/-- Packets 1 and 9 of sixteen: four bits of the word and sixteen candidates. -/
theorem C157_case :
    ((packetCorrupt (fun _ => 0) 100 16 1 1 (List.range 16) [1, 9] [(8, [⟨5, 8⟩])]).bind fun r => r.toOption.map fun p =>
        p.map fun q => (q.2.map (·.encoding)).toFinset.card) = some [16] := by
  decide +kernel

end Verif
