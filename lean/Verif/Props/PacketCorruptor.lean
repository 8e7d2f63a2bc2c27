import Verif.Proof.PacketCorruptor
import Verif.Props.Predict

/-! # Property C24: corruption by packet loss -/

namespace Verif
open Spec

/-- **C24.**  Let `es` be the predicted errors.  Packet-loss corruption
succeeds; no address is added, removed or moved; the candidates of the `w`-th
smallest address are sorted by encoding and hold exactly the words that differ
from a previous candidate only in the predicted bits of word `w`, at the
address of the first of them; if nothing is predicted for the word, they are
the previous candidates, sorted.  For every bit predicted for the word, counted as
often as it is predicted, there are twice as many of them. -/
theorem C24_packet_loss (lg : Rat → Int) (fuel count bpi size : Nat) (order lost : List Nat)
    (prog : Program) (hb : bpi ≤ 32) (ho : order ≠ []) (hl : lost ≠ []) (es : List ErrT)
    (hes : predictCorruption fuel count bpi size order lost = some (.ok es)) (hne : es ≠ [])
    (hk : (prog.map (·.1)).Nodup) (henc : ∀ q ∈ prog, ∀ i ∈ q.2, i.encoding < 2 ^ 32) :
    ∃ prog', packetCorrupt lg fuel count bpi size order lost prog = some (.ok prog') ∧
      prog'.map (·.1) = prog.map (·.1) ∧
      ∀ (addrs : List Nat), addrs.Perm (prog.map (·.1)) → addrs.Pairwise (· ≤ ·) →
        ∀ w a l, addrs[w]? = some a → dictGet prog a = some l →
          ∃ l', dictGet prog' a = some l' ∧ l'.Pairwise (fun x y => x.encoding ≤ y.encoding) ∧
            (∀ v, v ∈ l'.map (·.encoding) ↔ ∃ u ∈ l.map (·.encoding),
              agreeOutside (fun i => i < 32 ∧ predictedBit bpi es (32 * w + i)) u v) ∧
            (∀ c ∈ l', c ∈ l ∨ some c.address = l.head?.map (·.address)) ∧
            ((∀ i < 32, ¬ predictedBit bpi es (32 * w + i)) → (∀ e ∈ es, e.1 ≠ w) → l'.Perm l) ∧
            l'.length = l.length * 2 ^ ((es.filter fun e => decide (e.1 = w)).map fun e => e.2.2.getD bpi).sum := by
  have hval := predict_valid hb hes
  have hsorted : (sortErrors es).Pairwise fun a b => a.1 ≤ b.1 := by
    apply sortErrors_words
    intro e he
    have := hval e he
    simp only [errRange] at this
    omega
  obtain ⟨e0, es0, hsort⟩ : ∃ e0 es0, sortErrors es = e0 :: es0 := by
    cases hs : sortErrors es with
    | nil =>
      exfalso
      cases es with
      | nil => exact hne rfl
      | cons e es =>
        have := (mem_sortErrors (es := e :: es) (e := e)).2 (by simp)
        rw [hs] at this
        simp at this
    | cons a b => exact ⟨a, b, rfl⟩
  have hA : ((prog.map (·.1)).insertionSort (· ≤ ·)).Nodup :=
    (List.perm_insertionSort _ _).nodup_iff.2 hk
  have hAmem : ∀ a, a ∈ (prog.map (·.1)).insertionSort (· ≤ ·) ↔ a ∈ prog.map (·.1) :=
    fun a => List.mem_insertionSort _
  obtain ⟨p, h1, h2, h3, h4⟩ := groupLoop_ok bpi ((prog.map (·.1)).insertionSort (· ≤ ·)) hA
    (e0 :: es0) e0.1 [] prog (hsort ▸ hsorted)
    (by
      intro e he
      rw [hsort, List.pairwise_cons] at hsorted
      rcases List.mem_cons.1 he with rfl | he
      · exact Nat.le_refl _
      · exact hsorted.1 e he)
    (by
      intro t ht
      rw [List.nil_append, List.mem_map] at ht
      obtain ⟨e, he, rfl⟩ := ht
      exact hval e (mem_sortErrors.1 (hsort ▸ he)))
    (fun _ => ⟨e0, es0, rfl, rfl⟩)
    (by
      intro w a hw
      have ha := (hAmem a).1 (List.mem_of_getElem? hw)
      obtain ⟨l, hl⟩ := Option.isSome_iff_exists.1 ((dictGet_isSome prog a).2 ha)
      exact ⟨l, hl, fun _ => henc (a, l) (dictGet_mem hl)⟩)
  refine ⟨p.map fun q => (q.1, sortInsts q.2), ?_, ?_, ?_⟩
  · unfold packetCorrupt
    rw [if_neg hl]
    simp only [if_neg ho, hes, hsort, h1, bind, Except.bind]
    rfl
  · rw [List.map_map, ← h2]; rfl
  · intro addrs hp hpw w a l hw hdl
    have haddr : addrs = (prog.map (·.1)).insertionSort (· ≤ ·) := by
      apply (hp.trans (List.perm_insertionSort (· ≤ ·) _).symm).eq_of_pairwise
        (le := fun a b : Nat => a ≤ b)
      · intro a b _ _ h1 h2; omega
      · exact hpw
      · exact List.pairwise_insertionSort _ _
    subst haddr
    rw [dictGet_mapValues, h4 w a hw, hdl]
    -- the two shapes are one
    obtain ⟨r, hr, hform⟩ : ∃ r, (if w < e0.1 then some l
          else if w = e0.1 then (some l).map (cornerAll ([] ++ wordRanges bpi w (e0 :: es0)))
          else if wordRanges bpi w (e0 :: es0) = [] then some l
          else (some l).map (cornerAll (wordRanges bpi w (e0 :: es0)))) = some r ∧
        (r = cornerAll (wordRanges bpi w (e0 :: es0)) l ∧ (∃ e ∈ es, e.1 = w) ∨
          r = l ∧ wordRanges bpi w (e0 :: es0) = []) := by
      by_cases c1 : w < e0.1
      · rw [if_pos c1]
        refine ⟨l, rfl, Or.inr ⟨rfl, wordRanges_nil_of_lt ?_⟩⟩
        intro e he
        rw [hsort, List.pairwise_cons] at hsorted
        rcases List.mem_cons.1 he with rfl | he
        · exact c1
        · have := hsorted.1 e he; omega
      · rw [if_neg c1]
        by_cases c2 : w = e0.1
        · rw [if_pos c2]
          exact ⟨_, rfl, Or.inl ⟨by simp, e0, mem_sortErrors.1 (by rw [hsort]; simp), c2.symm⟩⟩
        · rw [if_neg c2]
          by_cases c3 : wordRanges bpi w (e0 :: es0) = []
          · rw [if_pos c3]; exact ⟨l, rfl, Or.inr ⟨rfl, c3⟩⟩
          · rw [if_neg c3]
            refine ⟨_, rfl, Or.inl ⟨rfl, ?_⟩⟩
            obtain ⟨x, hx⟩ := List.exists_mem_of_ne_nil _ c3
            obtain ⟨e, he, _⟩ := List.mem_map.1 hx
            rw [List.mem_filter, decide_eq_true_eq] at he
            exact ⟨e, mem_sortErrors.1 (hsort ▸ he.1), he.2⟩
    rw [hr]
    have hbits : ∀ i, (∃ t ∈ wordRanges bpi w (e0 :: es0), t.1 ≤ i ∧ i < t.2) ↔
        i < 32 ∧ predictedBit bpi es (32 * w + i) := by
      intro i
      unfold wordRanges predictedBit tupleBits
      constructor
      · rintro ⟨t, ht, h5, h6⟩
        obtain ⟨e, he, rfl⟩ := List.mem_map.1 ht
        rw [List.mem_filter, decide_eq_true_eq, ← hsort, mem_sortErrors] at he
        have := hval e he.1
        refine ⟨by omega, e, he.1, ?_⟩
        simp only [errRange] at h5 h6
        omega
      · rintro ⟨hi, e, he, h5⟩
        have := hval e he
        simp only [errRange] at this
        refine ⟨errRange bpi e, List.mem_map.2 ⟨e, ?_, rfl⟩, ?_⟩
        · rw [List.mem_filter, decide_eq_true_eq, ← hsort, mem_sortErrors]
          exact ⟨he, by omega⟩
        · simp only [errRange]
          omega
    refine ⟨sortInsts r, rfl, sorted_sortInsts r, ?_, ?_, ?_, ?_⟩
    · intro v
      have : v ∈ (sortInsts r).map (·.encoding) ↔ v ∈ r.map (·.encoding) := by
        simp only [List.mem_map]
        unfold sortInsts
        simp only [List.mem_insertionSort]
      rw [this]
      rcases hform with ⟨rfl, _⟩ | ⟨rfl, hnil⟩
      · simp only [List.mem_map]
        constructor
        · rintro ⟨c, hc, rfl⟩
          obtain ⟨_, i, hi, hag⟩ := (mem_cornerAll _ _ _).1 hc
          exact ⟨_, ⟨i, hi, rfl⟩, fun k hk => hag k fun h => hk ((hbits k).1 h)⟩
        · rintro ⟨_, ⟨i, hi, rfl⟩, hag⟩
          refine ⟨⟨v, (l.head?.map (·.address)).getD 0⟩, ?_, rfl⟩
          exact (mem_cornerAll _ _ _).2 ⟨rfl, i, hi, fun k hk => hag k fun h => hk ((hbits k).2 h)⟩
      · constructor
        · intro h; exact ⟨v, h, fun _ _ => rfl⟩
        · rintro ⟨u, hu, hag⟩
          have : u = v := by
            apply Nat.eq_of_testBit_eq
            intro k
            apply hag k
            intro h
            obtain ⟨t, ht, _⟩ := (hbits k).2 h
            rw [hnil] at ht
            simp at ht
          exact this ▸ hu
    · intro c hc
      unfold sortInsts at hc
      rw [List.mem_insertionSort] at hc
      rcases hform with ⟨rfl, _⟩ | ⟨rfl, _⟩
      · obtain ⟨h5, i, hi, _⟩ := (mem_cornerAll _ _ _).1 hc
        right
        cases l with
        | nil => simp at hi
        | cons x xs => simp at h5 ⊢; exact h5
      · exact Or.inl hc
    · intro _ hno
      rcases hform with ⟨_, e, he, hw'⟩ | ⟨rfl, _⟩
      · exact absurd hw' (hno e he)
      · exact List.perm_insertionSort _ _
    · unfold sortInsts
      rw [List.length_insertionSort]
      have hsum : ((wordRanges bpi w (e0 :: es0)).map fun t => t.2 - t.1).sum =
          ((es.filter fun e => decide (e.1 = w)).map fun e => e.2.2.getD bpi).sum := by
        unfold wordRanges
        rw [List.map_map, ← hsort]
        have hp : (sortErrors es).Perm es := List.perm_insertionSort _ _
        have := ((hp.filter fun e => decide (e.1 = w)).map fun e => e.2.2.getD bpi).sum_eq
        rw [← this]
        congr 1
        apply List.map_congr_left
        intro e _
        simp [errRange]
      rcases hform with ⟨rfl, _⟩ | ⟨rfl, hnil⟩
      · rw [length_cornerAll, hsum]
      · rw [← hsum, hnil]; simp

/-- C24: every previous candidate, in particular the true instruction, is still
a candidate. -/
theorem C24_keeps_candidates (lg : Rat → Int) (fuel count bpi size : Nat) (order lost : List Nat)
    (prog prog' : Program) (hb : bpi ≤ 32) (ho : order ≠ [])
    (hk : (prog.map (·.1)).Nodup) (henc : ∀ q ∈ prog, ∀ i ∈ q.2, i.encoding < 2 ^ 32)
    (h : packetCorrupt lg fuel count bpi size order lost prog = some (.ok prog'))
    (a : Nat) (l : List CInst) (i : CInst) (ha : dictGet prog a = some l) (hi : i ∈ l) :
    ∃ l' j, dictGet prog' a = some l' ∧ j ∈ l' ∧ j.encoding = i.encoding := by
  have hl : lost ≠ [] := by
    rintro rfl
    simp [packetCorrupt] at h
  have h' := h
  unfold packetCorrupt at h'
  rw [if_neg hl] at h'
  simp only [if_neg ho] at h'
  cases hes : predictCorruption fuel count bpi size order lost with
  | none => rw [hes] at h'; simp at h'
  | some o =>
    cases o with
    | error e => rw [hes] at h'; simp at h'
    | ok es =>
      have hne : es ≠ [] := by
        rintro rfl
        rw [hes] at h'
        simp [sortErrors] at h'
      obtain ⟨p, h1, _, h3⟩ := C24_packet_loss lg fuel count bpi size order lost prog hb ho hl es hes
        hne hk henc
      rw [h, Option.some.injEq, Except.ok.injEq] at h1
      subst h1
      have hmem : a ∈ (prog.map (·.1)).insertionSort (· ≤ ·) := by
        rw [List.mem_insertionSort, ← dictGet_isSome, ha]; rfl
      obtain ⟨w, hw⟩ := List.mem_iff_getElem?.1 hmem
      obtain ⟨l', h4, _, h5, _⟩ := h3 _ (List.perm_insertionSort _ _) (List.pairwise_insertionSort _ _)
        w a l hw ha
      have := (h5 i.encoding).2 ⟨i.encoding, List.mem_map.2 ⟨i, hi, rfl⟩, fun _ _ => rfl⟩
      obtain ⟨j, hj, hj'⟩ := List.mem_map.1 this
      exact ⟨l', j, h4, hj, hj'⟩

/-- C24, the error branches: nothing lost; an unknown packet; nothing predicted
(the first lost packet lies beyond the data). -/
theorem C24_rejections (lg : Rat → Int) (fuel count bpi size : Nat) (order lost : List Nat)
    (prog : Program) :
    (lost = [] → packetCorrupt lg fuel count bpi size order lost prog = some (.error .runtime)) ∧
    (order ≠ [] → (∃ p ∈ lost, p ∉ order) →
      packetCorrupt lg fuel count bpi size order lost prog = some (.error .value)) ∧
    (order ≠ [] → lost ≠ [] → predictCorruption fuel count bpi size order lost = some (.ok []) →
      packetCorrupt lg fuel count bpi size order lost prog = some (.error .index)) := by
  refine ⟨?_, ?_, ?_⟩
  · rintro rfl; simp [packetCorrupt]
  · intro ho h
    have hl : lost ≠ [] := by rintro rfl; obtain ⟨p, hp, _⟩ := h; simp at hp
    unfold packetCorrupt
    rw [if_neg hl]
    simp only [if_neg ho, (C15_rejections fuel count bpi size order lost).2 h]
  · intro ho hl h
    unfold packetCorrupt
    rw [if_neg hl]
    simp only [if_neg ho, h]
    simp [sortErrors]

/-- Two words, eight packets of two bits, packet 3 lost: bits 6, 7, 22 and 23 of
each word. -/
example : (packetCorrupt (fun _ => 0) 100 8 2 2 [0, 1, 2, 3, 4, 5, 6, 7] [3]
    [(104, [⟨5, 104⟩]), (100, [⟨0x40, 100⟩])]).bind (fun r => r.toOption.map fun p =>
      p.map fun q => (q.1, q.2.length, q.2.take 3)) =
    some [(104, 16, [⟨5, 104⟩, ⟨69, 104⟩, ⟨133, 104⟩]), (100, 16, [⟨0, 100⟩, ⟨64, 100⟩, ⟨128, 100⟩])] := by
  decide +kernel

/-- A word end labelled as the start of the next word makes candidates repeat:
with single-bit groups in 32 packets and packets 0 and 31 lost, bit 0 of the
second word is predicted twice and each of its two words is listed twice. -/
theorem C24_duplicates :
    packetCorrupt (fun _ => 0) 100 32 1 2 (List.range 32) [0, 31]
        [(100, [⟨7, 100⟩]), (104, [⟨9, 104⟩])] =
      some (.ok [(100, [⟨6, 100⟩, ⟨7, 100⟩]), (104, [⟨8, 104⟩, ⟨8, 104⟩, ⟨9, 104⟩, ⟨9, 104⟩])]) := by
  decide +kernel

end Verif
