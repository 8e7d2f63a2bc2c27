import Verif.Props.ReadCandidate
import Verif.Props.LossPlaces

/-!
# C156: the candidates made from what is received are those made from the original
-/

namespace Verif

open Spec

/-- **C156.**  Packet-loss corruption of another program with the same addresses: where the
other program has one of the candidates made of the first, it gets the same candidates.  So the
candidates do not tell which of them was the original. -/
theorem C156_any_candidate (lg : Rat → Int) (fuel bpi size p : Nat) (order lost : List Nat) (hd : bpi ∣ 32) (hn : order.Nodup)
    (hin : ∀ q ∈ p :: lost, q ∈ order) (hf : 32 * size < fuel) (prog prog' few : Program)
    (hk : (prog.map (·.1)).Nodup) (henc : ∀ q ∈ prog, ∀ i ∈ q.2, i.encoding < 2 ^ 32)
    (henc' : ∀ q ∈ prog', ∀ i ∈ q.2, i.encoding < 2 ^ 32) (hp : (prog'.map (·.1)).Perm (prog.map (·.1)))
    (h : packetCorrupt lg fuel order.length bpi size order (p :: lost) prog = some (.ok few)) :
    ∃ few', packetCorrupt lg fuel order.length bpi size order (p :: lost) prog' = some (.ok few') ∧
      ∀ a c c' l, dictGet prog a = some [c] → dictGet prog' a = some [c'] → dictGet few a = some l →
        c'.encoding ∈ l.map (·.encoding) →
          ∃ l', dictGet few' a = some l' ∧ ∀ v, v ∈ l'.map (·.encoding) ↔ v ∈ l.map (·.encoding) := by
  have hk' : (prog'.map (·.1)).Nodup := hp.nodup_iff.2 hk
  obtain ⟨few', h'⟩ := (packet_goes (lg := lg) hd hn hin hf hk' henc').2
    ((packet_goes (lg := lg) hd hn hin hf hk henc).1 ⟨few, h⟩)
  obtain ⟨_, _, h3⟩ := packet_words hd hn hin hf hk henc h
  obtain ⟨_, _, g3⟩ := packet_words hd hn hin hf hk' henc' h'
  have hs : (prog'.map (·.1)).insertionSort (· ≤ ·) = (prog.map (·.1)).insertionSort (· ≤ ·) := by
    have := sorted_places (f := id) (fun a _ b _ h => h) (by simpa using hp)
    simpa using this
  rw [hs] at g3
  refine ⟨few', h', ?_⟩
  intro a c c' l hc hc' hl hm
  have ha : a ∈ prog.map (·.1) := by rw [← dictGet_isSome, hc]; rfl
  obtain ⟨w, hw⟩ := List.mem_iff_getElem?.1 (show a ∈ (prog.map (·.1)).insertionSort (· ≤ ·) by
    rw [List.mem_insertionSort]; exact ha)
  obtain ⟨l₁, e1, e2⟩ := h3 w a hw _ hc
  rw [hl, Option.some.injEq] at e1
  subst e1
  obtain ⟨l₂, f1, f2⟩ := g3 w a hw _ hc'
  refine ⟨l₂, f1, fun v => ?_⟩
  rw [e2] at hm
  rw [f2, e2]
  simp only [List.map_cons, List.map_nil, List.mem_singleton, exists_eq_left] at hm ⊢
  exact ⟨fun hv i hi => (hm i hi).trans (hv i hi), fun hv i hi => (hm i hi).symm.trans (hv i hi)⟩

/-- **C156, what does hold** (missing: words whose last bit is one and is lost, `C156_refuted`).
The receiver of a program, who has only the words that were read, gets by packet-loss
corruption of these words the candidates that corruption of the original words gives. -/
theorem C156_received_partial (lg : Rat → Int) (fuel ws p : Nat) (hd : ws ∣ 32) (data order lost : List Nat) (hn : order.Nodup)
    (h2 : 1 < order.length) (hwhole : order.length ∣ chunkCount ws data)
    (hin : ∀ q ∈ p :: lost, q ∈ order) (hmin : ∀ q ∈ lost, order.idxOf p ≤ order.idxOf q)
    (hlast : order[order.length - 1] ∉ p :: lost) (hf : 32 * data.length < fuel)
    (prog few : Program) (hk : (prog.map (·.1)).Nodup) (henc : ∀ q ∈ prog, ∀ i ∈ q.2, i.encoding < 2 ^ 32)
    (h : packetCorrupt lg fuel order.length ws data.length order (p :: lost) prog = some (.ok few)) :
    ∃ pk out errors, interleave fuel data order ws = some (.ok pk) ∧
      deinterleave fuel (receive (lossOf (p :: lost)) pk) order ws = some (.ok (out, errors)) ∧
      ∀ prog', (∀ q ∈ prog', ∀ i ∈ q.2, i.encoding < 2 ^ 32) → (prog'.map (·.1)).Perm (prog.map (·.1)) →
        ∃ few', packetCorrupt lg fuel order.length ws data.length order (p :: lost) prog' = some (.ok few') ∧
          ∀ w a c c', ((prog.map (·.1)).insertionSort (· ≤ ·))[w]? = some a → dictGet prog a = some [c] →
            data[w]? = some c.encoding → dictGet prog' a = some [c'] → out[w]? = some c'.encoding →
            ¬ (c.encoding.testBit 31 = true ∧ lostBit ws data.length order (p :: lost) (32 * w + 31)) →
            ∃ l l', dictGet few a = some l ∧ dictGet few' a = some l' ∧
              ∀ v, v ∈ l'.map (·.encoding) ↔ v ∈ l.map (·.encoding) := by
  obtain ⟨pk, out, errors, h1, h3, hall⟩ := C155_read_partial lg fuel ws p hd data order lost hn h2 hwhole hin hmin hlast hf
    prog few hk henc h
  refine ⟨pk, out, errors, h1, h3, fun prog' henc' hp => ?_⟩
  obtain ⟨few', h', hany⟩ := C156_any_candidate lg fuel ws data.length p order lost hd hn hin hf prog prog' few hk henc henc'
    hp h
  refine ⟨few', h', fun w a c c' hw hc hdat hc' hout hno => ?_⟩
  obtain ⟨l, v, hl, hv, hiff⟩ := hall w a c hw hc hdat
  rw [hout, Option.some.injEq] at hv
  subst hv
  obtain ⟨l', hl', hsame⟩ := hany a c c' l hc hc' hl (hiff.2 hno)
  exact ⟨l, l', hl, hl', hsame⟩

/-- C156 is false in general: of the word 0x80000005, read as 4 without packet 0, no candidate
made from what is read has the last bit, and so the original is none of them. -/
theorem C156_refuted :
    (((interleave 1000 (0x80000005 :: List.replicate 14 0) (List.range 15) 2).bind fun r => r.toOption.bind fun pk =>
        deinterleave 1000 (receive (lossOf [0]) pk) (List.range 15) 2).bind fun r => r.toOption.map fun o => o.1.head?)
      = some (some 4) ∧
    ((packetCorrupt (fun _ => 0) 1000 15 2 15 (List.range 15) [0]
        ((0, [⟨4, 0⟩]) :: (List.range 14).map fun k => (4 * k + 4, [⟨0, 4 * k + 4⟩]))).bind fun r =>
      r.toOption.map fun p => p.head?.map fun q => (q.2.map (·.encoding)).dedup)
      = some (some [4, 5, 6, 7, 0x40000004, 0x40000005, 0x40000006, 0x40000007]) := by
  decide +kernel

/-- The candidates made from the word 4 that is read of 0x40000005 are those made from
0x40000005 (`C155_case`). -/
theorem C156_case :
    ((packetCorrupt (fun _ => 0) 1000 15 2 15 (List.range 15) [0]
        ((0, [⟨0x40000005, 0⟩]) :: (List.range 14).map fun k => (4 * k + 4, [⟨0, 4 * k + 4⟩]))).bind fun r =>
      r.toOption.map fun p => p.head?.map fun q => (q.2.map (·.encoding)).dedup)
      = some (some [4, 5, 6, 7, 0x40000004, 0x40000005, 0x40000006, 0x40000007]) ∧
    ((packetCorrupt (fun _ => 0) 1000 15 2 15 (List.range 15) [0]
        ((0, [⟨4, 0⟩]) :: (List.range 14).map fun k => (4 * k + 4, [⟨0, 4 * k + 4⟩]))).bind fun r =>
      r.toOption.map fun p => p.head?.map fun q => (q.2.map (·.encoding)).dedup)
      = some (some [4, 5, 6, 7, 0x40000004, 0x40000005, 0x40000006, 0x40000007]) := by
  decide +kernel

end Verif
