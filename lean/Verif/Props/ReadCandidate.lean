import Verif.Props.ReadLocal
import Verif.Props.LossCompose

/-!
# C155: what is read after a loss, and the candidates made for the loss
-/

namespace Verif

open Spec

/-- The loss of the packets of a list. -/
def Spec.lossOf (lost : List Nat) (q : Nat) : Loss := if q ∈ lost then .nulled else .kept

/-- **C155, what does hold** (missing: the last bit of a word, `C155_refuted`).  After a loss the
word that is read, with zeros for what is lost, is one of the candidates made for the loss
exactly when it is not the case that the last bit of the word is one and is lost.  (The packets
are equally full, the last one arrives, and the first of the list comes first in the order.) -/
theorem C155_read_partial (lg : Rat → Int) (fuel ws p : Nat) (hd : ws ∣ 32) (data order lost : List Nat) (hn : order.Nodup)
    (h2 : 1 < order.length) (hwhole : order.length ∣ chunkCount ws data)
    (hin : ∀ q ∈ p :: lost, q ∈ order) (hmin : ∀ q ∈ lost, order.idxOf p ≤ order.idxOf q)
    (hlast : order[order.length - 1] ∉ p :: lost) (hf : 32 * data.length < fuel)
    (prog prog' : Program) (hk : (prog.map (·.1)).Nodup) (henc : ∀ q ∈ prog, ∀ i ∈ q.2, i.encoding < 2 ^ 32)
    (h : packetCorrupt lg fuel order.length ws data.length order (p :: lost) prog = some (.ok prog')) :
    ∃ pk out errors, interleave fuel data order ws = some (.ok pk) ∧
      deinterleave fuel (receive (lossOf (p :: lost)) pk) order ws = some (.ok (out, errors)) ∧
      ∀ w a c, ((prog.map (·.1)).insertionSort (· ≤ ·))[w]? = some a → dictGet prog a = some [c] → data[w]? = some c.encoding →
        ∃ l v, dictGet prog' a = some l ∧ out[w]? = some v ∧
          (v ∈ l.map (·.encoding) ↔
            ¬ (c.encoding.testBit 31 = true ∧ lostBit ws data.length order (p :: lost) (32 * w + 31))) := by
  have hp : 0 < ws := Nat.pos_of_dvd_of_pos hd (by decide)
  have hN := chunkCount_mul hd data
  have hle : chunkCount ws data ≤ 32 * data.length := by
    rw [← hN]
    exact Nat.le_mul_of_pos_right _ hp
  have hr : rounds (chunkCount ws data) order.length (order.length - 1) * order.length = chunkCount ws data := by
    unfold rounds
    rw [show chunkCount ws data + order.length - 1 - (order.length - 1) = chunkCount ws data by omega,
      Nat.div_mul_cancel hwhole]
  have hr' : rounds (chunkCount ws data) order.length (order.length - 1) < fuel := by
    refine lt_of_le_of_lt ?_ (lt_of_le_of_lt hle hf)
    calc rounds (chunkCount ws data) order.length (order.length - 1)
        ≤ rounds (chunkCount ws data) order.length (order.length - 1) * order.length := Nat.le_mul_of_pos_right _ (by omega)
      _ = chunkCount ws data := hr
  have k1 : lossOf (p :: lost) (order[order.length - 1]'(by omega)) = .kept := by
    unfold Spec.lossOf
    rw [if_neg hlast]
  have k2 : ∀ j (h : j < order.length), order.length - 1 < j → lossOf (p :: lost) order[j] = .nulled := by
    intro j h1 h2
    omega
  obtain ⟨pk, out, m, a1, b1, c1, d1, s1, g1⟩ := C14_losses ws hd data order hn (lossOf (p :: lost)) (order.length - 1)
    (by omega) (by omega) k1 k2 fuel (by omega) fuel hr'
  have hbound := read_bounded hd hn (by omega) ⟨⟨by omega, k1⟩, k2⟩ (by omega) hr' a1 d1
  rw [hr] at s1 g1
  have l1 := received_length hd g1
  have e1 := congrArg List.length s1
  simp only [length_stream, List.length_append, List.length_replicate, l1, hN] at e1
  obtain ⟨_, _, h3⟩ := packet_words hd hn hin hf hk henc h
  refine ⟨pk, out, _, a1, d1, ?_⟩
  intro w a c hw hc hdat
  obtain ⟨l, e2, e3⟩ := h3 w a hw _ hc
  have hwlt : w < data.length := (List.getElem?_eq_some_iff.1 hdat).1
  have hwo : w < out.length := by omega
  have hcb : c.encoding < 2 ^ 32 := henc _ (dictGet_mem hc) c (by simp)
  have hbit : ∀ i, i < 32 → out[w].testBit i =
      if Spec.keptAt (lossOf (p :: lost)) order ((32 * w + i) / ws % order.length) then c.encoding.testBit i else false := by
    intro i hi
    have h4 := stream_bit hi out w
    rw [s1, List.getElem?_append_left (by rw [l1, hN]; omega), received_bit hp hd g1 _ (by rw [hN]; omega),
      stream_bit hi, hdat, List.getElem?_eq_getElem hwo] at h4
    simp only [Option.map_some] at h4
    split at h4
    · rename_i hk
      rw [if_pos hk]
      exact (Option.some.inj h4).symm
    · rename_i hk
      rw [if_neg hk]
      exact (Option.some.inj h4).symm
  have hlost : ∀ i, i < 32 → (lostBit ws data.length order (p :: lost) (32 * w + i) ↔
      Spec.keptAt (lossOf (p :: lost)) order ((32 * w + i) / ws % order.length) = false) := by
    intro i hi
    have hm : (32 * w + i) / ws % order.length < order.length := Nat.mod_lt _ (by omega)
    unfold lostBit Spec.keptAt Spec.lossOf
    rw [List.getElem?_eq_getElem hm]
    constructor
    · rintro ⟨_, q, hq, he⟩
      rw [Option.some.inj he]
      change decide ((if q ∈ p :: lost then Loss.nulled else Loss.kept) = Loss.kept) = false
      rw [if_pos hq]
      rfl
    · intro he
      refine ⟨by omega, _, ?_, rfl⟩
      by_contra hq
      change decide ((if order[(32 * w + i) / ws % order.length] ∈ p :: lost then Loss.nulled else Loss.kept) = Loss.kept)
        = false at he
      rw [if_neg hq] at he
      cases he
  have hbig : ∀ i, ¬ i < 32 → ∀ x, x < 2 ^ 32 → x.testBit i = false := fun i hi x hx =>
    Nat.testBit_lt_two_pow (lt_of_lt_of_le hx (Nat.pow_le_pow_right (by decide) (by omega)))
  refine ⟨l, out[w], e2, List.getElem?_eq_getElem hwo, ?_⟩
  rw [e3]
  simp only [List.map_cons, List.map_nil, List.mem_singleton, exists_eq_left]
  constructor
  · rintro hag ⟨hone, hl⟩
    have h5 := hag 31 (by
      rintro ⟨_, y, _, _, hy⟩
      split at hy <;> omega)
    rw [hbit 31 (by omega), (hlost 31 (by omega)).1 hl, hone] at h5
    cases h5
  · intro hno i hi
    by_cases hi32 : i < 32
    · rw [hbit i hi32]
      by_cases hkp : Spec.keptAt (lossOf (p :: lost)) order ((32 * w + i) / ws % order.length) = true
      · rw [if_pos hkp]
      · rw [if_neg hkp]
        have hl := (hlost i hi32).2 (by simpa using hkp)
        by_cases h31 : i = 31
        · subst h31
          by_contra hone
          exact hno ⟨by simpa using hone, hl⟩
        · exact absurd ((guessed_earliest hd hn hin hmin w i).2 ⟨hi32, _, hl, by rw [if_neg (by omega)]⟩) hi
    · rw [hbig i hi32 _ hcb, hbig i hi32 _ (hbound _ (List.getElem_mem hwo))]

/-- C155 is false in general: the last bit of the first of fifteen words is lost with packet 0
of fifteen and read as zero, but all candidates made for the loss have it. -/
theorem C155_refuted :
    (((interleave 1000 (0x80000005 :: List.replicate 14 0) (List.range 15) 2).bind fun r => r.toOption.bind fun pk =>
        deinterleave 1000 (receive (lossOf [0]) pk) (List.range 15) 2).bind fun r => r.toOption.map fun o => o.1.head?)
      = some (some 4) ∧
    ((packetCorrupt (fun _ => 0) 1000 15 2 15 (List.range 15) [0]
        ((0, [⟨0x80000005, 0⟩]) :: (List.range 14).map fun k => (4 * k + 4, [⟨0, 4 * k + 4⟩]))).bind fun r =>
      r.toOption.map fun p => p.head?.map fun q => (q.2.map (·.encoding)).dedup)
      = some (some [0x80000004, 0x80000005, 0x80000006, 0x80000007, 0xc0000004, 0xc0000005, 0xc0000006, 0xc0000007]) := by
  decide +kernel

/-- Without the last bit the word that is read is the first candidate. -/
theorem C155_case :
    (((interleave 1000 (0x40000005 :: List.replicate 14 0) (List.range 15) 2).bind fun r => r.toOption.bind fun pk =>
        deinterleave 1000 (receive (lossOf [0]) pk) (List.range 15) 2).bind fun r => r.toOption.map fun o => o.1.head?)
      = some (some 4) ∧
    ((packetCorrupt (fun _ => 0) 1000 15 2 15 (List.range 15) [0]
        ((0, [⟨0x40000005, 0⟩]) :: (List.range 14).map fun k => (4 * k + 4, [⟨0, 4 * k + 4⟩]))).bind fun r =>
      r.toOption.map fun p => p.head?.map fun q => (q.2.map (·.encoding)).dedup)
      = some (some [4, 5, 6, 7, 0x40000004, 0x40000005, 0x40000006, 0x40000007]) := by
  decide +kernel

end Verif
