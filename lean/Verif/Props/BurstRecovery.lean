import Verif.Props.Burst
import Verif.Props.PacketCorruptor

/-!
# C137: candidates after a burst of lost packets

The packet corruptor with the order it builds itself, for `c * 4 ^ m` packets.
-/

namespace Verif

open Spec

/-- Without an order the corruptor uses the one of the successive packing. -/
theorem corrupt_default (lg : Rat → Int) (fuel count bpi size : Nat) (order lost : List Nat) (prog : Program)
    (ho : buildInterleaveSp lg fuel count = some (.ok order)) (hne : order ≠ []) :
    packetCorrupt lg fuel count bpi size [] lost prog = packetCorrupt lg fuel count bpi size order lost prog := by
  unfold packetCorrupt
  simp only [if_neg hne, if_true, ho]

/-- **C137.**  Losing packets of one aligned group of `4 ^ k` of `c * 4 ^ m` packets,
where `2 ^ (m - k)` groups of bits are at least an instruction long: every candidate
of an address differs from one that was there before in one group of bits, the same
for all candidates of the address, and in the first bit of the instruction. -/
theorem C137_candidates (lg : Rat → Int) (hlg : LogOk lg) (m c fuel : Nat) (hc : 0 < c)
    (hm : lg ((c * 4 ^ m : Nat) : Rat) = m) (k : Nat) (hk : k ≤ m) (lost : List Nat) (group : Nat)
    (hl : ∀ p ∈ lost, 4 ^ k * group ≤ p ∧ p < 4 ^ k * (group + 1)) (bpi size : Nat) (hd : bpi ∣ 32)
    (hw : 32 ≤ bpi * 2 ^ (m - k)) (hf : 32 * size < fuel + 2) (prog prog' : Program)
    (hkeys : (prog.map (·.1)).Nodup) (henc : ∀ q ∈ prog, ∀ i ∈ q.2, i.encoding < 2 ^ 32)
    (h : packetCorrupt lg (fuel + 2) (c * 4 ^ m) bpi size [] lost prog = some (.ok prog'))
    (addrs : List Nat) (ha : addrs.Perm (prog.map (·.1))) (hs : addrs.Pairwise (· ≤ ·))
    (w a : Nat) (l : List CInst) (hwa : addrs[w]? = some a) (hla : dictGet prog a = some l) :
    ∃ l' g, dictGet prog' a = some l' ∧ ∀ v ∈ l'.map (·.encoding), ∃ u ∈ l.map (·.encoding),
      agreeOutside (fun i => i = 0 ∨ (32 * w + i) / bpi = g) u v := by
  have hp : 0 < c * 4 ^ m := Nat.mul_pos hc (by positivity)
  have ho := order_eq lg hlg m c fuel hc hm
  generalize (((List.range (2 ^ m)).map fun r => (List.range c).map fun i => (List.range (2 ^ m)).map fun x =>
        spCell m r x + 4 ^ m * i).flatten.flatten) = order at ho
  obtain ⟨hlen, -⟩ := order_mod lg hlg m c fuel hc hm order ho k hk
  have hperm : order.Perm (List.range (c * 4 ^ m)) := by
    have h2 := order_eq lg hlg m c (c * 4 ^ m) hc hm
    rw [← order_eq lg hlg m c fuel hc hm, ho] at h2
    obtain ⟨o, e1, e2⟩ := C10_order_is_permutation lg hlg (c * 4 ^ m) (c * 4 ^ m + 2) hp (by omega)
    rw [e1] at h2
    simp only [Option.some.injEq, Except.ok.injEq] at h2
    rw [← h2]
    exact e2
  have hne : order ≠ [] := by rintro rfl; simp at hlen; omega
  rw [corrupt_default lg _ _ bpi size order lost prog ho hne] at h
  cases lost with
  | nil => simp [packetCorrupt] at h
  | cons p rest =>
    have hin : ∀ q ∈ p :: rest, q ∈ order := by
      by_contra hcon
      simp only [not_forall] at hcon
      obtain ⟨q, hq, hnot⟩ := hcon
      rw [(C24_rejections lg _ _ bpi size order (p :: rest) prog).2.1 hne ⟨q, hq, hnot⟩] at h
      simp at h
    obtain ⟨es, hes, -, hex⟩ := C15_exact bpi size p order rest hd (hperm.nodup_iff.2 List.nodup_range) hin (fuel + 2) hf
    rw [hlen] at hes
    have hes0 : es ≠ [] := by
      rintro rfl
      rw [(C24_rejections lg _ _ bpi size order (p :: rest) prog).2.2 hne (by simp) hes] at h
      simp at h
    have hb : bpi ≤ 32 := Nat.le_of_dvd (by omega) hd
    obtain ⟨q, e1, -, e2⟩ := C24_packet_loss lg (fuel + 2) (c * 4 ^ m) bpi size order (p :: rest) prog hb hne (by simp)
      es hes hes0 hkeys henc
    rw [e1] at h
    simp only [Option.some.injEq, Except.ok.injEq] at h
    subst h
    obtain ⟨l', f1, -, f2, -⟩ := e2 addrs ha hs w a l hwa hla
    -- the group of the word that may be lost
    by_cases hx : ∃ x, x / 32 = w ∧ lostBit bpi size order (p :: rest) x
    · obtain ⟨x, hxw, hx⟩ := hx
      refine ⟨l', x / bpi, f1, fun v hv => ?_⟩
      obtain ⟨u, hu, hag⟩ := (f2 v).1 hv
      refine ⟨u, hu, fun i hi => hag i fun ⟨hi32, hpred⟩ => hi ?_⟩
      obtain ⟨y, hy, -, hxy⟩ := (hex _).1 hpred
      by_cases h31 : y % 32 = 31
      · rw [if_pos h31] at hxy; left; omega
      · rw [if_neg h31] at hxy
        right
        rw [hxy]
        exact C136_one_per_word lg hlg m c fuel hc hm order ho k hk (p :: rest) group hl bpi size y x hd hw hy hx
          (by omega)
    · refine ⟨l', 0, f1, fun v hv => ?_⟩
      obtain ⟨u, hu, hag⟩ := (f2 v).1 hv
      refine ⟨u, hu, fun i hi => hag i fun ⟨hi32, hpred⟩ => hi ?_⟩
      obtain ⟨y, hy, -, hxy⟩ := (hex _).1 hpred
      by_cases h31 : y % 32 = 31
      · rw [if_pos h31] at hxy; left; omega
      · rw [if_neg h31] at hxy
        exact absurd ⟨y, by omega, hy⟩ hx

/-- The order of sixteen packets, used in C136. -/
theorem burstOrder_built : buildInterleaveSp (fun p => (Nat.log 4 p.num.toNat : Int)) 40 ((16 : Nat) : Rat) =
    some (.ok burstOrder) := by
  have h := order_eq _ logOk_exact 2 1 38 (by decide) (by decide +kernel)
  rw [show (1 * 4 ^ 2 : Nat) = 16 from rfl] at h
  rw [h]
  rfl

/-- Sixteen packets, two bits at a time: losing packet 2 leaves one group of bits of
the instruction open in every round.  Losing packet 5, which carries the last bits of
the instruction, leaves one bit of them and the first bit of the next instruction
open.  With eight bits at a time, a burst of one packet is as C137 asks: losing packet
8 leaves exactly the second byte of the first instruction open. -/
theorem C137_case :
    packetCorrupt (fun p => (Nat.log 4 p.num.toNat : Int)) 40 16 2 2 [] [2] [(0, [⟨7, 0⟩]), (4, [⟨9, 4⟩])] =
      some (.ok [(0, [⟨7, 0⟩, ⟨23, 0⟩, ⟨39, 0⟩, ⟨55, 0⟩]), (4, [⟨9, 4⟩, ⟨25, 4⟩, ⟨41, 4⟩, ⟨57, 4⟩])]) ∧
    packetCorrupt (fun p => (Nat.log 4 p.num.toNat : Int)) 40 16 2 1 [] [5] [(0, [⟨7, 0⟩]), (4, [⟨9, 4⟩])] =
      some (.ok [(0, [⟨7, 0⟩, ⟨7 + 2 ^ 30, 0⟩]), (4, [⟨8, 4⟩, ⟨9, 4⟩])]) ∧
    packetCorrupt (fun p => (Nat.log 4 p.num.toNat : Int)) 40 16 8 1 [] [8] [(0, [⟨7, 0⟩]), (4, [⟨9, 4⟩])] =
      some (.ok [(0, (List.range 256).map fun j => ⟨7 + 256 * j, 0⟩), (4, [⟨9, 4⟩])]) := by
  rw [corrupt_default _ _ _ _ _ burstOrder _ _ burstOrder_built (by decide),
    corrupt_default _ _ _ _ _ burstOrder _ _ burstOrder_built (by decide),
    corrupt_default _ _ _ _ _ burstOrder _ _ burstOrder_built (by decide)]
  refine ⟨?_, ?_, ?_⟩ <;> decide +kernel

end Verif
