import Verif.Props.TwoReceptions
import Verif.Props.LossCompose

/-!
# C153: the names of the packets do not matter
-/

namespace Verif

open Spec

/-- **C153.**  A program that is sent in two orders with as many packets, losing the packets in
the same places of the orders: the same words are read and the same errors are reported. -/
theorem C153_read (ws : Nat) (hd : ws ∣ 32) (data order order' : List Nat) (hl : order'.length = order.length)
    (hn : order.Nodup) (hn' : order'.Nodup) (L : Nat) (hL0 : L ≠ 0) (loss loss' : Nat → Loss) (k : LastKept order L loss)
    (k' : LastKept order' L loss')
    (h : ∀ j (h : j < order.length), loss' (order'[j]'(hl ▸ h)) = .kept ↔ loss order[j] = .kept)
    (fuel : Nat) (hf : chunkCount ws data < fuel) (fuel' : Nat)
    (hf' : rounds (chunkCount ws data) order.length L < fuel') :
    ∃ pk pk' out errors, interleave fuel data order ws = some (.ok pk) ∧
      interleave fuel data order' ws = some (.ok pk') ∧
      deinterleave fuel' (receive loss pk) order ws = some (.ok (out, errors)) ∧
      deinterleave fuel' (receive loss' pk') order' ws = some (.ok (out, errors)) := by
  obtain ⟨⟨hL, k1⟩, k2⟩ := id k
  obtain ⟨⟨hL', k1'⟩, k2'⟩ := id k'
  obtain ⟨pk, o1, m1, a1, b1, c1, d1, s1, g1⟩ := C14_losses ws hd data order hn loss L hL hL0 k1 k2 fuel hf fuel' hf'
  obtain ⟨pk2, o2, m2, a2, b2, c2, d2, s2, g2⟩ := C14_losses ws hd data order' hn' loss' L hL' hL0 k1' k2' fuel hf fuel'
    (by rw [hl]; exact hf')
  have hk : ∀ j, j < order.length → Spec.keptAt loss' order' j = Spec.keptAt loss order j := by
    intro j hj
    unfold Spec.keptAt
    rw [List.getElem?_eq_getElem hj, List.getElem?_eq_getElem (hl ▸ hj : j < order'.length)]
    simp only [h j hj]
  have hmod : ∀ i, Spec.keptAt loss' order' (i % order.length) = Spec.keptAt loss order (i % order.length) :=
    fun i => hk _ (Nat.mod_lt _ (by omega))
  rw [hl] at d2 s2
  have hr : ∀ n, received ws data (Spec.keptAt loss' order') order.length n = received ws data (Spec.keptAt loss order) order.length n := by
    intro n
    unfold received
    simp only [hmod]
  have he : ∀ n, lostPositions ws (Spec.keptAt loss' order') order.length n = lostPositions ws (Spec.keptAt loss order) order.length n := by
    intro n
    unfold lostPositions
    simp only [hmod]
  rw [he] at d2
  rw [hr] at s2
  obtain rfl : o1 = o2 := stream_injective _ _
    (read_bounded hd hn hL0 k hf hf' a1 d1) (read_bounded hd hn' hL0 k' hf (by rw [hl]; exact hf') a2 d2)
    ((padded_eq_iff ⟨b1, c1⟩ ⟨b2, c2⟩ s1 s2 rfl).mpr rfl)
  exact ⟨pk, pk2, o1, _, a1, a2, d1, d2⟩

theorem startBits_map {f : Nat → Nat} (hf : ∀ a b, f a = f b → a = b) (bpi : Nat) (order : List Nat) :
    ∀ lost, startBits bpi (order.map f) (lost.map f) = startBits bpi order lost := by
  have hi : ∀ p, pyIndex (order.map f) (f p) = pyIndex order p := by
    intro p
    unfold pyIndex
    have h1 : f p ∈ order.map f ↔ p ∈ order := by
      simp only [List.mem_map]
      constructor
      · rintro ⟨q, hq, he⟩
        exact hf q p he ▸ hq
      · exact fun h => ⟨p, h, rfl⟩
    have h2 : ∀ l : List Nat, (l.map f).idxOf (f p) = l.idxOf p := by
      intro l
      induction l with
      | nil => rfl
      | cons x l ih =>
        rw [List.map_cons, List.idxOf_cons, List.idxOf_cons, ih]
        by_cases hx : x = p
        · rw [hx, beq_self_eq_true, beq_self_eq_true]
        · have : f x ≠ f p := fun h => hx (hf _ _ h)
          rw [beq_false_of_ne hx, beq_false_of_ne this]
    rw [h2]
    by_cases h : p ∈ order
    · rw [if_pos h, if_pos (h1.2 h)]
    · rw [if_neg h, if_neg (mt h1.1 h)]
  intro lost
  induction lost with
  | nil => rfl
  | cons p ps ih =>
    rw [List.map_cons, startBits, startBits, hi, ih]

/-- **C153.**  The errors predicted of a loss and the candidates made for it do not depend on
the names of the packets, as long as different packets have different names. -/
theorem C153_candidates (lg : Rat → Int) (f : Nat → Nat) (hf : ∀ a b, f a = f b → a = b) (fuel count bpi size : Nat)
    (order lost : List Nat) (ho : order ≠ []) (prog : Program) :
    predictCorruption fuel count bpi size (order.map f) (lost.map f) = predictCorruption fuel count bpi size order lost ∧
    packetCorrupt lg fuel count bpi size (order.map f) (lost.map f) prog = packetCorrupt lg fuel count bpi size order lost prog := by
  have h1 : predictCorruption fuel count bpi size (order.map f) (lost.map f) = predictCorruption fuel count bpi size order lost := by
    unfold predictCorruption
    rw [startBits_map hf]
  refine ⟨h1, ?_⟩
  unfold packetCorrupt
  have ho' : order.map f ≠ [] := by simpa using ho
  simp only [if_neg ho, if_neg ho', h1, List.map_eq_nil_iff]

/-- The order 0, 1, 2, 3 without packet 1 and the order 7, 5, 4, 6 without packet 5; an order
with two packets of the same name is another matter. -/
theorem C153_case :
    LastKept [0, 1, 2, 3] 3 (fun p => if p = 1 then .nulled else .kept) ∧
    LastKept [7, 5, 4, 6] 3 (fun p => if p = 5 then .deleted else .kept) ∧
    ((interleave 9 [0x44332211, 0x88776655] [7, 5, 4, 6] 8).bind fun r => r.toOption.bind fun pk =>
        deinterleave 9 (receive (fun p => if p = 5 then .deleted else .kept) pk) [7, 5, 4, 6] 8)
      = some (.ok ([0x44330011, 0x88770055, 0], [(0, 8), (1, 8)])) ∧
    predictCorruption 100 4 8 2 [7, 5, 4, 6] [5, 6] = predictCorruption 100 4 8 2 [0, 1, 2, 3] [1, 3] ∧
    predictCorruption 100 4 8 2 [7, 5, 4, 5] [5, 5] ≠ predictCorruption 100 4 8 2 [0, 1, 2, 3] [1, 3] := by
  have h : ∀ (order : List Nat) (loss : Nat → Loss) (h : order.length = 4), loss order[3] = .kept → LastKept order 3 loss :=
    fun order loss h hk => ⟨⟨by omega, hk⟩, fun j hj hlt => by omega⟩
  exact ⟨h _ _ rfl rfl, h _ _ rfl rfl, by decide +kernel, by decide +kernel, by decide +kernel⟩

end Verif
