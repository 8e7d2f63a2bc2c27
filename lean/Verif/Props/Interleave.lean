import Verif.Proof.Interleave

/-! # Properties C12-C14: interleaving and deinterleaving -/

namespace Verif
open Spec

/-- **C12.**  Interleaving finishes after one turn per group, makes one queue
per packet of the order, and the packet in position `j` holds exactly the
groups `i` with `i % P = j`, in increasing order, followed by padding. -/
theorem C12_interleave (ws : Nat) (hd : ws ∣ 32) (data order : List Nat) (hn : order.Nodup)
    (hne : order ≠ []) (fuel : Nat) (hf : chunkCount ws data < fuel) :
    ∃ pk, interleave fuel data order ws = some (.ok pk) ∧ pk.map (·.1) = order ∧
      ∀ j (h : j < order.length), ∃ q n, dictGet pk order[j] = some q ∧ 1 ≤ n ∧ n ≤ 32 ∧
        stream q.getBytes =
          (packetGroups ws data order.length j).flatten ++ List.replicate n false := by
  obtain ⟨pk, h1, h2, h3⟩ := interleave_run hd data order hn hne fuel hf
  refine ⟨pk, h1, h2, fun j hj => ?_⟩
  obtain ⟨q, a, b, c⟩ := h3 j hj
  have := b.eqLt
  exact ⟨q, 32 - q.eqBit, a, by omega, by omega, b.words c⟩

/-- C12, the groups together are the data: nothing is dropped or duplicated. -/
theorem C12_groups_are_data (ws : Nat) (hd : ws ∣ 32) (data : List Nat) :
    ((List.range (chunkCount ws data)).map (chunk ws data)).flatten = stream data ∧
    ∀ i, i < chunkCount ws data → (chunk ws data i).length = ws := by
  refine ⟨flatten_all_chunks hd data, fun i hi => chunk_length ?_⟩
  rw [← chunkCount_mul hd]
  exact Nat.mul_le_mul_right _ hi

/-- C12, error branch: an empty order raises as soon as there is data. -/
theorem C12_empty_order (ws x : Nat) (data : List Nat) (fuel : Nat) :
    interleave (fuel + 1) (x :: data) [] ws = some (.error .index) ∧
    interleave (fuel + 1) [] [] ws = some (.ok []) := by
  constructor
  · simp [interleave, whileLoop, interleaveTurn, pyGet, bind, Except.bind, Except.map]
  · simp [interleave, whileLoop, newPackets, Except.map]

example : (interleave 9 [0x44332211, 0x88776655] [2, 0, 1] 8).map
    (fun r => r.toOption.map fun pk => pk.map fun p => (p.1, p.2.getBytes)) =
    some (some [(2, [0x774411]), (0, [0x885522]), (1, [0x6633])]) := by decide

/-- **C14.**  Suppose the last packet of the order that is not `None` arrived,
and is not the first.  Then deinterleaving reads `rounds` full rounds; at group
`i` it returns the data of a surviving packet or zeros; the error list is
exactly the list of positions of the lost groups. -/
theorem C14_losses (ws : Nat) (hd : ws ∣ 32) (data order : List Nat) (hn : order.Nodup)
    (loss : Nat → Loss) (L : Nat) (hL : L < order.length) (hL0 : L ≠ 0)
    (hkept : loss order[L] = .kept)
    (hnull : ∀ j (h : j < order.length), L < j → loss order[j] = .nulled)
    (fuel : Nat) (hf : chunkCount ws data < fuel) (fuel' : Nat)
    (hf' : rounds (chunkCount ws data) order.length L < fuel') :
    ∃ pk out n, interleave fuel data order ws = some (.ok pk) ∧ 1 ≤ n ∧ n ≤ 32 ∧
      deinterleave fuel' (receive loss pk) order ws = some (.ok (out,
        lostPositions ws (keptAt loss order) order.length
          (rounds (chunkCount ws data) order.length L * order.length))) ∧
      stream out = received ws data (keptAt loss order) order.length
        (rounds (chunkCount ws data) order.length L * order.length) ++ List.replicate n false ∧
      ∀ i, i < rounds (chunkCount ws data) order.length L * order.length →
        keptAt loss order (i % order.length) = true → i < chunkCount ws data := by
  have hne : order ≠ [] := by intro h; rw [h] at hL; simp at hL
  obtain ⟨pk, h1, h2, h3⟩ := interleave_run hd data order hn hne fuel hf
  obtain ⟨s, h4, h5⟩ := deinterleave_run hd data order hn loss L hL hL0 hkept hnull pk h3 fuel' hf'
  have := h5.out.eqLt
  refine ⟨pk, s.data.getBytes, 32 - s.data.eqBit, h1, by omega, by omega, ?_, ?_, ?_⟩
  · rw [h4, h5.errors]
  · exact h5.out.words h5.dq
  · intro i hi hk
    have hP : 0 < order.length := by omega
    have hj := Nat.mod_lt i hP
    have hle : i % order.length ≤ L := by
      by_contra hgt
      have : keptAt loss order (i % order.length) = false := by
        simp [keptAt, hj, hnull _ hj (by omega)]
      rw [this] at hk; simp at hk
    have hdiv : i / order.length < rounds (chunkCount ws data) order.length L :=
      (Nat.div_lt_iff_lt_mul hP).2 hi
    unfold rounds at hdiv
    rw [Nat.lt_iff_add_one_le, Nat.le_div_iff_mul_le hP, Nat.add_mul] at hdiv
    have := Nat.div_add_mod i order.length
    rw [Nat.mul_comm] at this
    omega

/-- C14, the remaining cases: every other pattern of losses raises. -/
theorem C14_rejections (ws : Nat) (hd : ws ∣ 32) (data order : List Nat) (hn : order.Nodup)
    (hne : order ≠ []) (loss : Nat → Loss) (fuel : Nat) (hf : chunkCount ws data < fuel)
    (fuel' : Nat) :
    ∃ pk, interleave fuel data order ws = some (.ok pk) ∧
      -- the last entry that is not `None` is missing
      ((∃ L, ∃ h : L < order.length, loss order[L] = .deleted ∧
          ∀ j (h : j < order.length), L < j → loss order[j] = .nulled) →
        deinterleave fuel' (receive loss pk) order ws = some (.error .key)) ∧
      -- only the first packet of the order arrived
      ((loss (order.head hne) = .kept ∧
          ∀ j (h : j < order.length), 0 < j → loss order[j] = .nulled) →
        deinterleave fuel' (receive loss pk) order ws = some (.error .runtime)) ∧
      -- every entry is `None`
      ((∀ j (h : j < order.length), loss order[j] = .nulled) →
        deinterleave fuel' (receive loss pk) order ws = some (.error .attribute)) := by
  obtain ⟨pk, h1, h2, h3⟩ := interleave_run hd data order hn hne fuel hf
  have hP : 0 < order.length := List.length_pos_iff.2 hne
  have hget : ∀ j (h : j < order.length), ∃ q, 
      dictGet (receive loss pk) order[j] = match loss order[j] with
      | .kept => some (some q) | .nulled => some none | .deleted => none := by
    intro j h
    obtain ⟨q, a, b, _⟩ := h3 j h
    refine ⟨q, ?_⟩
    rw [dictGet_receive, a]
    cases loss order[j] <;> rfl
  refine ⟨pk, h1, ?_, ?_, ?_⟩
  · rintro ⟨L, hL, hdel, hnull⟩
    have : lastAlive (receive loss pk) order order.length = .error .key :=
      lastAlive_deleted hL (by obtain ⟨q, c⟩ := hget L hL; rw [c, hdel]) _ hL (Nat.le_refl _)
        (by intro j h a _; obtain ⟨q, c⟩ := hget j h; rw [c, hnull j h a])
    unfold deinterleave
    rw [this]
  · rintro ⟨hk, hnull⟩
    have hk' : loss order[0] = .kept := by rw [List.head_eq_getElem] at hk; exact hk
    obtain ⟨q, c⟩ := hget 0 hP
    rw [hk'] at c
    have : lastAlive (receive loss pk) order order.length = .ok ((0 : Nat) : Int) :=
      lastAlive_found hP q c _ hP (Nat.le_refl _)
        (by intro j h a _; obtain ⟨q, c⟩ := hget j h; rw [c, hnull j h a])
    unfold deinterleave
    rw [this]
    simp
  · intro hnull
    have : lastAlive (receive loss pk) order order.length = .ok (-1) :=
      lastAlive_none _ (Nat.le_refl _)
        (by intro j h _; obtain ⟨q, c⟩ := hget j h; rw [c, hnull j h])
    unfold deinterleave
    rw [this]
    have hlast : pyGet order (-1) = .ok (order[order.length - 1]'(by omega)) := by
      exact pyGet_last_index order (by omega)
    obtain ⟨q, c⟩ := hget (order.length - 1) (by omega)
    rw [hnull _ (by omega)] at c
    simp only [hlast, c]
    rfl

/-- Three packets, two words, the packet in position 0 missing. -/
example : (interleave 9 [0x44332211, 0x88776655] [2, 0, 1] 8).bind
    (fun r => r.toOption.bind fun pk =>
      (deinterleave 9 (receive (fun p => if p = 2 then .nulled else .kept) pk) [2, 0, 1] 8).bind
        Except.toOption) =
    some ([0x00332200, 0x6655], [(0, 0), (0, 24)]) := by decide

/-- **C13, what does hold** (missing: a single packet, and data whose number of
groups is not a multiple of the number of packets; see `C13_single_refuted` and
`C13_refuted`): with at least two packets and a whole number of rounds the data
comes back, followed by one zero word, with no error. -/
theorem C13_roundtrip_partial (ws : Nat) (hd : ws ∣ 32) (data order : List Nat)
    (hw : ∀ x ∈ data, x < 2 ^ 32) (hn : order.Nodup) (h2 : 2 ≤ order.length)
    (hdiv : order.length ∣ chunkCount ws data)
    (fuel : Nat) (hf : chunkCount ws data < fuel) :
    ∃ pk, interleave fuel data order ws = some (.ok pk) ∧
      deinterleave fuel (pk.map fun p => (p.1, some p.2)) order ws =
        some (.ok (data ++ [0], [])) := by
  have hne : order ≠ [] := by intro h; rw [h] at h2; simp at h2
  have hP : 0 < order.length := by omega
  obtain ⟨pk, h1, _, h3⟩ := interleave_run hd data order hn hne fuel hf
  have hr : rounds (chunkCount ws data) order.length (order.length - 1) * order.length
      = chunkCount ws data := by
    unfold rounds
    rw [show chunkCount ws data + order.length - 1 - (order.length - 1) = chunkCount ws data by
      omega, Nat.div_mul_cancel hdiv]
  have hrec : receive (fun _ => .kept) pk = pk.map fun p => (p.1, some p.2) := by
    unfold receive
    rw [← List.filterMap_eq_map]
    rfl
  obtain ⟨s, h4, h5⟩ := deinterleave_run hd data order hn (fun _ => .kept) (order.length - 1)
    (by omega) (by omega) rfl (by intro j h a; omega) pk h3 fuel (by
      have : rounds (chunkCount ws data) order.length (order.length - 1) ≤ chunkCount ws data := by
        unfold rounds
        rw [show chunkCount ws data + order.length - 1 - (order.length - 1) = chunkCount ws data by
          omega]
        exact Nat.div_le_self _ _
      omega)
  rw [hr] at h5
  have hk : ∀ i, keptAt (fun _ => Loss.kept) order (i % order.length) = true := by
    intro i
    simp [keptAt, Nat.mod_lt i hP]
  refine ⟨pk, h1, ?_⟩
  rw [← hrec, h4, h5.errors]
  have e1 : lostPositions ws (keptAt (fun _ => Loss.kept) order) order.length
      (chunkCount ws data) = [] := by
    unfold lostPositions
    simp [hk]
  have hg : outGroups ws data (keptAt (fun _ => Loss.kept) order) order.length
      (chunkCount ws data) = (List.range (chunkCount ws data)).map (chunk ws data) := by
    unfold outGroups
    apply List.map_congr_left
    intro i _
    rw [hk, if_pos rfl]
  have e2 : s.data.getBytes = data ++ [0] := by
    apply stream_injective
    · exact h5.bounded
    · intro x hx
      rcases List.mem_append.1 hx with hx | hx
      · exact hw x hx
      · rw [List.mem_singleton] at hx; subst hx; decide
    · rw [h5.out.words h5.dq, hg, flatten_all_chunks hd, stream_append]
      have hc := h5.out.count
      have hlt := h5.out.eqLt
      rw [h5.dq, hg, List.length_map, List.length_range, Nat.mul_comm ws, chunkCount_mul hd] at hc
      have : s.data.eqBit = 0 := by omega
      rw [this]
      simp [bitsAt_zero_val]
  rw [e1, e2]

/-- Two words over four packets. -/
example : (interleave 9 [0x44332211, 0x88776655] [2, 0, 3, 1] 8).bind
    (fun r => r.toOption.bind fun pk =>
      (deinterleave 9 (pk.map fun p => (p.1, some p.2)) [2, 0, 3, 1] 8).bind Except.toOption) =
    some ([0x44332211, 0x88776655, 0], []) := by decide

/-- **C13 is false of the code** for a single packet: deinterleaving always
raises. -/
theorem C13_single_refuted (ws : Nat) (hd : ws ∣ 32) (data : List Nat) (p fuel fuel' : Nat)
    (hf : chunkCount ws data < fuel) :
    ∃ pk, interleave fuel data [p] ws = some (.ok pk) ∧
      deinterleave fuel' (pk.map fun p => (p.1, some p.2)) [p] ws = some (.error .runtime) := by
  obtain ⟨pk, h1, _, h3, _⟩ := C14_rejections ws hd data [p] (by simp) (by simp)
    (fun _ => .kept) fuel hf fuel'
  refine ⟨pk, h1, ?_⟩
  have hrec : receive (fun _ => .kept) pk = pk.map fun p => (p.1, some p.2) := by
    unfold receive
    rw [← List.filterMap_eq_map]
    rfl
  rw [← hrec]
  exact h3 ⟨rfl, by intro j h a; simp at h; omega⟩

/-- **C13 is false of the code** when the last round is not complete: with at
least two packets exactly the groups of the complete rounds come back; the
groups of the last, incomplete round are replaced by padding. -/
theorem C13_incomplete_round (ws : Nat) (hd : ws ∣ 32) (data order : List Nat)
    (hn : order.Nodup) (h2 : 2 ≤ order.length)
    (fuel : Nat) (hf : chunkCount ws data < fuel) :
    ∃ pk out n, interleave fuel data order ws = some (.ok pk) ∧ 1 ≤ n ∧ n ≤ 32 ∧
      deinterleave fuel (pk.map fun p => (p.1, some p.2)) order ws = some (.ok (out, [])) ∧
      stream out = (stream data).take (chunkCount ws data / order.length * order.length * ws) ++
        List.replicate n false := by
  have hP : 0 < order.length := by omega
  have hr : rounds (chunkCount ws data) order.length (order.length - 1)
      = chunkCount ws data / order.length := by
    unfold rounds
    rw [show chunkCount ws data + order.length - 1 - (order.length - 1) = chunkCount ws data by
      omega]
  obtain ⟨pk, out, n, h1, h3, h4, h5, h6, _⟩ := C14_losses ws hd data order hn (fun _ => .kept)
    (order.length - 1) (by omega) (by omega) rfl (by intro j h a; omega) fuel hf fuel (by
      rw [hr]
      have := Nat.div_le_self (chunkCount ws data) order.length
      omega)
  have hk : ∀ i, keptAt (fun _ => Loss.kept) order (i % order.length) = true := by
    intro i
    simp [keptAt, Nat.mod_lt i hP]
  have hrec : receive (fun _ => .kept) pk = pk.map fun p => (p.1, some p.2) := by
    unfold receive
    rw [← List.filterMap_eq_map]
    rfl
  have e1 : ∀ m, lostPositions ws (keptAt (fun _ => Loss.kept) order) order.length m = [] := by
    intro m
    unfold lostPositions
    simp [hk]
  rw [e1, hrec] at h5
  refine ⟨pk, out, n, h1, h3, h4, h5, ?_⟩
  rw [h6, hr]
  congr 1
  rw [← flatten_chunks ws data]
  · unfold received
    congr 1
    apply List.map_congr_left
    intro i _
    rw [hk, if_pos rfl]
  · rw [← chunkCount_mul hd]
    exact Nat.mul_le_mul_right _ (Nat.div_mul_le_self _ _)

/-- A concrete loss: one word in four groups over three packets, nothing lost
on the way, and the last byte does not come back. -/
theorem C13_refuted :
    ∃ pk, interleave 9 [0x44332211] [0, 1, 2] 8 = some (.ok pk) ∧
      deinterleave 9 (pk.map fun p => (p.1, some p.2)) [0, 1, 2] 8 =
        some (.ok ([0x332211], [])) := by
  refine ⟨_, rfl, by decide⟩

end Verif
