import Verif.Props.Interleave

/-!
# C144: what a packet carries
-/

namespace Verif

open Spec

theorem flatten_inj_of_lengths {w : Nat} (hw : 0 < w) : ∀ {g g' : List (List Bool)}, (∀ x ∈ g, x.length = w) →
    (∀ x ∈ g', x.length = w) → g.flatten = g'.flatten → g = g' := by
  intro g
  induction g with
  | nil =>
    intro g' _ h' h
    cases g' with
    | nil => rfl
    | cons x g' =>
      have := congrArg List.length h
      have hx := h' x (by simp)
      simp at this
      omega
  | cons x g ih =>
    intro g' hg h' h
    cases g' with
    | nil =>
      have := congrArg List.length h
      have hx := hg x (by simp)
      simp only [List.flatten_cons, List.length_append, List.flatten_nil, List.length_nil] at this
      omega
    | cons y g' =>
      rw [List.flatten_cons, List.flatten_cons] at h
      obtain ⟨h1, h2⟩ := List.append_inj h (by rw [hg x (by simp), h' y (by simp)])
      rw [h1, ih (fun z hz => hg z (by simp [hz])) (fun z hz => h' z (by simp [hz])) h2]

theorem padded_eq_iff {a b : List Nat} {f g : List Bool} {m n : Nat} (hm : 1 ≤ m ∧ m ≤ 32) (hn : 1 ≤ n ∧ n ≤ 32)
    (ha : stream a = f ++ List.replicate m false) (hb : stream b = g ++ List.replicate n false)
    (hl : f.length = g.length) : stream a = stream b ↔ f = g := by
  have h1 := congrArg List.length ha
  have h2 := congrArg List.length hb
  simp only [length_stream, List.length_append, List.length_replicate] at h1 h2
  have hmn : m = n := by omega
  subst hmn
  rw [ha, hb]
  constructor
  · exact fun h => (List.append_inj h hl).1
  · rintro rfl
    rfl

theorem chunk_eq_iff {ws : Nat} {data data' : List Nat} {i : Nat} (hl : data.length = data'.length)
    (hi : (i + 1) * ws ≤ 32 * data.length) :
    chunk ws data i = chunk ws data' i ↔ ∀ b, i * ws ≤ b → b < (i + 1) * ws → (stream data)[b]? = (stream data')[b]? := by
  constructor
  · intro h b h1 h2
    have := congrArg (fun l => l[b - i * ws]?) h
    rw [Nat.add_mul, Nat.one_mul] at h2
    simp only [chunk, List.getElem?_take, List.getElem?_drop] at this
    rw [if_pos (by omega), if_pos (by omega), Nat.add_sub_cancel' h1] at this
    exact this
  · intro h
    apply List.ext_getElem?
    intro k
    simp only [chunk, List.getElem?_take, List.getElem?_drop]
    split
    · exact h _ (by omega) (by rw [Nat.add_mul]; omega)
    · rfl

theorem groups_eq_iff {ws : Nat} (hd : ws ∣ 32) {data data' : List Nat} (hl : data.length = data'.length) (P j : Nat) :
    packetGroups ws data P j = packetGroups ws data' P j ↔
      ∀ b, b < 32 * data.length → b / ws % P = j → (stream data)[b]? = (stream data')[b]? := by
  have hp : 0 < ws := Nat.pos_of_dvd_of_pos hd (by omega)
  have hN := chunkCount_mul hd data
  have hc : chunkCount ws data' = chunkCount ws data := by
    unfold chunkCount
    rw [hl]
  unfold packetGroups
  rw [hc, List.map_inj_left]
  simp only [List.mem_filter, List.mem_range, decide_eq_true_eq]
  constructor
  · intro h b hb hj
    have hi : b / ws < chunkCount ws data := by
      rw [Nat.div_lt_iff_lt_mul hp, hN]
      exact hb
    refine (chunk_eq_iff hl ?_).1 (h (b / ws) ⟨hi, hj⟩) b (Nat.div_mul_le_self b ws) ?_
    · rw [← hN]
      exact Nat.mul_le_mul_right _ hi
    · have := Nat.lt_mul_div_succ b hp
      rw [Nat.mul_comm] at this
      exact this
  · rintro h i ⟨hi, hj⟩
    have hle : (i + 1) * ws ≤ 32 * data.length := by
      rw [← hN]
      exact Nat.mul_le_mul_right _ hi
    rw [chunk_eq_iff hl hle]
    intro b h1 h2
    have hb : b / ws = i := Nat.div_eq_of_lt_le h1 h2
    exact h b (by omega) (by rw [hb]; exact hj)

/-- **C144.**  Two programs of the same length: the packet in place `j` of the order carries
the same bits of both exactly when they agree on every bit `b` with `b / ws` congruent to
`j`. -/
theorem C144_packet (ws : Nat) (hd : ws ∣ 32) (data data' order : List Nat) (hl : data.length = data'.length)
    (hn : order.Nodup) (hne : order ≠ []) (fuel : Nat) (hf : chunkCount ws data < fuel) :
    ∃ pk pk', interleave fuel data order ws = some (.ok pk) ∧ interleave fuel data' order ws = some (.ok pk') ∧
      ∀ j (h : j < order.length), ∃ q q', dictGet pk order[j] = some q ∧ dictGet pk' order[j] = some q' ∧
        (stream q.getBytes = stream q'.getBytes ↔
          ∀ b, b < 32 * data.length → b / ws % order.length = j → (stream data)[b]? = (stream data')[b]?) := by
  have hp : 0 < ws := Nat.pos_of_dvd_of_pos hd (by omega)
  have hc : chunkCount ws data' = chunkCount ws data := by
    unfold chunkCount
    rw [hl]
  obtain ⟨pk, h1, _, h3⟩ := C12_interleave ws hd data order hn hne fuel hf
  obtain ⟨pk', h1', _, h3'⟩ := C12_interleave ws hd data' order hn hne fuel (by rw [hc]; exact hf)
  refine ⟨pk, pk', h1, h1', ?_⟩
  intro j hj
  obtain ⟨q, n, a, n1, n2, s⟩ := h3 j hj
  obtain ⟨q', n', a', n1', n2', s'⟩ := h3' j hj
  refine ⟨q, q', a, a', ?_⟩
  have hlen : ∀ d : List Nat, ∀ x ∈ packetGroups ws d order.length j, x.length = ws := by
    intro d x hx
    unfold packetGroups at hx
    obtain ⟨i, hi, rfl⟩ := List.mem_map.1 hx
    rw [List.mem_filter, List.mem_range] at hi
    exact (C12_groups_are_data ws hd d).2 i hi.1
  have hflat : (packetGroups ws data order.length j).flatten.length = (packetGroups ws data' order.length j).flatten.length := by
    have : ∀ d : List Nat, (packetGroups ws d order.length j).flatten.length
        = (packetGroups ws d order.length j).length * ws := by
      intro d
      rw [List.length_flatten, List.map_congr_left (hlen d)]
      simp
    rw [this, this]
    congr 1
    unfold packetGroups
    rw [List.length_map, List.length_map, hc]
  rw [padded_eq_iff ⟨n1, n2⟩ ⟨n1', n2'⟩ s s' hflat, ← groups_eq_iff hd hl]
  exact ⟨fun h => flatten_inj_of_lengths hp (hlen _) (hlen _) h, fun h => by rw [h]⟩

/-- **C144.**  Nothing is lost by interleaving: different programs of the same length differ
in some packet. -/
theorem C144_all_packets (ws : Nat) (hd : ws ∣ 32) (data data' order : List Nat) (hl : data.length = data'.length)
    (hw : ∀ x ∈ data, x < 2 ^ 32) (hw' : ∀ x ∈ data', x < 2 ^ 32) (hne' : data ≠ data') (hn : order.Nodup)
    (hne : order ≠ []) (fuel : Nat) (hf : chunkCount ws data < fuel) :
    ∃ pk pk', interleave fuel data order ws = some (.ok pk) ∧ interleave fuel data' order ws = some (.ok pk') ∧
      ∃ p ∈ order, ∃ q q', dictGet pk p = some q ∧ dictGet pk' p = some q' ∧ stream q.getBytes ≠ stream q'.getBytes := by
  obtain ⟨pk, pk', h1, h2, h3⟩ := C144_packet ws hd data data' order hl hn hne fuel hf
  refine ⟨pk, pk', h1, h2, ?_⟩
  by_contra hcon
  push Not at hcon
  apply hne'
  apply stream_injective data data' hw hw'
  apply List.ext_getElem?
  intro b
  by_cases hb : b < 32 * data.length
  · have hj := Nat.mod_lt (b / ws) (List.length_pos_iff.2 hne)
    obtain ⟨q, q', a, a', e⟩ := h3 _ hj
    exact e.1 (hcon _ (List.getElem_mem hj) q q' a a') b hb rfl
  · rw [List.getElem?_eq_none (by rw [length_stream]; omega), List.getElem?_eq_none (by rw [length_stream]; omega)]

/-- **C144.**  Changing one bit of the program changes the packet that carries it, and no
other. -/
theorem C144_one_bit (ws : Nat) (hd : ws ∣ 32) (data data' order : List Nat) (hl : data.length = data'.length)
    (b : Nat) (hb : b < 32 * data.length) (hdiff : (stream data)[b]? ≠ (stream data')[b]?)
    (hsame : ∀ c, c ≠ b → (stream data)[c]? = (stream data')[c]?) (hn : order.Nodup)
    (hne : order ≠ []) (fuel : Nat) (hf : chunkCount ws data < fuel) :
    ∃ pk pk', interleave fuel data order ws = some (.ok pk) ∧ interleave fuel data' order ws = some (.ok pk') ∧
      ∀ j (h : j < order.length), ∃ q q', dictGet pk order[j] = some q ∧ dictGet pk' order[j] = some q' ∧
        (stream q.getBytes = stream q'.getBytes ↔ j ≠ b / ws % order.length) := by
  obtain ⟨pk, pk', h1, h2, h3⟩ := C144_packet ws hd data data' order hl hn hne fuel hf
  refine ⟨pk, pk', h1, h2, ?_⟩
  intro j hj
  obtain ⟨q, q', a, a', e⟩ := h3 j hj
  refine ⟨q, q', a, a', e.trans ⟨?_, ?_⟩⟩
  · rintro h rfl
    exact hdiff (h b hb rfl)
  · intro h c _ hc
    exact hsame c fun hcb => h (by rw [← hc, hcb])

/-- **C144.**  What only the lost packets carried is gone: programs that agree on every bit
of the packets that arrive are read back as the same bits, with the same errors. -/
theorem C144_lost (ws : Nat) (hd : ws ∣ 32) (data data' order : List Nat) (hl : data.length = data'.length)
    (hn : order.Nodup) (loss : Nat → Loss) (L : Nat) (hL : L < order.length) (hL0 : L ≠ 0)
    (hkept : loss order[L] = .kept) (hnull : ∀ j (h : j < order.length), L < j → loss order[j] = .nulled)
    (hagree : ∀ b, b < 32 * data.length → keptAt loss order (b / ws % order.length) = true →
      (stream data)[b]? = (stream data')[b]?)
    (fuel : Nat) (hf : chunkCount ws data < fuel) (fuel' : Nat)
    (hf' : rounds (chunkCount ws data) order.length L < fuel') :
    ∃ pk pk' out out' errors, interleave fuel data order ws = some (.ok pk) ∧
      interleave fuel data' order ws = some (.ok pk') ∧
      deinterleave fuel' (receive loss pk) order ws = some (.ok (out, errors)) ∧
      deinterleave fuel' (receive loss pk') order ws = some (.ok (out', errors)) ∧ stream out = stream out' := by
  have hp : 0 < ws := Nat.pos_of_dvd_of_pos hd (by omega)
  have hc : chunkCount ws data' = chunkCount ws data := by
    unfold chunkCount
    rw [hl]
  have hN := chunkCount_mul hd data
  obtain ⟨pk, out, n, h1, n1, n2, h2, h3, h4⟩ := C14_losses ws hd data order hn loss L hL hL0 hkept hnull fuel hf fuel' hf'
  obtain ⟨pk', out', n', h1', n1', n2', h2', h3', h4'⟩ := C14_losses ws hd data' order hn loss L hL hL0 hkept hnull fuel
    (by rw [hc]; exact hf) fuel' (by rw [hc]; exact hf')
  rw [hc] at h2' h3'
  refine ⟨pk, pk', out, out', _, h1, h1', h2, h2', ?_⟩
  have hrec : received ws data (keptAt loss order) order.length (rounds (chunkCount ws data) order.length L * order.length)
      = received ws data' (keptAt loss order) order.length (rounds (chunkCount ws data) order.length L * order.length) := by
    unfold received
    congr 1
    apply List.map_congr_left
    intro i hi
    rw [List.mem_range] at hi
    split
    · rename_i hk
      have hi' := h4 i hi hk
      have hle : (i + 1) * ws ≤ 32 * data.length := by
        rw [← hN]
        exact Nat.mul_le_mul_right _ hi'
      rw [chunk_eq_iff hl hle]
      intro b b1 b2
      have hb : b / ws = i := Nat.div_eq_of_lt_le b1 b2
      exact hagree b (by omega) (by rw [hb]; exact hk)
    · rfl
  exact (padded_eq_iff ⟨n1, n2⟩ ⟨n1', n2'⟩ h3 h3' (by rw [hrec])).2 hrec

/-- One bit of the second byte is changed: with bytes sent in three packets, the second
packet of the order differs; when it is lost, the same is read back. -/
theorem C144_case :
    (interleave 9 [0x44332211, 0x88776655] [2, 0, 1] 8).map
      (fun r => r.toOption.map fun pk => pk.map fun p => (p.1, p.2.getBytes)) =
      some (some [(2, [0x774411]), (0, [0x885522]), (1, [0x6633])]) ∧
    (interleave 9 [0x44332311, 0x88776655] [2, 0, 1] 8).map
      (fun r => r.toOption.map fun pk => pk.map fun p => (p.1, p.2.getBytes)) =
      some (some [(2, [0x774411]), (0, [0x885523]), (1, [0x6633])]) ∧
    ((interleave 9 [0x44332211, 0x88776655] [2, 0, 1] 8).bind fun r => r.toOption.bind fun pk =>
        deinterleave 9 (receive (fun p => if p = 0 then .nulled else .kept) pk) [2, 0, 1] 8)
      = ((interleave 9 [0x44332311, 0x88776655] [2, 0, 1] 8).bind fun r => r.toOption.bind fun pk =>
        deinterleave 9 (receive (fun p => if p = 0 then .nulled else .kept) pk) [2, 0, 1] 8) := by decide +kernel

end Verif
