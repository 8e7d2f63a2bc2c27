import Verif.Props.PacketBits

/-!
# C150: what is read from two receptions of the same packets
-/

namespace Verif

open Spec

theorem chunk_len {ws : Nat} (hd : ws ∣ 32) {data : List Nat} {i : Nat} (hi : i < chunkCount ws data) :
    (chunk ws data i).length = ws := by
  apply chunk_length
  rw [← chunkCount_mul hd data]
  exact Nat.mul_le_mul_right ws (Nat.succ_le_of_lt hi)

theorem received_succ (ws : Nat) (data : List Nat) (K : Nat → Bool) (P n : Nat) :
    received ws data K P (n + 1) = received ws data K P n ++
      if K (n % P) then chunk ws data n else List.replicate ws false := by
  unfold received
  rw [List.range_succ, List.map_append, List.flatten_append]
  simp

theorem received_length {ws : Nat} (hd : ws ∣ 32) {data : List Nat} {K : Nat → Bool} {P n : Nat}
    (h : ∀ i, i < n → K (i % P) = true → i < chunkCount ws data) : (received ws data K P n).length = n * ws := by
  induction n with
  | zero => simp [received]
  | succ n ih =>
    rw [received_succ, List.length_append, ih fun i hi => h i (by omega), Nat.succ_mul]
    congr 1
    split
    · rename_i hk
      exact chunk_len hd (h n (by omega) hk)
    · exact List.length_replicate

/-- A way of putting two bits together that is decided by which of them there are. -/
structure Joins (f : Bool → Bool → Bool) : Prop where
  left : ∀ x, f x false = (f true false && x)
  right : ∀ x, f false x = (f false true && x)
  same : ∀ x, f x x = x

theorem zip_zeros {f : Bool → Bool → Bool} (hf : Joins f) (l : List Bool) :
    List.zipWith f (List.replicate l.length false) l = (if f false true then l else List.replicate l.length false) ∧
      List.zipWith f l (List.replicate l.length false) = if f true false then l else List.replicate l.length false := by
  induction l with
  | nil => simp
  | cons x l ih =>
    rw [List.length_cons, List.replicate_succ, List.zipWith_cons_cons, List.zipWith_cons_cons, ih.1, ih.2, hf.left,
      hf.right]
    cases f false true <;> cases f true false <;> exact ⟨rfl, rfl⟩

theorem received_join {ws : Nat} (hd : ws ∣ 32) {data : List Nat} {K1 K2 K3 : Nat → Bool} {P n : Nat} {f : Bool → Bool → Bool}
    (hf : Joins f) (h3 : ∀ i, i < n → K3 (i % P) = f (K1 (i % P)) (K2 (i % P)))
    (h1 : ∀ i, i < n → K1 (i % P) = true → i < chunkCount ws data)
    (h2 : ∀ i, i < n → K2 (i % P) = true → i < chunkCount ws data) :
    received ws data K3 P n = List.zipWith f (received ws data K1 P n) (received ws data K2 P n) := by
  induction n with
  | zero => rfl
  | succ n ih =>
    have l1 := received_length hd (P := P) (n := n) fun i hi => h1 i (by omega)
    have l2 := received_length hd (P := P) (n := n) fun i hi => h2 i (by omega)
    rw [received_succ, received_succ, received_succ, List.zipWith_append (by rw [l1, l2]),
      ih (fun i hi => h3 i (by omega)) (fun i hi => h1 i (by omega)) (fun i hi => h2 i (by omega))]
    congr 1
    rw [h3 n (by omega)]
    have hzip : ∀ l : List Bool, List.zipWith f l l = l := by
      intro l
      rw [List.zipWith_self]
      simp [hf.same]
    cases hk1 : K1 (n % P) <;> cases hk2 : K2 (n % P)
    · simp [hf.same]
    · have h := (zip_zeros hf (chunk ws data n)).1
      rw [chunk_len hd (h2 n (by omega) hk2)] at h
      exact h.symm
    · have h := (zip_zeros hf (chunk ws data n)).2
      rw [chunk_len hd (h1 n (by omega) hk1)] at h
      exact h.symm
    · simp [hf.same, hzip]

theorem lost_mem {ws : Nat} (K : Nat → Bool) (P n : Nat) (e : Int × Nat) :
    e ∈ lostPositions ws K P n ↔ ∃ i, i < n ∧ K (i % P) = false ∧ (((i * ws / 32 : Nat) : Int), i * ws % 32) = e := by
  unfold lostPositions
  simp only [List.mem_map, List.mem_filter, List.mem_range, Bool.not_eq_true', and_assoc]

theorem lost_inj {ws i j : Nat} (hp : 0 < ws)
    (h : ((((i * ws / 32 : Nat) : Int), i * ws % 32) : Int × Nat) = (((j * ws / 32 : Nat) : Int), j * ws % 32)) : i = j := by
  simp only [Prod.mk.injEq, Nat.cast_inj] at h
  have : i * ws = j * ws := by
    have h1 := Nat.div_add_mod (i * ws) 32
    have h2 := Nat.div_add_mod (j * ws) 32
    omega
  exact Nat.eq_of_mul_eq_mul_right hp this

/-- The losses agree in which packet of the order is the last one that arrives. -/
def LastKept (order : List Nat) (L : Nat) (loss : Nat → Loss) : Prop :=
  (∃ h : L < order.length, loss order[L] = .kept) ∧ ∀ j (h : j < order.length), L < j → loss order[j] = .nulled

theorem read_bounded {ws : Nat} (hd : ws ∣ 32) {data order : List Nat} (hn : order.Nodup) {L : Nat} (hL0 : L ≠ 0)
    {loss : Nat → Loss} (k : LastKept order L loss) {fuel : Nat} (hf : chunkCount ws data < fuel) {fuel' : Nat}
    (hf' : rounds (chunkCount ws data) order.length L < fuel') {pk : List (Nat × BitQueue)} {out : List Nat}
    {errors : List (Int × Nat)} (h : interleave fuel data order ws = some (.ok pk))
    (h' : deinterleave fuel' (receive loss pk) order ws = some (.ok (out, errors))) : ∀ x ∈ out, x < 2 ^ 32 := by
  obtain ⟨⟨hL, k1⟩, k2⟩ := k
  obtain ⟨pk', h1, _, h3⟩ := interleave_run hd data order hn (List.ne_nil_of_length_pos (by omega)) fuel hf
  obtain ⟨s, h4, h5⟩ := deinterleave_run hd data order hn loss L hL hL0 k1 k2 pk' h3 fuel' hf'
  rw [h, Option.some.injEq, Except.ok.injEq] at h1
  subst h1
  rw [h', Option.some.injEq, Except.ok.injEq, Prod.mk.injEq] at h4
  rw [h4.1]
  exact h5.bounded

theorem stream_zip {op : Nat → Nat → Nat} {f : Bool → Bool → Bool}
    (h : ∀ x y i, (op x y).testBit i = f (x.testBit i) (y.testBit i)) :
    ∀ a b : List Nat, a.length = b.length → stream (List.zipWith op a b) = List.zipWith f (stream a) (stream b)
  | [], [], _ => rfl
  | [], _ :: _, hl => by simp at hl
  | _ :: _, [], hl => by simp at hl
  | x :: a, y :: b, hl => by
    have hs : ∀ z c, stream (z :: c) = bitsAt z 0 32 ++ stream c := fun z c => by simp [stream]
    have hlen : ∀ z, (bitsAt z 0 32).length = 32 := fun z => by simp [bitsAt]
    rw [List.zipWith_cons_cons, hs, hs, hs, stream_zip h a b (by simpa using hl),
      List.zipWith_append (by rw [hlen, hlen])]
    congr 1
    unfold bitsAt
    rw [List.zipWith_map, List.zipWith_self]
    simp only [h]

theorem words_of_stream {op : Nat → Nat → Nat} {f : Bool → Bool → Bool}
    (h : ∀ x y i, (op x y).testBit i = f (x.testBit i) (y.testBit i)) (hop : ∀ x y, x < 2 ^ 32 → y < 2 ^ 32 → op x y < 2 ^ 32)
    {a b c : List Nat} (ha : ∀ x ∈ a, x < 2 ^ 32) (hb : ∀ x ∈ b, x < 2 ^ 32) (hc : ∀ x ∈ c, x < 2 ^ 32)
    (hl : a.length = b.length) (hs : stream c = List.zipWith f (stream a) (stream b)) : c = List.zipWith op a b := by
  apply stream_injective _ _ hc
  · intro x hx
    rw [← List.map_uncurry_zip_eq_zipWith, List.mem_map] at hx
    obtain ⟨⟨y, z⟩, hyz, rfl⟩ := hx
    have := List.of_mem_zip hyz
    exact hop y z (ha y this.1) (hb z this.2)
  · rw [hs, stream_zip h a b hl]

theorem read_joined (ws : Nat) (hd : ws ∣ 32) (data order : List Nat) (hn : order.Nodup) (L : Nat) (hL0 : L ≠ 0)
    (loss1 loss2 loss3 : Nat → Loss) (k1 : LastKept order L loss1) (k2 : LastKept order L loss2) (k3 : LastKept order L loss3)
    (f : Bool → Bool → Bool) (hj : Joins f)
    (h3 : ∀ j, j < order.length → keptAt loss3 order j = f (keptAt loss1 order j) (keptAt loss2 order j))
    (fuel : Nat) (hf : chunkCount ws data < fuel) (fuel' : Nat)
    (hf' : rounds (chunkCount ws data) order.length L < fuel') :
    ∃ pk out1 out2 out3 e1 e2 e3, interleave fuel data order ws = some (.ok pk) ∧
      deinterleave fuel' (receive loss1 pk) order ws = some (.ok (out1, e1)) ∧
      deinterleave fuel' (receive loss2 pk) order ws = some (.ok (out2, e2)) ∧
      deinterleave fuel' (receive loss3 pk) order ws = some (.ok (out3, e3)) ∧
      stream out3 = List.zipWith f (stream out1) (stream out2) ∧
      (∀ e, e ∈ e3 ↔ ∃ i, i < rounds (chunkCount ws data) order.length L * order.length ∧
        f (keptAt loss1 order (i % order.length)) (keptAt loss2 order (i % order.length)) = false ∧
        (((i * ws / 32 : Nat) : Int), i * ws % 32) = e) ∧
      e1 = lostPositions ws (keptAt loss1 order) order.length (rounds (chunkCount ws data) order.length L * order.length) ∧
      e2 = lostPositions ws (keptAt loss2 order) order.length (rounds (chunkCount ws data) order.length L * order.length) ∧
      stream out1 = received ws data (keptAt loss1 order) order.length
        (rounds (chunkCount ws data) order.length L * order.length) ++
          List.replicate (32 * out1.length - rounds (chunkCount ws data) order.length L * order.length * ws) false ∧
      out1.length = out2.length := by
  obtain ⟨⟨hL, k1⟩, n1⟩ := k1
  obtain ⟨⟨_, k2⟩, n2⟩ := k2
  obtain ⟨⟨_, k3⟩, n3⟩ := k3
  obtain ⟨pk, o1, m1, a1, b1, c1, d1, s1, g1⟩ := C14_losses ws hd data order hn loss1 L hL hL0 k1 n1 fuel hf fuel' hf'
  obtain ⟨pk2, o2, m2, a2, b2, c2, d2, s2, g2⟩ := C14_losses ws hd data order hn loss2 L hL hL0 k2 n2 fuel hf fuel' hf'
  obtain ⟨pk3, o3, m3, a3, b3, c3, d3, s3, g3⟩ := C14_losses ws hd data order hn loss3 L hL hL0 k3 n3 fuel hf fuel' hf'
  obtain rfl : pk = pk2 := by
    rw [a1] at a2
    simpa using a2
  obtain rfl : pk = pk3 := by
    rw [a1] at a3
    simpa using a3
  have hmod : ∀ i, i % order.length < order.length := fun i => Nat.mod_lt _ (by omega)
  have l1 := received_length hd g1
  have l2 := received_length hd g2
  have l3 := received_length hd g3
  have e1 := congrArg List.length s1
  have e2 := congrArg List.length s2
  have e3 := congrArg List.length s3
  simp only [length_stream, List.length_append, List.length_replicate, l1, l2, l3] at e1 e2 e3
  obtain rfl : m1 = m2 := by omega
  obtain rfl : m1 = m3 := by omega
  refine ⟨pk, o1, o2, o3, _, _, _, a1, d1, d2, d3, ?_, ?_, rfl, rfl, ?_, by omega⟩
  · rw [s1, s2, s3, List.zipWith_append (by rw [l1, l2]),
      received_join hd hj (fun i _ => h3 _ (hmod i)) g1 g2]
    simp [hj.same]
  · intro e
    rw [lost_mem]
    refine exists_congr fun i => and_congr_right fun _ => ?_
    rw [h3 _ (hmod i)]
  · rw [s1, e1]
    congr 2
    omega

theorem joins_or : Joins (· || ·) := ⟨by decide, by decide, by decide⟩

theorem joins_and : Joins (· && ·) := ⟨by decide, by decide, by decide⟩

/-- **C150.**  Receiving the packets twice: when a third reception has the packets that
arrived in one or the other, what is read from it is bit by bit the one or the other, and
its errors are those reported of both. -/
theorem C150_either (ws : Nat) (hd : ws ∣ 32) (data order : List Nat) (hn : order.Nodup) (L : Nat) (hL0 : L ≠ 0)
    (loss1 loss2 loss3 : Nat → Loss) (k1 : LastKept order L loss1) (k2 : LastKept order L loss2) (k3 : LastKept order L loss3)
    (h3 : ∀ p ∈ order, loss3 p = .kept ↔ loss1 p = .kept ∨ loss2 p = .kept)
    (fuel : Nat) (hf : chunkCount ws data < fuel) (fuel' : Nat)
    (hf' : rounds (chunkCount ws data) order.length L < fuel') :
    ∃ pk out1 out2 out3 e1 e2 e3, interleave fuel data order ws = some (.ok pk) ∧
      deinterleave fuel' (receive loss1 pk) order ws = some (.ok (out1, e1)) ∧
      deinterleave fuel' (receive loss2 pk) order ws = some (.ok (out2, e2)) ∧
      deinterleave fuel' (receive loss3 pk) order ws = some (.ok (out3, e3)) ∧
      out3 = List.zipWith (· ||| ·) out1 out2 ∧ ∀ e, e ∈ e3 ↔ e ∈ e1 ∧ e ∈ e2 := by
  have hp : 0 < ws := Nat.pos_of_dvd_of_pos hd (by omega)
  have hk : ∀ j, j < order.length → keptAt loss3 order j = (keptAt loss1 order j || keptAt loss2 order j) := by
    intro j hj
    unfold Spec.keptAt
    rw [List.getElem?_eq_getElem hj]
    simp only [h3 _ (List.getElem_mem hj), Bool.decide_or]
  obtain ⟨pk, o1, o2, o3, e1, e2, e3, a, d1, d2, d3, s, he, r1, r2, _, hlen⟩ :=
    read_joined ws hd data order hn L hL0 loss1 loss2 loss3 k1 k2 k3 _ joins_or hk fuel hf fuel' hf'
  refine ⟨pk, o1, o2, o3, e1, e2, e3, a, d1, d2, d3, words_of_stream (fun x y i => Nat.testBit_or x y i)
    (fun x y hx hy => Nat.or_lt_two_pow hx hy) (read_bounded hd hn hL0 k1 hf hf' a d1) (read_bounded hd hn hL0 k2 hf hf' a d2)
    (read_bounded hd hn hL0 k3 hf hf' a d3) hlen s, fun e => ?_⟩
  rw [he, r1, r2, lost_mem, lost_mem]
  simp only [Bool.or_eq_false_iff]
  constructor
  · rintro ⟨i, h1, ⟨h2, h3⟩, h4⟩
    exact ⟨⟨i, h1, h2, h4⟩, ⟨i, h1, h3, h4⟩⟩
  · rintro ⟨⟨i, h1, h2, h4⟩, ⟨j, h1', h2', h4'⟩⟩
    obtain rfl := lost_inj hp (h4.trans h4'.symm)
    exact ⟨i, h1, ⟨h2, h2'⟩, h4⟩

/-- **C150.**  When a third reception has the packets that arrived in both, what is read
from it is bit by bit the one and the other, and its errors are those reported of either:
losing more packets only clears bits and only adds errors. -/
theorem C150_both (ws : Nat) (hd : ws ∣ 32) (data order : List Nat) (hn : order.Nodup) (L : Nat) (hL0 : L ≠ 0)
    (loss1 loss2 loss3 : Nat → Loss) (k1 : LastKept order L loss1) (k2 : LastKept order L loss2) (k3 : LastKept order L loss3)
    (h3 : ∀ p ∈ order, loss3 p = .kept ↔ loss1 p = .kept ∧ loss2 p = .kept)
    (fuel : Nat) (hf : chunkCount ws data < fuel) (fuel' : Nat)
    (hf' : rounds (chunkCount ws data) order.length L < fuel') :
    ∃ pk out1 out2 out3 e1 e2 e3, interleave fuel data order ws = some (.ok pk) ∧
      deinterleave fuel' (receive loss1 pk) order ws = some (.ok (out1, e1)) ∧
      deinterleave fuel' (receive loss2 pk) order ws = some (.ok (out2, e2)) ∧
      deinterleave fuel' (receive loss3 pk) order ws = some (.ok (out3, e3)) ∧
      out3 = List.zipWith (· &&& ·) out1 out2 ∧ ∀ e, e ∈ e3 ↔ e ∈ e1 ∨ e ∈ e2 := by
  have hk : ∀ j, j < order.length → keptAt loss3 order j = (keptAt loss1 order j && keptAt loss2 order j) := by
    intro j hj
    unfold Spec.keptAt
    rw [List.getElem?_eq_getElem hj]
    simp only [h3 _ (List.getElem_mem hj), Bool.decide_and]
  obtain ⟨pk, o1, o2, o3, e1, e2, e3, a, d1, d2, d3, s, he, r1, r2, _, hlen⟩ :=
    read_joined ws hd data order hn L hL0 loss1 loss2 loss3 k1 k2 k3 _ joins_and hk fuel hf fuel' hf'
  refine ⟨pk, o1, o2, o3, e1, e2, e3, a, d1, d2, d3, words_of_stream (fun x y i => Nat.testBit_and x y i)
    (fun x y hx hy => Nat.and_lt_two_pow x hy) (read_bounded hd hn hL0 k1 hf hf' a d1) (read_bounded hd hn hL0 k2 hf hf' a d2)
    (read_bounded hd hn hL0 k3 hf hf' a d3) hlen s, fun e => ?_⟩
  rw [he, r1, r2, lost_mem, lost_mem]
  simp only [Bool.and_eq_false_iff]
  constructor
  · rintro ⟨i, h1, h2 | h2, h4⟩
    · exact .inl ⟨i, h1, h2, h4⟩
    · exact .inr ⟨i, h1, h2, h4⟩
  · rintro (⟨i, h1, h2, h4⟩ | ⟨i, h1, h2, h4⟩)
    · exact ⟨i, h1, .inl h2, h4⟩
    · exact ⟨i, h1, .inr h2, h4⟩

/-- **C150.**  When every packet arrives in one of two receptions and the packets are equally
full, the two together have the whole program: the one or the other, bit by bit, are the words
of the program and the word 0 that every reception ends with, and no position is reported of
both. -/
theorem C150_program (ws : Nat) (hd : ws ∣ 32) (data order : List Nat) (hn : order.Nodup) (hL0 : 1 < order.length)
    (loss1 loss2 : Nat → Loss) (k1 : LastKept order (order.length - 1) loss1) (k2 : LastKept order (order.length - 1) loss2)
    (h : ∀ p ∈ order, loss1 p = .kept ∨ loss2 p = .kept) (hwhole : order.length ∣ chunkCount ws data)
    (hw : ∀ x ∈ data, x < 2 ^ 32) (fuel : Nat) (hf : chunkCount ws data < fuel) :
    ∃ pk out1 out2 e1 e2, interleave fuel data order ws = some (.ok pk) ∧
      deinterleave fuel (receive loss1 pk) order ws = some (.ok (out1, e1)) ∧
      deinterleave fuel (receive loss2 pk) order ws = some (.ok (out2, e2)) ∧
      List.zipWith (· ||| ·) out1 out2 = data ++ [0] ∧
      ∀ e, ¬ (e ∈ e1 ∧ e ∈ e2) := by
  have hN := chunkCount_mul hd data
  have hr : rounds (chunkCount ws data) order.length (order.length - 1) * order.length = chunkCount ws data := by
    obtain ⟨c, hc⟩ := hwhole
    unfold rounds
    rw [hc, show order.length * c + order.length - 1 - (order.length - 1) = order.length * c by omega,
      Nat.mul_div_cancel_left _ (by omega), Nat.mul_comm]
  have hr' : rounds (chunkCount ws data) order.length (order.length - 1) < fuel := by
    refine lt_of_le_of_lt ?_ hf
    calc rounds (chunkCount ws data) order.length (order.length - 1)
        ≤ rounds (chunkCount ws data) order.length (order.length - 1) * order.length := Nat.le_mul_of_pos_right _ (by omega)
      _ = chunkCount ws data := hr
  have k3 : LastKept order (order.length - 1) (fun _ => .kept) := ⟨⟨by omega, rfl⟩, fun j hj h => by omega⟩
  obtain ⟨pk, o1, o2, o3, e1, e2, e3, a, d1, d2, d3, s, he⟩ :=
    C150_either ws hd data order hn _ (by omega) loss1 loss2 _ k1 k2 k3 (fun p hp => by simpa using h p hp) fuel hf fuel hr'
  obtain ⟨pk', a', d3'⟩ := C13_roundtrip_partial ws hd data order hw hn (by omega) hwhole fuel hf
  obtain rfl : pk = pk' := by
    rw [a] at a'
    simpa using a'
  have hrec : receive (fun _ => .kept) pk = pk.map fun p => (p.1, some p.2) := by
    unfold receive
    rw [← List.filterMap_eq_map]
    rfl
  rw [hrec, d3'] at d3
  have heq : data ++ [0] = o3 ∧ [] = e3 := by simpa using d3
  obtain ⟨rfl, rfl⟩ := heq
  refine ⟨pk, o1, o2, e1, e2, a, d1, d2, s.symm, fun e hboth => ?_⟩
  rw [← he] at hboth
  cases hboth

/-- Two receptions of four packets, one without the first and one without the second
packet of the order. -/
theorem C150_case :
    LastKept [2, 0, 3, 1] 3 (fun p => if p = 2 then .nulled else .kept) ∧
    LastKept [2, 0, 3, 1] 3 (fun p => if p = 0 then .deleted else .kept) ∧
    ((interleave 9 [0x44332211, 0x88776655] [2, 0, 3, 1] 8).bind fun r => r.toOption.bind fun pk =>
        deinterleave 9 (receive (fun p => if p = 2 then .nulled else .kept) pk) [2, 0, 3, 1] 8)
      = some (.ok ([0x44332200, 0x88776600, 0], [(0, 0), (1, 0)])) ∧
    ((interleave 9 [0x44332211, 0x88776655] [2, 0, 3, 1] 8).bind fun r => r.toOption.bind fun pk =>
        deinterleave 9 (receive (fun p => if p = 0 then .deleted else .kept) pk) [2, 0, 3, 1] 8)
      = some (.ok ([0x44330011, 0x88770055, 0], [(0, 8), (1, 8)])) := by
  have h : ∀ loss : Nat → Loss, loss 1 = .kept → LastKept [2, 0, 3, 1] 3 loss := fun loss h =>
    ⟨⟨by decide, h⟩, fun j hj hlt => by
      simp only [List.length_cons, List.length_nil] at hj
      omega⟩
  exact ⟨h _ rfl, h _ rfl, by decide +kernel, by decide +kernel⟩

end Verif
