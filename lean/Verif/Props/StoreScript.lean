import Verif.Proof.StoreScript
import Verif.Props.StorePackets
import Verif.Props.Compressor

/-!
# C98: the files that storing packets leaves

Positions are counted through the words, in a word through its bytes from the lowest,
in a byte from the highest bit.
-/

namespace Verif
open Spec

namespace Spec

/-- Where the `t`-th pair of bits of packet `q` starts, for a program of `len` words sent
in the order given. -/
def pairAt (order : List Nat) (len q t : Nat) : Nat := (4 * order.idxOf q + t * len) / 2

/-- The position is the start of a pair of one of the first `lost` packets, not one of
the last two of its word, and not the first such start. -/
def Cleared (order : List Nat) (lost len k : Nat) : Prop :=
  k % 32 < 30 ∧ (∃ q < lost, ∃ t, k = pairAt order len q t) ∧ ∃ q < lost, ∃ t, pairAt order len q t < k

/-- The bytes of a file are those of the program, lowest byte of a word first, with the
bits cleared whose positions meet `gone`. -/
def StoredWithout (program : List Nat) (gone : Nat → Prop) (file : Bytes) : Prop :=
  file.length = 4 * program.length ∧
  ∀ (w c j x : Nat), program[w]? = some x → c < 4 → j < 8 →
    ∃ b, file[4 * w + c]? = some b ∧
      (b.toNat.testBit j = true ↔ x.testBit (8 * c + j) = true ∧ ¬ gone (32 * w + 8 * c + (7 - j)))

end Spec

theorem errTuples_two_cases {n : Nat} {e : ErrT} (h : e ∈ errTuples 2 n) :
    (n % 32 < 30 ∧ e = (n / 32, n % 32, none)) ∨
    (30 ≤ n % 32 ∧ e.2.2.isSome = true ∧ ((e.1 = n / 32 ∧ e.2.1 = n % 32) ∨ (e.1 = n / 32 + 1 ∧ e.2.1 = 0))) := by
  unfold errTuples at h
  simp only at h
  split at h
  · rename_i h30
    refine .inr ⟨by omega, ?_⟩
    rcases List.mem_cons.1 h with rfl | h
    · exact ⟨rfl, .inl ⟨rfl, rfl⟩⟩
    · rw [List.mem_singleton] at h
      subst h
      exact ⟨rfl, .inr ⟨rfl, rfl⟩⟩
  · rename_i h30
    rw [List.mem_singleton] at h
    exact .inl ⟨by omega, h⟩

/-- The tuples that the compressor uses are the positions cleared. -/
theorem rest_iff {order lost : List Nat} {len p : Nat} {es rest : List ErrT} (hn : es.Nodup)
    (h0 : 4 * order.idxOf p ≤ len)
    (hes : ∀ e, e ∈ es ↔ ∃ t q, q ∈ p :: lost ∧ 4 * order.idxOf p + t * len < 256 * len ∧
      4 * order.idxOf q + t * len < 256 * len ∧ e ∈ errTuples 2 ((4 * order.idxOf q + t * len) / 2))
    (hw : WithoutLeast (fun r : ErrT => r.1 * 10000 + r.2.1) es rest) {k : Nat} (hk : k < 32 * len) :
    (∃ r ∈ rest, r.2.2 = none ∧ r.1 * 32 + r.2.1 = k) ↔
      k % 32 < 30 ∧ (∃ q ∈ p :: lost, ∃ t, k = pairAt order len q t) ∧
        ∃ q ∈ p :: lost, ∃ t, pairAt order len q t < k := by
  constructor
  · rintro ⟨r, hr, hnone, hrk⟩
    have hmem := withoutLeast_mem hw hr
    obtain ⟨t, q, hq, _, _, he⟩ := (hes r).1 hmem
    rcases errTuples_two_cases he with ⟨h30, he⟩ | ⟨_, hs, _⟩
    · have hkn : k = (4 * order.idxOf q + t * len) / 2 := by
        rw [← hrk, he]
        simp only
        omega
      refine ⟨by rw [hkn]; exact h30, ⟨q, hq, t, hkn⟩, ?_⟩
      rcases hw with ⟨h, _⟩ | ⟨a, x, b, hab, ha, hb, hp⟩
      · rw [h] at hmem; simp at hmem
      · have hxr : x ≠ r := by
          rintro rfl
          rw [hab] at hn
          have := hp.mem_iff.1 hr
          rw [List.nodup_middle, List.nodup_cons] at hn
          exact hn.1 this
        have hkey : x.1 * 10000 + x.2.1 ≤ r.1 * 10000 + r.2.1 := by
          have := hp.mem_iff.1 hr
          rcases List.mem_append.1 this with h | h
          · exact (ha r h).le
          · exact hb r h
        obtain ⟨t', q', hq', _, _, hx⟩ := (hes x).1 (by rw [hab]; simp)
        refine ⟨q', hq', t', ?_⟩
        unfold pairAt
        rw [he] at hkey
        simp only at hkey
        rw [hkn]
        generalize (4 * order.idxOf q' + t' * len) / 2 = m at *
        generalize (4 * order.idxOf q + t * len) / 2 = n at *
        rcases errTuples_two_cases hx with ⟨hm, hx⟩ | ⟨hm, _, ⟨h1, h2⟩ | ⟨h1, h2⟩⟩
        · have hne : m ≠ n := by
            rintro rfl
            exact hxr (hx.trans he.symm)
          rw [hx] at hkey
          simp only at hkey
          omega
        · rw [h1, h2] at hkey
          omega
        · rw [h1, h2] at hkey
          omega
    · rw [hnone] at hs
      simp at hs
  · rintro ⟨h30, ⟨q, hq, t, hkq⟩, ⟨q', hq', t', hlt⟩⟩
    unfold pairAt at hkq hlt
    have hin : ∀ (s : Nat) (y : Nat), y ∈ p :: lost → (4 * order.idxOf y + s * len) / 2 < 32 * len → ∀ e,
        e ∈ errTuples 2 ((4 * order.idxOf y + s * len) / 2) → e ∈ es := by
      intro s y hy hs e he
      refine (hes e).2 ⟨s, y, hy, ?_, ?_, he⟩
      · omega
      · omega
    have hr : (k / 32, k % 32, none) ∈ es := by
      apply hin t q hq (by omega)
      unfold errTuples
      rw [← hkq]
      simp only
      rw [if_neg (by omega)]
      simp
    obtain ⟨e, he, hek⟩ : ∃ e ∈ es, e.1 * 10000 + e.2.1 < k / 32 * 10000 + k % 32 := by
      generalize hm : (4 * order.idxOf q' + t' * len) / 2 = m at *
      by_cases hm30 : m % 32 + 2 ≥ 32
      · refine ⟨(m / 32, m % 32, some (32 - 1 - m % 32)), hin t' q' hq' (by omega) _ ?_, ?_⟩
        · rw [hm]
          unfold errTuples
          simp only
          rw [if_pos hm30]
          simp
        · simp only
          omega
      · refine ⟨(m / 32, m % 32, none), hin t' q' hq' (by omega) _ ?_, ?_⟩
        · rw [hm]
          unfold errTuples
          simp only
          rw [if_neg hm30]
          simp
        · simp only
          omega
    refine ⟨(k / 32, k % 32, none), ?_, rfl, by simp only; omega⟩
    rcases hw with ⟨h, _⟩ | ⟨a, x, b, hab, ha, hb, hp⟩
    · rw [h] at hr; simp at hr
    · have hxe : x.1 * 10000 + x.2.1 ≤ e.1 * 10000 + e.2.1 := by
        rw [hab] at he
        rcases List.mem_append.1 he with h | h
        · exact (ha e h).le
        · rcases List.mem_cons.1 h with rfl | h
          · exact Nat.le_refl _
          · exact hb e h
      rw [hp.mem_iff]
      rw [hab] at hr
      rcases List.mem_append.1 hr with h | h
      · exact List.mem_append_left _ h
      · rcases List.mem_cons.1 h with h | h
        · rw [← h] at hxe
          simp only at hxe
          omega
        · exact List.mem_append_right _ h

theorem floor_fifth (len : Nat) : (((len * 4 : Nat) : Rat) / 16 / 5).floor.toNat = len / 20 := by
  have : (((len * 4 : Nat) : Rat) / 16 / 5).floor = ((len / 20 : Nat) : Int) := by
    have h1 : 20 * (len / 20) ≤ len := Nat.mul_div_le len 20
    have h2 : len < 20 * (len / 20 + 1) := by omega
    have h1' : (20 : Rat) * ((len / 20 : Nat) : Rat) ≤ len := by exact_mod_cast h1
    have h2' : (len : Rat) < 20 * (((len / 20 : Nat) : Rat) + 1) := by exact_mod_cast h2
    apply rat_floor_toNat
    · push_cast; push_cast at h1'; linarith
    · push_cast; push_cast at h2'; linarith
  rw [this]
  rfl

/-- The script once the order is known. -/
theorem store_of_order {lg : Rat → Int} {fuel : Nat} {program : List Nat} (hx : ∀ x ∈ program, x < 2 ^ 32)
    (hlen : 20 ≤ program.length) (hf : 256 < fuel) {order : List Nat}
    (ho : storeOrder lg fuel program.length = some (.ok order)) (hin : ∀ q < program.length / 20, q ∈ order)
    (h0 : 4 * order.idxOf 0 ≤ program.length) :
    ∃ out full, storePackets lg fuel program = some (.ok (out, full)) ∧
      StoredWithout program (fun _ => False) full ∧
      StoredWithout program (Cleared order (program.length / 20) program.length) out := by
  obtain ⟨n, hn⟩ : ∃ n, program.length / 20 = n + 1 := ⟨program.length / 20 - 1, by omega⟩
  have hrange : List.range (program.length / 20) = 0 :: (List.range n).map Nat.succ := by
    rw [hn, List.range_succ_eq_map]
  have hmemr : ∀ q, q ∈ 0 :: (List.range n).map Nat.succ ↔ q < program.length / 20 := by
    intro q
    rw [← hrange, List.mem_range]
  obtain ⟨es, he, hnd, hes⟩ := predict_store (len := program.length) (fuel := fuel) (order := order)
    (lost := (List.range n).map Nat.succ) (p := 0) (by omega) hf fun q hq => hin q ((hmemr q).1 hq)
  have hd : ∀ x ∈ program.map (fun x : Nat => (x : Int)), 0 ≤ x ∧ x < 2 ^ 32 := by
    intro x hxm
    obtain ⟨y, hy, rfl⟩ := List.mem_map.1 hxm
    exact ⟨by omega, by have := hx y hy; omega⟩
  obtain ⟨out, rest, h1, h2, h3, h4⟩ := C71_exact es (program.map fun x : Nat => (x : Int)) 2 (by omega) hd
  obtain ⟨full, rest', f1, f2, f3, f4⟩ := C71_exact [] (program.map fun x : Nat => (x : Int)) 2 (by omega) hd
  have hp := packWords_ok _ hd
  have hfull : full = bytesOfBits (bitsOfBytes ((program.map fun x : Nat => (x : Int)).flatMap fun x => leBytes 4 x.toNat)) := by
    unfold swapCompress at f1
    rw [hp] at f1
    simpa [sortedRemove, bind, Except.bind, pure, Except.pure] using f1.symm
  refine ⟨out, full, ?_, ⟨by simpa using f2, ?_⟩, ⟨by simpa using h2, ?_⟩⟩
  · unfold storePackets
    unfold storeOrder at ho
    simp only [ho]
    rw [floor_fifth, hrange, he]
    simp only [h1, hp, bind, Except.bind, pure, Except.pure]
    rw [hfull]
  · intro w c j x hw hc hj
    obtain ⟨b, hb, hbit⟩ := f4 w c j x (by rw [List.getElem?_map, hw]; rfl) hc hj
    refine ⟨b, hb, ?_⟩
    rw [hbit]
    have : rest' = [] := by
      rcases f3 with ⟨_, h⟩ | ⟨a, y, b', h, _⟩
      · exact h
      · simp at h
    simp [this]
  · intro w c j x hw hc hj
    obtain ⟨b, hb, hbit⟩ := h4 w c j x (by rw [List.getElem?_map, hw]; rfl) hc hj
    refine ⟨b, hb, ?_⟩
    have hwl : w < program.length := (List.getElem?_eq_some_iff.1 hw).1
    rw [hbit, rest_iff hnd h0 hes h3 (k := 32 * w + 8 * c + (7 - j)) (by omega)]
    simp only [hmemr, Int.toNat_natCast]
    rfl

/-- **C98, exactly what is stored.**  For a program of at least 20 words whose number
leaves remainder 0 or 1 by four, the script writes two files.  The second is the program.
The first is the program with certain bits cleared: one bit at the start of each pair of
the lost packets, which are the first fifth of the packets, except in the last two
positions of a word and except the first of all. -/
theorem C98_exact (lg : Rat → Int) (hlg : LogOk lg) (hfr : FracOk lg) (program : List Nat)
    (hx : ∀ x ∈ program, x < 2 ^ 32) (hlen : 20 ≤ program.length) (hr : program.length % 4 ≤ 1) (fuel : Nat)
    (hf : 256 + program.length < fuel) :
    ∃ order out full, storeOrder lg fuel program.length = some (.ok order) ∧
      storePackets lg fuel program = some (.ok (out, full)) ∧
      StoredWithout program (fun _ => False) full ∧
      StoredWithout program (Cleared order (program.length / 20) program.length) out := by
  have hp : 0 < program.length / 4 := by omega
  have hcase : ∃ order, storeOrder lg fuel program.length = some (.ok order) ∧
      (order.Perm (List.range (program.length / 4)) ∨ order.Perm (0 :: List.range (program.length / 4))) := by
    rcases Nat.lt_or_ge (program.length % 4) 1 with h | h
    · obtain ⟨order, h1, h2⟩ := C76_whole_partial lg hlg (program.length / 4) fuel hp (by omega)
      rw [show 4 * (program.length / 4) = program.length by omega] at h1
      exact ⟨order, h1, .inl h2⟩
    · obtain ⟨f, rfl⟩ : ∃ f, fuel = f + 1 := ⟨fuel - 1, by omega⟩
      obtain ⟨order, h1, _, h2⟩ := C76_refuted_one lg hlg hfr (program.length / 4) f hp (by omega)
      rw [show 4 * (program.length / 4) + 1 = program.length by omega] at h1
      exact ⟨order, h1, .inr h2⟩
  obtain ⟨order, ho, hperm⟩ := hcase
  have hmem : ∀ q < program.length / 4, q ∈ order := by
    intro q hq
    rcases hperm with h | h
    · exact h.mem_iff.2 (List.mem_range.2 hq)
    · exact h.mem_iff.2 (by simp [hq])
  have hidx : order.idxOf 0 < order.length := List.idxOf_lt_length_of_mem (hmem 0 hp)
  have hlo : order.length ≤ program.length / 4 + 1 := by
    rcases hperm with h | h
    · rw [h.length_eq]; simp
    · rw [h.length_eq]; simp
  obtain ⟨out, full, h1, h2, h3⟩ := store_of_order hx hlen (by omega) ho
    (fun q hq => hmem q (by omega)) (by omega)
  exact ⟨order, out, full, ho, h1, h2, h3⟩

/-- **C98, what holds of the claim.**  The claim is that the first file is the program with
exactly the bits carried by the lost packets cleared.  What is missing is that all of them
are (see the refutations); no other bit is cleared and none is set. -/
theorem C98_stored_partial (lg : Rat → Int) (hlg : LogOk lg) (hfr : FracOk lg) (program : List Nat)
    (hx : ∀ x ∈ program, x < 2 ^ 32) (hlen : 20 ≤ program.length) (hr : program.length % 4 ≤ 1) (fuel : Nat)
    (hf : 256 + program.length < fuel) :
    ∃ order out full, storeOrder lg fuel program.length = some (.ok order) ∧
      storePackets lg fuel program = some (.ok (out, full)) ∧
      StoredWithout program (fun _ => False) full ∧ out.length = 4 * program.length ∧
      ∀ (w c j x : Nat), program[w]? = some x → c < 4 → j < 8 → ∃ b, out[4 * w + c]? = some b ∧
        (b.toNat.testBit j ≠ x.testBit (8 * c + j) → b.toNat.testBit j = false ∧
          ∃ q < program.length / 20, ∃ t, 32 * w + 8 * c + (7 - j) = pairAt order program.length q t ∨
            32 * w + 8 * c + (7 - j) = pairAt order program.length q t + 1) := by
  obtain ⟨order, out, full, ho, h1, h2, h3, h4⟩ := C98_exact lg hlg hfr program hx hlen hr fuel hf
  refine ⟨order, out, full, ho, h1, h2, h3, ?_⟩
  intro w c j x hw hc hj
  obtain ⟨b, hb, hbit⟩ := h4 w c j x hw hc hj
  refine ⟨b, hb, fun hne => ?_⟩
  by_cases hcl : Cleared order (program.length / 20) program.length (32 * w + 8 * c + (7 - j))
  · obtain ⟨_, ⟨q, hq, t, h⟩, _⟩ := hcl
    refine ⟨?_, q, hq, t, .inl h⟩
    by_contra hb'
    rw [Bool.not_eq_false] at hb'
    exact hne (by rw [hb', (hbit.1 hb').1])
  · exfalso
    apply hne
    rw [Bool.eq_iff_iff]
    exact hbit.trans ⟨fun h => h.1, fun h => ⟨h, hcl⟩⟩

/-- **C98 is false**: of each pair of bits of a lost packet one is kept.  When the number
of words is a multiple of four, no bit at an odd position is ever cleared, whatever is
lost. -/
theorem C98_half_kept_refuted (lg : Rat → Int) (hlg : LogOk lg) (hfr : FracOk lg) (program : List Nat)
    (hx : ∀ x ∈ program, x < 2 ^ 32) (hlen : 20 ≤ program.length) (hr : program.length % 4 = 0) (fuel : Nat)
    (hf : 256 + program.length < fuel) :
    ∃ out full, storePackets lg fuel program = some (.ok (out, full)) ∧
      ∀ (w c j x : Nat), program[w]? = some x → c < 4 → j < 8 → (7 - j) % 2 = 1 →
        ∃ b, out[4 * w + c]? = some b ∧ (b.toNat.testBit j = true ↔ x.testBit (8 * c + j) = true) := by
  obtain ⟨order, out, full, ho, h1, _, _, h3⟩ := C98_exact lg hlg hfr program hx hlen (by omega) fuel hf
  refine ⟨out, full, h1, ?_⟩
  intro w c j x hw hc hj hodd
  obtain ⟨b, hb, hbit⟩ := h3 w c j x hw hc hj
  refine ⟨b, hb, ?_⟩
  rw [hbit]
  have : ¬ Cleared order (program.length / 20) program.length (32 * w + 8 * c + (7 - j)) := by
    rintro ⟨_, ⟨q, _, t, he⟩, _⟩
    unfold pairAt at he
    obtain ⟨m, hm⟩ : ∃ m, program.length = 4 * m := ⟨program.length / 4, by omega⟩
    have e : t * program.length = 4 * (t * m) := by rw [hm, Nat.mul_left_comm]
    rw [e] at he
    omega
  simp [this]

/-- **C98 is false for short programs**: with fewer than 20 words nothing is to be lost,
and the script raises `IndexError` before it writes anything. -/
theorem C98_short_refuted (lg : Rat → Int) (hlg : LogOk lg) (hfr : FracOk lg) (program : List Nat)
    (hlen : program.length < 20) (h4 : 4 ≤ program.length) (hr : program.length % 4 ≤ 1) (fuel : Nat)
    (hf : program.length < fuel) : storePackets lg fuel program = some (.error .index) := by
  have hp : 0 < program.length / 4 := by omega
  have hcase : ∃ order, storeOrder lg fuel program.length = some (.ok order) := by
    rcases Nat.lt_or_ge (program.length % 4) 1 with h | h
    · obtain ⟨order, h1, h2⟩ := C76_whole_partial lg hlg (program.length / 4) fuel hp (by omega)
      rw [show 4 * (program.length / 4) = program.length by omega] at h1
      exact ⟨order, h1⟩
    · obtain ⟨f, rfl⟩ : ∃ f, fuel = f + 1 := ⟨fuel - 1, by omega⟩
      obtain ⟨order, h1, _, h2⟩ := C76_refuted_one lg hlg hfr (program.length / 4) f hp (by omega)
      rw [show 4 * (program.length / 4) + 1 = program.length by omega] at h1
      exact ⟨order, h1⟩
  obtain ⟨order, ho⟩ := hcase
  unfold storePackets
  unfold storeOrder at ho
  simp only [ho]
  rw [floor_fifth, show program.length / 20 = 0 by omega]
  rfl

/-- **C98 is false for half of the lengths**: with remainder 2 or 3 the script raises
`TypeError` before it writes anything. -/
theorem C98_length_refuted (lg : Rat → Int) (hlg : LogOk lg) (hfr : FracOk lg) (program : List Nat)
    (hr : 2 ≤ program.length % 4) (fuel : Nat) (hf : program.length < fuel) :
    storePackets lg fuel program = some (.error .type) := by
  obtain ⟨f, rfl⟩ : ∃ f, fuel = f + 1 := ⟨fuel - 1, by omega⟩
  have h := C76_refuted_more lg hlg hfr (program.length / 4) (program.length % 4) f hr (by omega) (by omega)
  rw [show 4 * (program.length / 4) + program.length % 4 = program.length by omega] at h
  unfold storePackets
  unfold storeOrder at h
  simp only [h]

/-- Twenty words of ones: five packets, of which one is lost; sent in the order
0, 2, 4, 3, 1, packet 0 has the pairs at 0, 10, 20 and so on, of which the first keeps
both its bits and each other loses its first bit. -/
example : (∃ order out full, storeOrder (fun p => Int.log 4 p) 300 20 = some (.ok order) ∧
      storePackets (fun p => Int.log 4 p) 300 (List.replicate 20 0xFFFFFFFF) = some (.ok (out, full)) ∧
      StoredWithout (List.replicate 20 0xFFFFFFFF) (fun _ => False) full ∧
      StoredWithout (List.replicate 20 0xFFFFFFFF) (Cleared order 1 20) out) ∧
    ¬ Cleared [0, 2, 4, 3, 1] 1 20 0 ∧ Cleared [0, 2, 4, 3, 1] 1 20 10 ∧ ¬ Cleared [0, 2, 4, 3, 1] 1 20 11 ∧
    ¬ Cleared [0, 2, 4, 3, 1] 1 20 30 := by
  refine ⟨C98_exact _ fracOk_exact.1 fracOk_exact.2 (List.replicate 20 0xFFFFFFFF)
    (by intro x hx; rw [List.eq_of_mem_replicate hx]; decide) (by simp) (by simp) 300 (by simp), ?_, ?_, ?_, ?_⟩
  · rintro ⟨_, _, q, _, t, h⟩
    omega
  · refine ⟨by decide, ⟨0, by decide, 1, by decide⟩, ⟨0, by decide, 0, by decide⟩⟩
  · rintro ⟨_, ⟨q, hq, t, h⟩, _⟩
    obtain rfl : q = 0 := by omega
    simp [pairAt] at h
    omega
  · rintro ⟨h, _⟩
    revert h
    decide

end Verif
