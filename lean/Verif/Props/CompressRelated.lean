import Verif.Props.Compressor

/-!
# C148: compressing again, in another order and with more positions
-/

namespace Verif

open Spec

/-- The bits of the bytes of whole bytes of bits. -/
theorem bits_bytes {a : List Bool} (h : a.length % 8 = 0) : bitsOfBytes (bytesOfBits a) = a := by
  apply List.ext_getElem?
  intro q
  have hq : q = 8 * (q / 8) + q % 8 := by omega
  have hm : q % 8 < 8 := Nat.mod_lt _ (by omega)
  by_cases hl : q < a.length
  · obtain ⟨b, h1, h2⟩ := bytesOfBits_testBit a (q / 8) (7 - q % 8) (by omega) (by omega)
    rw [hq, bitsOfBytes_getElem? _ _ _ hm, h1, Option.map_some, h2, show 7 - (7 - q % 8) = q % 8 by omega, ← hq,
      List.getElem?_eq_getElem hl]
    rfl
  · have h1 : (bitsOfBytes (bytesOfBits a)).length ≤ q := by
      rw [bitsOfBytes_length, bytesOfBits_length]
      omega
    rw [List.getElem?_eq_none h1, List.getElem?_eq_none (by omega)]

/-- Every sequence of whole words of bytes is that of 32-bit words. -/
theorem words_of_bytes (n : Nat) : ∀ bs : Bytes, bs.length = 4 * n →
    ∃ data : List Int, data.length = n ∧ (∀ x ∈ data, 0 ≤ x ∧ x < 2 ^ 32) ∧ packWords data = .ok bs := by
  induction n with
  | zero =>
    intro bs h
    obtain rfl : bs = [] := List.length_eq_zero_iff.1 (by omega)
    exact ⟨[], rfl, by simp, rfl⟩
  | succ n ih =>
    intro bs h
    match bs, h with
    | a :: b :: c :: d :: bs, h =>
      obtain ⟨data, h1, h2, h3⟩ := ih bs (by simp only [List.length_cons] at h; omega)
      have ha := a.toNat_lt
      have hb := b.toNat_lt
      have hc := c.toNat_lt
      have hd := d.toNat_lt
      have hw : ∀ x ∈ ((a.toNat + 256 * b.toNat + 65536 * c.toNat + 16777216 * d.toNat : Nat) : Int) :: data,
          0 ≤ x ∧ x < 2 ^ 32 := by
        intro x hx
        rcases List.mem_cons.1 hx with rfl | hx
        · constructor <;> omega
        · exact h2 x hx
      refine ⟨_ :: data, by rw [List.length_cons, h1], hw, ?_⟩
      rw [packWords_ok _ hw, List.flatMap_cons]
      rw [packWords_ok _ h2] at h3
      have h3' := Except.ok.inj h3
      rw [h3', Int.toNat_natCast]
      have e1 : ∀ (x : UInt8) (k : Nat), k % 256 = x.toNat → UInt8.ofNat (k % 256) = x := by
        intro x k hk
        rw [hk]
        exact UInt8.ofNat_toNat
      simp only [leBytes, List.cons_append, List.nil_append]
      rw [e1 a _ (by omega), e1 b _ (by omega), e1 c _ (by omega), e1 d _ (by omega)]

/-- **C148.**  Swap compression of what swap compression returned, with the same
positions, returns it again. -/
theorem C148_again (remove : List ErrT) (data : List Int) (shift : Nat) (hs : 0 < shift)
    (hd : ∀ x ∈ data, 0 ≤ x ∧ x < 2 ^ 32) :
    ∃ out words, swapCompress remove data shift = .ok out ∧ words.length = data.length ∧ packWords words = .ok out ∧
      swapCompress remove words shift = .ok out := by
  obtain ⟨out, _, h1, h2, _, _⟩ := C71_exact remove data shift hs hd
  obtain ⟨words, w1, w2, w3⟩ := words_of_bytes data.length out h2
  refine ⟨out, words, h1, w1, w3, ?_⟩
  unfold swapCompress at h1 ⊢
  rw [packWords_ok data hd] at h1
  rw [w3]
  have ho := Except.ok.inj h1
  obtain ⟨l1, _⟩ := pack_bit data _ (packWords_ok data hd)
  generalize ((sortedRemove remove).drop 1).reverse = l at ho ⊢
  generalize data.flatMap (fun x => leBytes 4 x.toNat) = buf at ho l1
  change Except.ok (bytesOfBits (l.foldl (swapTurn shift) (bitsOfBytes out))) = Except.ok out
  congr 1
  have hl := (swap_loop shift hs l (bitsOfBytes buf)).1
  rw [bitsOfBytes_length] at hl
  rw [← ho, bits_bytes (by rw [hl]; omega)]
  congr 1
  apply List.ext_getElem?
  intro q
  rw [(swap_loop shift hs l _).2, (swap_loop shift hs l _).2, Option.map_map]
  congr 1
  funext b
  simp [Bool.and_assoc]

theorem sorted_same {remove remove' : List ErrT} (hp : remove.Perm remove') (hn : (remove.map sortKey).Nodup) :
    sortedRemove remove = sortedRemove remove' := by
  have inst1 : Std.Total (fun a b : ErrT => sortKey a ≤ sortKey b) := ⟨fun a b => le_total _ _⟩
  have inst2 : IsTrans ErrT (fun a b => sortKey a ≤ sortKey b) := ⟨fun a b c => le_trans⟩
  have hp1 := List.perm_insertionSort (fun a b : ErrT => sortKey a ≤ sortKey b) remove
  have hp2 := List.perm_insertionSort (fun a b : ErrT => sortKey a ≤ sortKey b) remove'
  refine List.Perm.eq_of_pairwise ?_ (List.pairwise_insertionSort _ _) (List.pairwise_insertionSort _ _)
    (hp1.trans (hp.trans hp2.symm))
  intro a b ha hb h1 h2
  exact List.inj_on_of_nodup_map hn (hp1.mem_iff.1 ha) (hp.mem_iff.2 (hp2.mem_iff.1 hb)) (le_antisymm h1 h2)

/-- **C148.**  The order in which the positions are listed does not matter to either
compression, when every position is listed once. -/
theorem C148_order {remove remove' : List ErrT} (hp : remove.Perm remove') (hb : ∀ r ∈ remove, r.2.1 < 32)
    (hn : (remove.map fun r => (r.1, r.2.1)).Nodup) (data : List Int) (shift : Nat) :
    swapCompress remove data shift = swapCompress remove' data shift ∧
      shiftCompress remove data shift = shiftCompress remove' data shift := by
  have hk : (remove.map sortKey).Nodup := by
    rw [List.Nodup, List.pairwise_map] at hn ⊢
    refine List.Pairwise.imp_of_mem ?_ hn
    intro a b ha hb' h e
    have h1 := hb a ha
    have h2 := hb b hb'
    unfold sortKey at e
    exact h (Prod.ext (by dsimp only; omega) (by dsimp only; omega))
  unfold swapCompress shiftCompress
  rw [sorted_same hp hk]
  exact ⟨rfl, rfl⟩

/-- **C148.**  Listing more positions clears no fewer bits: what is set with the longer
list is set with the shorter. -/
theorem C148_more (remove more : List ErrT) (hb : ∀ r ∈ remove ++ more, r.2.1 < 32)
    (hn : ((remove ++ more).map fun r => (r.1, r.2.1)).Nodup) (data : List Int) (shift : Nat) (hs : 0 < shift)
    (hd : ∀ x ∈ data, 0 ≤ x ∧ x < 2 ^ 32) :
    ∃ out out', swapCompress remove data shift = .ok out ∧ swapCompress (remove ++ more) data shift = .ok out' ∧
      out.length = out'.length ∧
      ∀ i j, i < out.length → j < 8 → ∃ b b', out[i]? = some b ∧ out'[i]? = some b' ∧
        (b'.toNat.testBit j = true → b.toNat.testBit j = true) := by
  obtain ⟨out, rest, h1, h2, h3, h4⟩ := C71_exact remove data shift hs hd
  obtain ⟨out', rest', h1', h2', h3', h4'⟩ := C71_exact (remove ++ more) data shift hs hd
  have hsub : ∀ r ∈ rest, r ∈ rest' := by
    intro r hr
    rcases h3 with ⟨_, rfl⟩ | ⟨a, x, b, hl, ha, hb', hp⟩
    · cases hr
    rcases h3' with ⟨h, _⟩ | ⟨a', x', b', hl', ha', hb'', hp'⟩
    · have := congrArg List.length h
      rw [hl] at this
      simp only [List.length_append, List.length_cons, List.length_nil] at this
      omega
    have hrm : r ∈ a ++ b := hp.mem_iff.1 hr
    have hkr : x.1 * 10000 + x.2.1 ≤ r.1 * 10000 + r.2.1 := by
      rcases List.mem_append.1 hrm with h | h
      · exact (ha r h).le
      · exact hb' r h
    have hxin : x ∈ remove ++ more := by rw [hl]; simp
    have hrin : r ∈ remove ++ more := by
      rw [hl]
      refine List.mem_append_left _ ?_
      rcases List.mem_append.1 hrm with h | h
      · exact List.mem_append_left _ h
      · exact List.mem_append_right _ (List.mem_cons_of_mem _ h)
    have hne : (x.1, x.2.1) ≠ (r.1, r.2.1) := by
      rw [hl, List.map_append, List.map_append, List.map_cons] at hn
      have := (List.nodup_middle.1 (List.nodup_append.1 hn).1)
      rw [List.nodup_cons, ← List.map_append] at this
      intro e
      exact this.1 (List.mem_map.2 ⟨r, hrm, e.symm⟩)
    rw [hp'.mem_iff]
    have hrin' := hrin
    rw [hl'] at hrin'
    simp only [List.mem_append, List.mem_cons] at hrin' ⊢
    rcases hrin' with h | h | h
    · exact .inl h
    · exfalso
      have hx' : r.1 * 10000 + r.2.1 ≤ x.1 * 10000 + x.2.1 := by
        rw [hl'] at hxin
        simp only [List.mem_append, List.mem_cons] at hxin
        rcases hxin with h' | h' | h'
        · rw [h]; exact (ha' x h').le
        · rw [h, h']
        · rw [h]; exact hb'' x h'
      have b1 := hb r hrin
      have b2 := hb x (by rw [hl]; simp)
      exact hne (Prod.ext (by dsimp only; omega) (by dsimp only; omega))
    · exact .inr h
  refine ⟨out, out', h1, h1', by rw [h2, h2'], ?_⟩
  intro i j hi hj
  have hi' : i = 4 * (i / 4) + i % 4 := by omega
  have hw : i / 4 < data.length := by omega
  obtain ⟨b, c1, c2⟩ := h4 (i / 4) (i % 4) j data[i / 4] (List.getElem?_eq_getElem hw) (by omega) hj
  obtain ⟨b', c1', c2'⟩ := h4' (i / 4) (i % 4) j data[i / 4] (List.getElem?_eq_getElem hw) (by omega) hj
  rw [← hi'] at c1 c1'
  refine ⟨b, b', c1, c1', fun h => c2.2 ?_⟩
  obtain ⟨d1, d2⟩ := c2'.1 h
  exact ⟨d1, fun ⟨r, hr, e⟩ => d2 ⟨r, hsub r hr, e⟩⟩

/-- Two positions, and four in another order: the first stays, the second is cleared; of
the four the least stays, which is another, and compressing again changes nothing. -/
theorem C148_case :
    swapCompress [(0, 3, none), (0, 9, none)] [0xFFFF] 2 = .ok [0xFF, 0xBF, 0, 0] ∧
    swapCompress [(0, 3, none), (0, 9, none), (0, 1, none), (0, 15, none)] [0xFFFF] 2 = .ok [0xEF, 0xBE, 0, 0] ∧
    swapCompress [(0, 15, none), (0, 9, none), (0, 3, none), (0, 1, none)] [0xBEEF] 2 = .ok [0xEF, 0xBE, 0, 0] := by
  decide +kernel

end Verif
