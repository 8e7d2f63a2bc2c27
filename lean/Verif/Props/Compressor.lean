import Verif.Proof.Compressor
import Verif.Spec.Compressor

/-! # C71, C72: swap and shift compression -/

namespace Verif

theorem tail_sub (remove : List ErrT) (r : ErrT) (h : r ∈ (sortedRemove remove).drop 1) : r ∈ remove :=
  (List.perm_insertionSort _ remove).mem_iff.1 (List.mem_of_mem_drop h)

theorem listed_reverse (l : List ErrT) (q : Nat) : Listed l.reverse q ↔ Listed l q := by
  unfold Listed
  simp only [List.mem_reverse]

theorem insertionSort_least {α : Type} (key : α → Nat) (l : List α) :
    Spec.WithoutLeast key l ((l.insertionSort fun a b => key a ≤ key b).drop 1) := by
  induction l with
  | nil => exact Or.inl ⟨rfl, rfl⟩
  | cons c l ih =>
    right
    rw [List.insertionSort_cons]
    rcases ih with ⟨rfl, _⟩ | ⟨a, x, b, hl, ha, hb, hp⟩
    · exact ⟨[], c, [], rfl, by simp, by simp, by simp⟩
    · have hperm := List.perm_insertionSort (fun a b => key a ≤ key b) l
      have inst1 : Std.Total (fun a b : α => key a ≤ key b) := ⟨fun a b => le_total _ _⟩
      have inst2 : IsTrans α (fun a b => key a ≤ key b) := ⟨fun a b c => le_trans⟩
      have hs := List.pairwise_insertionSort (fun a b => key a ≤ key b) l
      cases hf : l.insertionSort fun a b => key a ≤ key b with
      | nil =>
        rw [hf] at hperm
        have := hperm.length_eq
        rw [hl] at this
        simp at this
      | cons f rest =>
        rw [hf] at hp hperm hs
        rw [List.drop_succ_cons, List.drop_zero] at hp
        have hkey : key f = key x := by
          have h1 : key x ≤ key f := by
            have : f ∈ l := hperm.mem_iff.1 (by simp)
            rw [hl] at this
            rcases List.mem_append.1 this with h | h
            · exact le_of_lt (ha f h)
            · rcases List.mem_cons.1 h with h | h
              · rw [h]
              · exact hb f h
          have h2 : key f ≤ key x := by
            have : x ∈ f :: rest := hperm.mem_iff.2 (by rw [hl]; simp)
            rcases List.mem_cons.1 this with h | h
            · rw [h]
            · exact (List.pairwise_cons.1 hs).1 x h
          omega
        rw [List.orderedInsert_cons]
        split
        · rename_i hle
          refine ⟨[], c, l, rfl, by simp, ?_, ?_⟩
          · intro y hy
            rw [hl] at hy
            rcases List.mem_append.1 hy with h | h
            · have := ha y h
              omega
            · rcases List.mem_cons.1 h with h | h
              · rw [h]; omega
              · have := hb y h
                omega
          · exact hperm
        · rename_i hle
          refine ⟨c :: a, x, b, by rw [hl]; rfl, ?_, hb, ?_⟩
          · intro y hy
            rcases List.mem_cons.1 hy with h | h
            · rw [h]; omega
            · exact ha y h
          · exact (List.perm_orderedInsert _ c rest).trans (List.Perm.cons c hp)

theorem bits_of_words (data : List Int) :
    bitsOfBytes (data.flatMap fun x => leBytes 4 x.toNat) = Spec.wordBits data := by
  unfold bitsOfBytes Spec.wordBits
  rw [List.flatMap_assoc]
  congr 1
  funext x
  exact word_case x
where
  word_case (x : Int) : ((leBytes 4 x.toNat).flatMap fun b => (List.range 8).map fun j => b.toNat.testBit (7 - j)) =
      (List.range 32).map fun k => x.toNat.testBit (8 * (k / 8) + (7 - k % 8)) := by
    have hm : ∀ n j : Nat, j < 8 → (n % 256).testBit j = n.testBit j := by
      intro n j hj
      rw [show (256 : Nat) = 2 ^ 8 from rfl, Nat.testBit_mod_two_pow]
      simp [hj]
    have hdiv : ∀ n j : Nat, (n / 256).testBit j = n.testBit (j + 8) := by
      intro n j
      rw [show (256 : Nat) = 2 ^ 8 from rfl, Nat.testBit_div_two_pow]
    simp [leBytes, hm, hdiv, List.range_succ, -Nat.testBit_zero]

/-! ### C71 -/

/-- **C71, exactly**: swap compression of 32-bit words returns four bytes a word.
Bit `j` of byte `c` of word `w` is the original one, except that it is cleared
when array position `32 w + 8 c + (7 - j)` is that of a two-entry position which
is not the least one. -/
theorem C71_exact (remove : List ErrT) (data : List Int) (shift : Nat) (hs : 0 < shift)
    (hd : ∀ x ∈ data, 0 ≤ x ∧ x < 2 ^ 32) :
    ∃ out rest, swapCompress remove data shift = .ok out ∧ out.length = 4 * data.length ∧
      Spec.WithoutLeast (fun r : ErrT => r.1 * 10000 + r.2.1) remove rest ∧
      ∀ (w c j : Nat) (x : Int), data[w]? = some x → c < 4 → j < 8 →
        ∃ b, out[4 * w + c]? = some b ∧ (b.toNat.testBit j = true ↔
          x.toNat.testBit (8 * c + j) = true ∧
          ¬ ∃ r ∈ rest, r.2.2 = none ∧ r.1 * 32 + r.2.1 = 32 * w + 8 * c + (7 - j)) := by
  obtain ⟨l1, l2⟩ := pack_bit data _ (packWords_ok data hd)
  refine ⟨_, (sortedRemove remove).drop 1, by unfold swapCompress; rw [packWords_ok data hd]; rfl, ?_,
    insertionSort_least _ remove, ?_⟩
  · rw [bytesOfBits_length, (swap_loop shift hs _ _).1, bitsOfBytes_length, l1]
    omega
  · intro w c j x hx hc hj
    obtain ⟨hw, _⟩ := List.getElem?_eq_some_iff.1 hx
    have hlen := (swap_loop shift hs ((sortedRemove remove).drop 1).reverse
      (bitsOfBytes (data.flatMap fun x => leBytes 4 x.toNat))).1
    rw [bitsOfBytes_length, l1] at hlen
    obtain ⟨b, h1, h2⟩ := bytesOfBits_testBit
      (((sortedRemove remove).drop 1).reverse.foldl (swapTurn shift)
        (bitsOfBytes (data.flatMap fun x => leBytes 4 x.toNat))) (4 * w + c) j (by rw [hlen]; omega) hj
    refine ⟨b, h1, ?_⟩
    rw [h2, (swap_loop shift hs _ _).2, l2 w c (7 - j) x hx hc (by omega)]
    rw [show 7 - (7 - j) = j by omega, show 8 * (4 * w + c) + (7 - j) = 32 * w + 8 * c + (7 - j) by omega]
    simp only [Option.map_some, Option.getD_some, listed_reverse, Bool.and_eq_true, Bool.not_eq_true',
      decide_eq_false_iff_not]
    rfl

theorem withoutLeast_mem {α : Type} {key : α → Nat} {l rest : List α} (h : Spec.WithoutLeast key l rest) {x : α}
    (hx : x ∈ rest) : x ∈ l := by
  rcases h with ⟨_, rfl⟩ | ⟨a, y, b, rfl, _, _, hp⟩
  · exact absurd hx (by simp)
  · have := hp.mem_iff.1 hx
    simp only [List.mem_append, List.mem_cons] at this ⊢
    tauto

/-- **C71, what holds**: as many bytes as given, and a bit differs only from one
to zero and only at the place of a listed position — where position `(w, b)` is
read as bit `b` of word `w` counted through the bytes of the word, each from its
highest bit. Missing: read as the rest of the package does, with bit `b` counted
from the lowest, other bits than the listed ones are cleared
(`C71_convention_refuted`). -/
theorem C71_swap_partial (remove : List ErrT) (data : List Int) (shift : Nat) (hs : 0 < shift)
    (hd : ∀ x ∈ data, 0 ≤ x ∧ x < 2 ^ 32) :
    ∃ out, swapCompress remove data shift = .ok out ∧ out.length = 4 * data.length ∧
      ∀ (w c j : Nat) (x : Int), data[w]? = some x → c < 4 → j < 8 →
        ∃ b, out[4 * w + c]? = some b ∧
          (b.toNat.testBit j ≠ x.toNat.testBit (8 * c + j) →
            x.toNat.testBit (8 * c + j) = true ∧ b.toNat.testBit j = false ∧
            ∃ r ∈ remove, r.2.2 = none ∧ r.1 * 32 + r.2.1 = 32 * w + 8 * c + (7 - j)) := by
  obtain ⟨out, rest, h1, h2, hw, h3⟩ := C71_exact remove data shift hs hd
  refine ⟨out, h1, h2, ?_⟩
  intro w c j x hx hc hj
  obtain ⟨b, h4, h5⟩ := h3 w c j x hx hc hj
  refine ⟨b, h4, fun hne => ?_⟩
  cases hb : b.toNat.testBit j with
  | true => exact absurd (hb.trans (h5.1 hb).1.symm) hne
  | false =>
    cases hx : x.toNat.testBit (8 * c + j) with
    | false => exact absurd (hb.trans hx.symm) hne
    | true =>
      refine ⟨rfl, rfl, ?_⟩
      by_contra hno
      have := h5.2 ⟨hx, fun ⟨r, hr, h⟩ => hno ⟨r, withoutLeast_mem hw hr, h⟩⟩
      rw [hb] at this
      exact absurd this (by simp)

/-- Values that are not 32-bit words are refused. -/
theorem C71_rejects (remove : List ErrT) (data : List Int) (shift : Nat) (x : Int) (hx : x ∈ data)
    (hr : x < 0 ∨ 2 ^ 32 ≤ x) :
    swapCompress remove data shift = .error .struct ∧ shiftCompress remove data shift = .error .struct := by
  have : packWords data = .error .struct := by
    unfold packWords
    rw [if_neg]
    rw [List.all_eq_true]
    intro h
    have := of_decide_eq_true (h x hx)
    omega
  unfold swapCompress shiftCompress
  rw [this]
  exact ⟨rfl, rfl⟩

/-- **C71 is false in the package's numbering**: bits 0 and 1 of a word are
listed, and bit 6 is cleared. -/
theorem C71_convention_refuted :
    swapCompress [(0, 0, none), (0, 1, none)] [255] 2 = .ok [191, 0, 0, 0] := by decide +kernel

/-- The first listed position is never cleared. -/
theorem C71_first_kept (r : ErrT) (data : List Int) (shift : Nat) (hs : 0 < shift)
    (hd : ∀ x ∈ data, 0 ≤ x ∧ x < 2 ^ 32) :
    ∃ out, swapCompress [r] data shift = .ok out ∧ out.length = 4 * data.length ∧
      ∀ (w c j : Nat) (x : Int), data[w]? = some x → c < 4 → j < 8 →
        ∃ b, out[4 * w + c]? = some b ∧ b.toNat.testBit j = x.toNat.testBit (8 * c + j) := by
  obtain ⟨out, rest, h1, h2, hw, h3⟩ := C71_exact [r] data shift hs hd
  refine ⟨out, h1, h2, ?_⟩
  intro w c j x hx hc hj
  obtain ⟨b, h4, h5⟩ := h3 w c j x hx hc hj
  refine ⟨b, h4, ?_⟩
  have : rest = [] := by
    rcases hw with ⟨_, h⟩ | ⟨a, y, b, hl, _, _, hp⟩
    · exact h
    · have : a = [] ∧ b = [] := by
        cases a with
        | nil => simp at hl; exact ⟨rfl, hl.2⟩
        | cons _ _ => simp at hl
      rw [this.1, this.2] at hp
      exact List.perm_nil.1 hp
  subst this
  rw [Bool.eq_iff_iff, h5]
  simp

/-! ### C72 -/

theorem keepIdx_eq (l : List Bool) (p : Nat → Bool) : keepIdx l 0 p = Spec.atPositions l p := by
  have : ∀ (l : List Bool) (n : Nat), keepIdx l n p = ((l.zipIdx n).filter fun x => p x.2).map (·.1) := by
    intro l
    induction l with
    | nil => intro n; rfl
    | cons x t ih =>
      intro n
      rw [keepIdx, List.zipIdx_cons, List.filter_cons, ih]
      by_cases h : p n
      · rw [if_pos h, if_pos h, List.map_cons]
      · rw [if_neg h, if_neg h]
  exact this l 0

theorem sorted_apart (remove : List ErrT) (shift : Nat) (hb : ∀ r ∈ remove, r.2.1 < 32)
    (hg : remove.Pairwise fun a b => posOf a + shift ≤ posOf b ∨ posOf b + shift ≤ posOf a) :
    ((sortedRemove remove).map posOf).Pairwise fun a b => a + shift ≤ b := by
  have inst1 : Std.Total (fun a b : ErrT => sortKey a ≤ sortKey b) := ⟨fun a b => le_total _ _⟩
  have inst2 : IsTrans ErrT (fun a b => sortKey a ≤ sortKey b) := ⟨fun a b c => le_trans⟩
  have hp := List.perm_insertionSort (fun a b : ErrT => sortKey a ≤ sortKey b) remove
  have hs := List.pairwise_insertionSort (fun a b : ErrT => sortKey a ≤ sortKey b) remove
  have hg' := (List.Perm.pairwise_iff (fun {a b} h => Or.symm h) hp).2 hg
  rw [List.pairwise_map]
  refine List.Pairwise.imp_of_mem ?_ (hs.and hg')
  rintro a b ha hb' ⟨h1, h2⟩
  have k1 := hb a (hp.mem_iff.1 ha)
  have k2 := hb b (hp.mem_iff.1 hb')
  unfold sortKey at h1
  unfold posOf at h2 ⊢
  rcases h2 with h2 | h2 <;> omega

/-- **C72, what holds**: when the listed groups do not overlap, the result is the
bits of the data outside every listed group but the first one, in order, filled
with zeros to a whole byte. Missing: the group at the least position stays
(`C72_refuted`). -/
theorem C72_shift_partial (remove : List ErrT) (data : List Int) (shift : Nat)
    (hd : ∀ x ∈ data, 0 ≤ x ∧ x < 2 ^ 32) (hb : ∀ r ∈ remove, r.2.1 < 32)
    (hg : remove.Pairwise fun a b =>
      a.1 * 32 + a.2.1 + shift ≤ b.1 * 32 + b.2.1 ∨ b.1 * 32 + b.2.1 + shift ≤ a.1 * 32 + a.2.1) :
    ∃ (out : Bytes) (kept : List Bool) (rest : List ErrT),
      shiftCompress remove data shift = .ok out ∧
      Spec.WithoutLeast (fun r : ErrT => r.1 * 32 + r.2.1) remove rest ∧
      kept = Spec.atPositions (Spec.wordBits data) (fun q => rest.all fun r =>
        !decide (r.1 * 32 + r.2.1 ≤ q ∧ q < r.1 * 32 + r.2.1 + shift)) ∧
      out.length = (kept.length + 7) / 8 ∧
      ∀ i j, i < out.length → j < 8 →
        ∃ b, out[i]? = some b ∧ b.toNat.testBit j = (kept[8 * i + (7 - j)]?).getD false := by
  have hap := sorted_apart remove shift hb hg
  refine ⟨_, ((sortedRemove remove).drop 1).reverse.foldl (fun a r => delSlice a (posOf r) shift)
      (bitsOfBytes (data.flatMap fun x => leBytes 4 x.toNat)), (sortedRemove remove).drop 1,
    by unfold shiftCompress; rw [packWords_ok data hd]; rfl, ?_, ?_, ?_, ?_⟩
  · rcases insertionSort_least (fun r : ErrT => r.1 * 10000 + r.2.1) remove with h | ⟨a, x, b, hl, ha, hb', hp⟩
    · exact Or.inl h
    · refine Or.inr ⟨a, x, b, hl, ?_, ?_, hp⟩
      · intro y hy
        have h1 := ha y hy
        have h2 := hb x (by rw [hl]; simp)
        have h3 := hb y (by rw [hl]; simp [hy])
        dsimp only at h1 ⊢
        omega
      · intro y hy
        have h1 := hb' y hy
        have h2 := hb x (by rw [hl]; simp)
        have h3 := hb y (by rw [hl]; simp [hy])
        dsimp only at h1 ⊢
        omega
  · rw [List.foldl_reverse]
    have := delSlice_all shift (((sortedRemove remove).drop 1).map posOf)
      (hap.sublist ((List.drop_sublist 1 _).map posOf))
      (bitsOfBytes (data.flatMap fun x => leBytes 4 x.toNat))
    rw [List.foldr_map] at this
    rw [this, keepIdx_eq, bits_of_words data]
    congr 1
    funext q
    rw [outside, List.all_map]
    rfl
  · exact bytesOfBits_length _
  · intro i j hi hj
    rw [bytesOfBits_length] at hi
    exact bytesOfBits_testBit _ i j hi hj

/-- **C72 is false**: with a single listed group, whatever it is, nothing is
removed. -/
theorem C72_refuted (r : ErrT) (data : List Int) (shift : Nat) (hd : ∀ x ∈ data, 0 ≤ x ∧ x < 2 ^ 32) :
    ∃ out, shiftCompress [r] data shift = .ok out ∧ out.length = 4 * data.length ∧
      ∀ i j, i < out.length → j < 8 →
        ∃ b, out[i]? = some b ∧ b.toNat.testBit j = ((Spec.wordBits data)[8 * i + (7 - j)]?).getD false := by
  have h : shiftCompress [r] data shift = shiftCompress [] data shift := by
    simp [shiftCompress, sortedRemove]
  obtain ⟨out, kept, rest, h1, h4, h5, h6, h7⟩ :=
    C72_shift_partial [] data shift hd (by simp) (by simp)
  have hr : rest = [] := by
    rcases h4 with ⟨_, h⟩ | ⟨a, x, b, hl, _⟩
    · exact h
    · exact absurd hl (by simp)
  subst hr
  have : kept = Spec.wordBits data := by
    rw [h5, ← keepIdx_eq]
    exact keepIdx_true _ _
  subst this
  refine ⟨out, h ▸ h1, ?_, h7⟩
  rw [h6, ← bits_of_words data, bitsOfBytes_length, (pack_bit data _ (packWords_ok data hd)).1]
  omega

/-- Removing the two bits at position 10 (and not those at position 0). -/
example : shiftCompress [(0, 10, none), (0, 0, none)] [0xF0FF] 2 = .ok [0xFF, 0xC0, 0, 0] := by
  decide +kernel

end Verif
