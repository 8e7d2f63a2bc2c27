import Verif.Proof.CorruptProgram

/-! # Properties C17-C23: corruption of words and programs -/

namespace Verif
open Spec

/-- **C17.**  The result starts with the word itself, has no repetition, has
`2 ^ (hi - lo)` entries, and consists of exactly the words that agree with it
outside the range. -/
theorem C17_all_bits (lo hi inst : Nat) :
    (corruptAllBits lo hi inst).head? = some inst ∧ (corruptAllBits lo hi inst).Nodup ∧
    (corruptAllBits lo hi inst).length = 2 ^ (hi - lo) ∧
    ∀ w, w ∈ corruptAllBits lo hi inst ↔ agreeOutside (fun i => lo ≤ i ∧ i < hi) inst w := by
  rw [corruptAllBits_eq]
  refine ⟨?_, (nodup_combos _ _).2 List.nodup_range', ?_, fun w => ?_⟩
  · obtain ⟨t, ht⟩ := head_combosFrom (List.range' lo (hi - lo)) inst []
    rw [ht]; rfl
  · rw [length_combosFrom]; simp
  · rw [mem_combosFrom]
    simp only [List.mem_singleton, exists_eq_left, agreeOutside, List.mem_range'_1]
    constructor
    · intro h i hi'; exact h i (by omega)
    · intro h i hi'; exact h i (by omega)

example : corruptAllBits 1 3 0x10 = [0x10, 0x12, 0x14, 0x16] := by decide

/-- **C18.**  For ranges inside the word the result starts with the word, has
`2 ^ (total number of bits)` entries, consists of exactly the words that agree
with it outside the ranges, and is free of repetition exactly when no bit is
listed twice; other ranges raise. -/
theorem C18_all_bits_tuples (ts : List (Nat × Nat)) (inst : Nat) :
    ((∀ t ∈ ts, t.1 ≤ t.2 ∧ t.2 ≤ 31) →
      ∃ r, corruptAllBitsTuples ts inst = .ok r ∧ r.head? = some inst ∧
        r.length = 2 ^ (ts.map fun t => t.2 - t.1).sum ∧
        (∀ w, w ∈ r ↔ agreeOutside (fun i => ∃ t ∈ ts, t.1 ≤ i ∧ i < t.2) inst w) ∧
        (r.Nodup ↔ (ts.flatMap fun t => List.range' t.1 (t.2 - t.1)).Nodup)) ∧
    ((∃ t ∈ ts, ¬ (t.1 ≤ t.2 ∧ t.2 ≤ 31)) → corruptAllBitsTuples ts inst = .error .runtime) := by
  constructor
  · intro h
    refine ⟨_, corruptTuples_ok ts inst h, ?_, ?_, fun w => ?_, nodup_combos _ _⟩
    · obtain ⟨t, ht⟩ := head_combosFrom (tuplesBits ts) inst []
      rw [ht]; rfl
    · rw [length_combosFrom]
      have : ∀ ts : List (Nat × Nat), (tuplesBits ts).length = (ts.map fun t => t.2 - t.1).sum := by
        intro ts
        induction ts with
        | nil => rfl
        | cons t ts ih =>
          have : tuplesBits (t :: ts) = List.range' t.1 (t.2 - t.1) ++ tuplesBits ts := by
            simp [tuplesBits]
          rw [this]
          simp [ih]
      rw [this]; simp
    · rw [mem_combosFrom]
      simp only [List.mem_singleton, exists_eq_left, agreeOutside, mem_tuplesBits]
  · intro h
    unfold corruptAllBitsTuples
    simp only [tuplesSize_err ts h, bind, Except.bind]

/-- C18, disjoint ranges give no repetition. -/
theorem C18_disjoint (ts : List (Nat × Nat)) (inst : Nat) (h : ∀ t ∈ ts, t.1 ≤ t.2 ∧ t.2 ≤ 31)
    (hd : ts.Pairwise fun a b => ∀ i, a.1 ≤ i → i < a.2 → ¬ (b.1 ≤ i ∧ i < b.2)) :
    ∃ r, corruptAllBitsTuples ts inst = .ok r ∧ r.Nodup :=
  ⟨_, corruptTuples_ok ts inst h, (nodup_combos _ _).2 (nodup_tuplesBits ts hd)⟩

/-- Disjoint ranges; overlapping ranges repeat; bit 31 cannot be reached. -/
example : corruptAllBitsTuples [(0, 1), (4, 5)] 0 = .ok [0, 1, 16, 17] ∧
    corruptAllBitsTuples [(0, 1), (0, 1)] 0 = .ok [0, 1, 1, 0] ∧
    corruptAllBitsTuples [(31, 32)] 0 = .error .runtime := by decide

/-- **C19.**  Whatever the draws, when random corruption returns, the original
is first, no word is repeated, there are at most `2 ^ amount` words, and only
bits of the range differ. -/
theorem C19_random_bits (hi lo amount inst : Nat) (ds : Draws) (r : List Nat) (ds' : Draws)
    (h : corruptBits hi lo amount inst ds = some (.ok (r, ds'))) :
    r.head? = some inst ∧ r.Nodup ∧ r.length ≤ 2 ^ amount ∧
      ∀ w ∈ r, agreeOutside (fun i => lo ≤ i ∧ i ≤ hi) inst w := by
  obtain ⟨bits, _, h2, h3, h4, ⟨extra, he, hl⟩, hn, _, hw⟩ := corruptBits_spec h
  dsimp only at he hn
  refine ⟨by rw [he]; rfl, hn, ?_, corruptBits_agree h⟩
  rw [he, List.length_cons]
  have := Nat.two_pow_pos amount
  omega

/-- C19, exceptions and termination: corruption never raises on a non-empty
range, and never returns when more bits are asked for than the range has. -/
theorem C19_no_error (hi lo amount inst : Nat) (ds : Draws) :
    (lo ≤ hi → ∀ e, corruptBits hi lo amount inst ds ≠ some (.error e)) ∧
    (lo ≤ hi → hi - lo + 1 < amount → corruptBits hi lo amount inst ds = none) := by
  have hp : lo ≤ hi → ∀ (ds : Draws) bits e, pickBits lo hi amount bits ds ≠ some (.error e) := by
    intro hlh ds
    induction ds with
    | nil =>
      intro bits e
      unfold pickBits
      split
      · rw [if_neg (by omega)]; simp
      · simp
    | cons d ds ih =>
      intro bits e
      unfold pickBits
      split
      · rw [if_neg (by omega)]; exact ih _ _
      · simp
  have hne : lo ≤ hi → ∀ e, corruptBits hi lo amount inst ds ≠ some (.error e) := by
    intro hlh e h
    unfold corruptBits at h
    simp only [bind, Rnd.seq] at h
    split at h
    · simp at h
    · rename_i e' he
      exact hp hlh _ _ _ he
    · rename_i bits ds1 hb
      obtain ⟨b1, b2, b3, _⟩ := pickBits_ok ds [] _ hb (by simp) (by simp) (by simp)
      dsimp only at b1 b2 b3
      have : ∀ (is result : List Nat), (∀ i ∈ is, 1 ≤ i ∧ i < 2 ^ amount) →
          ∃ o, noiseAll inst bits is result = .ok o := by
        intro is
        induction is with
        | nil => intro result _; exact ⟨_, rfl⟩
        | cons i is ih =>
          intro result hi
          obtain ⟨n, hn, _⟩ := noise_ok b1 b2 (hi i (by simp)).2 (hi i (by simp)).1
          simp only [noiseAll, bind, Except.bind, hn]
          exact ih _ fun j hj => hi j (by simp [hj])
      obtain ⟨o, ho⟩ := this (List.range' 1 (2 ^ amount - 1)) [inst] (by
        intro i hi
        have := Nat.two_pow_pos amount
        rw [List.mem_range'_1] at hi
        omega)
      simp [Rnd.lift, ho, Except.map] at h
  refine ⟨hne, fun hlh hbig => ?_⟩
  cases hr : corruptBits hi lo amount inst ds with
  | none => rfl
  | some o =>
    cases o with
    | error e => exact absurd hr (hne hlh e)
    | ok p =>
      exfalso
      obtain ⟨bits, _, h2, h3, h4, _⟩ := corruptBits_spec hr
      have hsub : bits ⊆ List.range' lo (hi - lo + 1) := by
        intro x hx
        have := h4 x hx
        rw [List.mem_range'_1]; omega
      have := (List.subperm_of_subset h2 hsub).length_le
      rw [List.length_range'] at this
      omega

/-- C19, the range without bits: corruption raises `ValueError` whatever the draws as soon
as a bit is asked for, and gives the word back when none is. -/
theorem C19_empty_range (hi lo amount inst : Nat) (ds : Draws) (h : hi < lo) :
    corruptBits hi lo amount inst ds =
      if amount = 0 then some (.ok ([inst], ds)) else some (.error .value) := by
  by_cases ha : amount = 0
  · subst ha
    have hp : pickBits lo hi 0 [] ds = some (.ok ([], ds)) := by
      cases ds <;> simp [pickBits]
    simp [corruptBits, bind, Rnd.seq, hp, Rnd.lift, noiseAll, Except.map]
  · have hp : pickBits lo hi amount [] ds = some (.error .value) := by
      cases ds <;> simp [pickBits, h, Nat.pos_of_ne_zero ha]
    simp [corruptBits, bind, Rnd.seq, hp, ha]

/-- Asking for a bit of a range without bits, and for none. -/
example : corruptBits 3 4 1 7 [0, 1] = some (.error .value) ∧
    corruptBits 3 4 0 7 [0, 1] = some (.ok ([7], [0, 1])) := by decide

/-- Two random bits of the condition field. -/
example : (corruptBits 31 28 2 0xE0000000 [0, 4, 3]).bind Except.toOption =
    some ([0xE0000000, 0xF0000000, 0x60000000, 0x70000000], []) := by decide

/-- **C20, what does hold** (missing: three or more bits, see `C20_refuted`):
up to two bits, all the combinations of the chosen positions are listed. -/
theorem C20_all_combinations_partial (hi lo amount inst : Nat) (h2 : amount ≤ 2) (ds : Draws)
    (r : List Nat) (ds' : Draws) (h : corruptBits hi lo amount inst ds = some (.ok (r, ds'))) :
    ∃ bits : List Nat, bits.Nodup ∧ bits.length = amount ∧ (∀ b ∈ bits, lo ≤ b ∧ b ≤ hi) ∧
      ∀ w, w ∈ r ↔ agreeOutside (· ∈ bits) inst w := by
  obtain ⟨bits, h1, hn, hl, h4, _, _, _, hw⟩ := corruptBits_spec h
  refine ⟨bits, hn, hl, h4, fun w => ?_⟩
  dsimp only at hw
  rw [hw]
  have hcases : ∀ i, 1 ≤ i → i < 4 → ∀ e, 2 ^ e ≤ Nat.log2 i + 1 ∧ i.testBit e = true ↔
      i.testBit e = true := by
    intro i h1 h4 e
    constructor
    · exact fun h => h.2
    · intro hb
      refine ⟨?_, hb⟩
      have he : 2 ^ e ≤ i := Nat.ge_two_pow_of_testBit hb
      have : i = 1 ∨ i = 2 ∨ i = 3 := by omega
      have he2 : e = 0 ∨ e = 1 := by
        by_contra hc
        have : 2 ^ 2 ≤ 2 ^ e := Nat.pow_le_pow_right (by omega) (by omega)
        omega
      rcases he2 with rfl | rfl
      · simp
      · rcases this with rfl | rfl | rfl
        · revert hb; decide
        · decide
        · decide
  constructor
  · rintro (rfl | ⟨i, _, _, hx⟩)
    · exact fun _ _ => rfl
    · intro x hx'
      have : ¬ (inst ^^^ w).testBit x = true := by
        rw [hx]
        rintro ⟨e, _, _, h6⟩
        exact hx' (List.mem_of_getElem? h6)
      rw [Nat.testBit_xor] at this
      revert this
      cases inst.testBit x <;> cases w.testBit x <;> simp
  · intro hag
    by_cases hwi : w = inst
    · exact Or.inl hwi
    right
    -- the subset of chosen bits that differ, as a number
    let i := (if h : 0 < bits.length then ((inst ^^^ w).testBit bits[0]).toNat else 0) +
      2 * (if h : 1 < bits.length then ((inst ^^^ w).testBit bits[1]).toNat else 0)
    have hdiff : ∃ x, (inst ^^^ w).testBit x = true := by
      by_contra hc
      apply hwi
      apply Nat.eq_of_testBit_eq
      intro x
      have : ¬ (inst ^^^ w).testBit x = true := fun h => hc ⟨x, h⟩
      rw [Nat.testBit_xor] at this
      revert this
      cases inst.testBit x <;> cases w.testBit x <;> simp
    have hin : ∀ x, (inst ^^^ w).testBit x = true → x ∈ bits := by
      intro x hx
      by_contra hc
      have := hag x hc
      rw [Nat.testBit_xor, this] at hx
      simp at hx
    have h3 : bits.length = 0 ∨ bits.length = 1 ∨ bits.length = 2 := by omega
    rcases h3 with h3 | h3 | h3
    · exfalso
      obtain ⟨x, hx⟩ := hdiff
      have := hin x hx
      rw [List.length_eq_zero_iff.1 h3] at this
      simp at this
    · obtain ⟨a, rfl⟩ := List.length_eq_one_iff.1 h3
      have ha : (inst ^^^ w).testBit a = true := by
        obtain ⟨x, hx⟩ := hdiff
        have := hin x hx
        rw [List.mem_singleton] at this
        rwa [← this]
      refine ⟨1, by omega, by rw [← hl]; simp, fun x => ?_⟩
      constructor
      · intro hx
        have := hin x hx
        rw [List.mem_singleton] at this
        subst this
        exact ⟨0, by simp, by decide, by simp⟩
      · rintro ⟨e, _, h5, h6⟩
        have := List.mem_of_getElem? h6
        rw [List.mem_singleton] at this
        subst this
        exact ha
    · obtain ⟨a, b, rfl⟩ := List.length_eq_two.1 h3
      have hab : a ≠ b := by
        intro e; subst e; simp at hn
      refine ⟨((inst ^^^ w).testBit a).toNat + 2 * ((inst ^^^ w).testBit b).toNat, ?_, ?_, ?_⟩
      · obtain ⟨x, hx⟩ := hdiff
        have := hin x hx
        simp only [List.mem_cons, List.not_mem_nil, or_false] at this
        rcases this with rfl | rfl
        · rw [hx]; simp
        · rw [hx]; simp
      · rw [← hl]
        cases (inst ^^^ w).testBit a <;> cases (inst ^^^ w).testBit b <;> simp
      · intro x
        have hpos : 1 ≤ ((inst ^^^ w).testBit a).toNat + 2 * ((inst ^^^ w).testBit b).toNat := by
          obtain ⟨x, hx⟩ := hdiff
          have := hin x hx
          simp only [List.mem_cons, List.not_mem_nil, or_false] at this
          rcases this with rfl | rfl
          · rw [hx]; simp
          · rw [hx]; simp
        have hlt : ((inst ^^^ w).testBit a).toNat + 2 * ((inst ^^^ w).testBit b).toNat < 4 := by
          cases (inst ^^^ w).testBit a <;> cases (inst ^^^ w).testBit b <;> decide
        have hb0 : (((inst ^^^ w).testBit a).toNat + 2 * ((inst ^^^ w).testBit b).toNat).testBit 0 =
            (inst ^^^ w).testBit a := by
          cases (inst ^^^ w).testBit a <;> cases (inst ^^^ w).testBit b <;> decide
        have hb1 : (((inst ^^^ w).testBit a).toNat + 2 * ((inst ^^^ w).testBit b).toNat).testBit 1 =
            (inst ^^^ w).testBit b := by
          cases (inst ^^^ w).testBit a <;> cases (inst ^^^ w).testBit b <;> decide
        constructor
        · intro hx
          have := hin x hx
          simp only [List.mem_cons, List.not_mem_nil, or_false] at this
          rcases this with rfl | rfl
          · have hbit : _ = true := hb0.trans hx
            exact ⟨0, ((hcases _ hpos hlt 0).2 hbit).1, hbit, by simp⟩
          · have hbit : _ = true := hb1.trans hx
            exact ⟨1, ((hcases _ hpos hlt 1).2 hbit).1, hbit, by simp⟩
        · rintro ⟨e, _, h5, h6⟩
          have he : e < 2 := by
            by_contra hc
            have h8 : 2 ^ 2 ≤ 2 ^ e := Nat.pow_le_pow_right (by omega) (by omega)
            have := Nat.ge_two_pow_of_testBit h5
            omega
          have : e = 0 ∨ e = 1 := by omega
          rcases this with rfl | rfl
          · simp at h6; subst h6; exact hb0.symm.trans h5
          · simp at h6; subst h6; exact hb1.symm.trans h5

/-- **C20 is false of the code** for three or more bits: at most half of the
combinations are returned, whatever the draws, so that the result is not the list of
the combinations of any choice of bits. -/
theorem C20_refuted (hi lo amount inst : Nat) (h3 : 3 ≤ amount) (ds : Draws)
    (r : List Nat) (ds' : Draws) (h : corruptBits hi lo amount inst ds = some (.ok (r, ds'))) :
    r.length ≤ 2 ^ (amount - 1) ∧
    ∀ bits : List Nat, bits.Nodup → bits.length = amount → ∃ w, agreeOutside (· ∈ bits) inst w ∧ w ∉ r := by
  obtain ⟨bits, h1, hn, hl, h4, _, hr, _, hw⟩ := corruptBits_spec h
  have hlt : 2 < bits.length := by omega
  have hsame : ∀ w ∈ r, agreeOutside (· ∈ bits.erase bits[2]) inst w := by
    intro w hwr x hx
    rcases (hw w).1 hwr with rfl | ⟨i, _, _, hxx⟩
    · rfl
    · have : ¬ (inst ^^^ w).testBit x = true := by
        rw [hxx]
        rintro ⟨e, _, _, h6⟩
        obtain ⟨h7, h8⟩ := List.getElem?_eq_some_iff.1 h6
        apply hx
        rw [hn.mem_erase_iff]
        refine ⟨fun h9 => ?_, by rw [← h8]; exact List.getElem_mem _⟩
        have := (List.Nodup.getElem_inj_iff hn).1 (h8.trans h9)
        have he : e = 0 ∨ e = 1 ∨ 2 ≤ e := by omega
        rcases he with rfl | rfl | he
        · simp at this
        · simp at this
        · have : 2 ^ 2 ≤ 2 ^ e := Nat.pow_le_pow_right (by omega) he
          omega
      rw [Nat.testBit_xor] at this
      revert this
      cases inst.testBit x <;> cases w.testBit x <;> simp
  have hlen : r.length ≤ 2 ^ (amount - 1) := by
    have hsub : r ⊆ combosFrom [inst] (bits.erase bits[2]) := fun w hwr =>
      (mem_combosFrom _ _ _).2 ⟨inst, by simp, hsame w hwr⟩
    have := (List.subperm_of_subset hr hsub).length_le
    rw [length_combosFrom, List.length_erase_of_mem (List.getElem_mem _), hl] at this
    simpa using this
  refine ⟨hlen, fun bs hbn hbl => ?_⟩
  by_contra hc
  have hsub : combosFrom [inst] bs ⊆ r := by
    intro w hwm
    obtain ⟨v, hv, hag⟩ := (mem_combosFrom _ _ _).1 hwm
    rw [List.mem_singleton] at hv
    subst hv
    by_contra hwr
    exact hc ⟨w, hag, hwr⟩
  have := (List.subperm_of_subset ((nodup_combos inst bs).2 hbn) hsub).length_le
  rw [length_combosFrom, hbl, List.length_singleton, Nat.one_mul] at this
  have h2 : 2 ^ amount = 2 * 2 ^ (amount - 1) := by
    rw [← Nat.pow_succ']; congr 1; omega
  have := Nat.two_pow_pos (amount - 1)
  omega

/-- Three bits asked for, four words returned. -/
example : (corruptBits 31 28 3 0xE0000000 [0, 1, 2]).bind Except.toOption =
    some ([0xE0000000, 0xF0000000, 0xC0000000, 0xD0000000], []) := by decide

/-- **C20, exactly what is listed.**  Of the `amount` chosen positions only the first,
the second, the fourth, the eighth and so on are ever flipped, which are
`log2 amount + 1` many; the list holds every combination of these once. -/
theorem C20_exact (hi lo amount inst : Nat) (hpos : 0 < amount) (ds : Draws)
    (r : List Nat) (ds' : Draws) (h : corruptBits hi lo amount inst ds = some (.ok (r, ds'))) :
    ∃ bits used : List Nat, bits.Nodup ∧ bits.length = amount ∧ (∀ b ∈ bits, lo ≤ b ∧ b ≤ hi) ∧
      (∀ x, x ∈ used ↔ ∃ e, bits[2 ^ e - 1]? = some x) ∧ used.Nodup ∧ used.length = Nat.log2 amount + 1 ∧
      (∀ w, w ∈ r ↔ agreeOutside (· ∈ used) inst w) ∧ r.length = 2 ^ (Nat.log2 amount + 1) := by
  obtain ⟨bits, h1, hn, hl, h4, _, hr, _, hw⟩ := corruptBits_spec h
  dsimp only at hw hr
  have hne : amount ≠ 0 := by omega
  have hE : ∀ e, e < Nat.log2 amount + 1 ↔ 2 ^ e - 1 < bits.length := by
    intro e
    rw [hl, Nat.lt_succ_iff, Nat.le_log2 hne]
    have := Nat.two_pow_pos e
    omega
  obtain ⟨used, hused⟩ : ∃ used, used = (List.range (Nat.log2 amount + 1)).map fun e => bits.getD (2 ^ e - 1) 0 := ⟨_, rfl⟩
  have hget : ∀ e x, bits[2 ^ e - 1]? = some x ↔ e < Nat.log2 amount + 1 ∧ bits.getD (2 ^ e - 1) 0 = x := by
    intro e x
    rw [hE, List.getD_eq_getElem?_getD]
    constructor
    · intro h
      obtain ⟨a, b⟩ := List.getElem?_eq_some_iff.1 h
      exact ⟨a, by rw [h]; rfl⟩
    · rintro ⟨a, b⟩
      rw [List.getElem?_eq_getElem a] at b ⊢
      simpa using b
  have hmem : ∀ x, x ∈ used ↔ ∃ e, bits[2 ^ e - 1]? = some x := by
    intro x
    rw [hused, List.mem_map]
    constructor
    · rintro ⟨e, he, hx⟩
      exact ⟨e, (hget e x).2 ⟨List.mem_range.1 he, hx⟩⟩
    · rintro ⟨e, he⟩
      obtain ⟨a, b⟩ := (hget e x).1 he
      exact ⟨e, List.mem_range.2 a, b⟩
  have hinj : ∀ e f x, bits[2 ^ e - 1]? = some x → bits[2 ^ f - 1]? = some x → e = f := by
    intro e f x he hf
    obtain ⟨a, b⟩ := List.getElem?_eq_some_iff.1 he
    obtain ⟨c, d⟩ := List.getElem?_eq_some_iff.1 hf
    have := (List.Nodup.getElem_inj_iff hn).1 (b.trans d.symm)
    have p1 := Nat.two_pow_pos e
    have p2 := Nat.two_pow_pos f
    exact Nat.pow_right_injective (Nat.le_refl 2) (by simp only; omega)
  have hun : used.Nodup := by
    rw [hused]
    refine List.Nodup.map_on ?_ List.nodup_range
    intro e he f hf hef
    exact hinj e f _ ((hget e _).2 ⟨List.mem_range.1 he, rfl⟩) ((hget f _).2 ⟨List.mem_range.1 hf, hef.symm⟩)
  have hul : used.length = Nat.log2 amount + 1 := by rw [hused]; simp
  have hall : ∀ w, w ∈ r ↔ agreeOutside (· ∈ used) inst w := by
    intro w
    constructor
    · intro hwr x hx
      rcases (hw w).1 hwr with rfl | ⟨i, _, _, hxx⟩
      · rfl
      · have : ¬ (inst ^^^ w).testBit x = true := by
          rw [hxx]
          rintro ⟨e, _, _, h6⟩
          exact hx ((hmem x).2 ⟨e, h6⟩)
        rw [Nat.testBit_xor] at this
        revert this
        cases inst.testBit x <;> cases w.testBit x <;> simp
    · intro hag
      by_cases hsmall : amount ≤ 2
      · obtain ⟨bits', a1, a2, a3, a4⟩ := C20_all_combinations_partial hi lo amount inst hsmall ds r ds' h
        have hsub : r ⊆ combosFrom [inst] used := by
          intro v hv
          rw [mem_combosFrom]
          refine ⟨inst, by simp, ?_⟩
          intro x hx
          rcases (hw v).1 hv with rfl | ⟨i, _, _, hxx⟩
          · rfl
          · have : ¬ (inst ^^^ v).testBit x = true := by
              rw [hxx]
              rintro ⟨e, _, _, h6⟩
              exact hx ((hmem x).2 ⟨e, h6⟩)
            rw [Nat.testBit_xor] at this
            revert this
            cases inst.testBit x <;> cases v.testBit x <;> simp
        have hrl : r.length = 2 ^ amount := by
          have hp : r.Perm (combosFrom [inst] bits') := by
            apply (List.perm_ext_iff_of_nodup hr ((nodup_combos _ _).2 a1)).2
            intro v
            rw [a4, mem_combosFrom]
            simp
          rw [hp.length_eq, length_combosFrom, a2]; simp
        have hlog : Nat.log2 amount + 1 = amount := by
          have : amount = 1 ∨ amount = 2 := by omega
          rcases this with rfl | rfl <;> decide
        have hp := (List.subperm_of_subset hr hsub).perm_of_length_le (by
          rw [length_combosFrom, hrl, hul, hlog]; simp)
        rw [hp.mem_iff, mem_combosFrom]
        exact ⟨inst, by simp, hag⟩
      · rw [hw]
        right
        have hbig : ∀ e, e < Nat.log2 amount + 1 → e ≠ amount - 1 := by
          intro e he heq
          have h5 : 2 ^ e ≤ amount := (Nat.le_log2 hne).1 (by omega)
          have h6 : ∀ n, 3 ≤ n → n < 2 ^ (n - 1) := by
            intro n hn3
            induction n, hn3 using Nat.le_induction with
            | base => decide
            | succ k hk ih =>
              have : 2 ^ (k + 1 - 1) = 2 * 2 ^ (k - 1) := by
                rw [← Nat.pow_succ']; congr 1; omega
              omega
          have := h6 amount (by omega)
          rw [heq] at h5
          omega
        obtain ⟨f, hf⟩ : ∃ f : Fin amount → Bool, f = fun k =>
          decide (k.1 = amount - 1) || (decide (k.1 < Nat.log2 amount + 1) && (inst ^^^ w).testBit (bits.getD (2 ^ k.1 - 1) 0)) := ⟨_, rfl⟩
        have hlt := Nat.ofBits_lt_two_pow f
        have htop : (Nat.ofBits f).testBit (amount - 1) = true := by
          rw [Nat.testBit_ofBits_lt _ _ (by omega), hf]; simp
        have hge : 2 ^ (amount - 1) ≤ Nat.ofBits f := Nat.ge_two_pow_of_testBit htop
        have hone := Nat.two_pow_pos (amount - 1)
        have hlog : Nat.log2 (Nat.ofBits f) = amount - 1 := by
          have a := (Nat.le_log2 (by omega)).2 hge
          have b : Nat.log2 (Nat.ofBits f) < amount := (Nat.log2_lt (by omega)).2 hlt
          omega
        refine ⟨Nat.ofBits f, by omega, hlt, fun x => ?_⟩
        rw [hlog]
        have hbit : ∀ e, e < Nat.log2 amount + 1 →
            (Nat.ofBits f).testBit e = (inst ^^^ w).testBit (bits.getD (2 ^ e - 1) 0) := by
          intro e he
          have h5 : 2 ^ e ≤ amount := (Nat.le_log2 hne).1 (by omega)
          have : e < amount := Nat.lt_of_lt_of_le Nat.lt_two_pow_self h5
          rw [Nat.testBit_ofBits_lt _ _ this, hf]
          simp [hbig e he, he]
        constructor
        · intro hx
          have hxu : x ∈ used := by
            by_contra hc
            have := hag x hc
            rw [Nat.testBit_xor, this] at hx
            simp at hx
          obtain ⟨e, he⟩ := (hmem x).1 hxu
          obtain ⟨a, b⟩ := (hget e x).1 he
          refine ⟨e, ?_, ?_, he⟩
          · have := (Nat.le_log2 hne).1 (Nat.lt_succ_iff.1 a)
            omega
          · rw [hbit e a, b, hx]
        · rintro ⟨e, _, h6, he⟩
          obtain ⟨a, b⟩ := (hget e x).1 he
          rw [hbit e a, b] at h6
          exact h6
  refine ⟨bits, used, hn, hl, h4, hmem, hun, hul, hall, ?_⟩
  have hp : r.Perm (combosFrom [inst] used) := by
    apply (List.perm_ext_iff_of_nodup hr ((nodup_combos _ _).2 hun)).2
    intro v
    rw [hall, mem_combosFrom]
    simp
  rw [hp.length_eq, length_combosFrom, hul]; simp
/-- Eight bits asked for, sixteen words returned: the first, second, fourth and eighth
of the chosen positions 7, 6, 5, 4, 3, 2, 1, 0 are flipped. -/
example : (corruptBits 31 0 8 0 [7, 6, 5, 4, 3, 2, 1, 0]).bind Except.toOption =
    some ([0, 128, 64, 192, 16, 144, 80, 208, 1, 129, 65, 193, 17, 145, 81, 209], []) := by decide +kernel

/-- **C21.**  Whatever the draws, a distribution has one entry per bin and
never exceeds the amount. -/
theorem C21_distribute (amount bins : Nat) (ds : Draws) (l : List Nat) (ds' : Draws)
    (h : distribute amount bins ds = some (.ok (l, ds'))) : l.length = bins ∧ l.sum ≤ amount :=
  ⟨(distribute_ok h).1, (distribute_ok h).2.1⟩

example : (distribute 5 3 [2, 2, 0, 1, 3, 1, 7]).bind Except.toOption = some ([1, 1, 3], []) := by
  decide

/-- **C21.**  Every such distribution is possible: for other than one bin the results are
exactly the lists with one entry per bin whose total is at most the amount.  With one bin
the whole amount is in it. -/
theorem C21_exact (amount bins : Nat) (l : List Nat) :
    (∃ ds ds', distribute amount bins ds = some (.ok (l, ds'))) ↔
      l.length = bins ∧ l.sum ≤ amount ∧ (bins = 1 → l = [amount]) := by
  constructor
  · rintro ⟨ds, ds', h⟩
    obtain ⟨h1, h2⟩ := C21_distribute amount bins ds l ds' h
    refine ⟨h1, h2, fun hb => ?_⟩
    subst hb
    rw [distribute, if_pos rfl, rnd_pure_ok] at h
    exact congrArg Prod.fst h
  · rintro ⟨h1, h2, h3⟩
    by_cases hb : bins = 1
    · refine ⟨[], [], ?_⟩
      rw [h3 hb, hb]
      rfl
    · obtain ⟨ds', hd⟩ := spread_reaches l l.length 0 amount (by omega) (by simpa using h2)
      refine ⟨List.range' 0 bins ++ l, ds', ?_⟩
      have hp := pickBits_range bins l bins 0 (by omega)
      unfold distribute
      rw [if_neg hb]
      simp only [List.range_zero] at hp
      refine rnd_bind_ok.2 ⟨_, _, hp, ?_⟩
      rw [← h1, List.range_eq_range']
      simpa using hd

/-- **C22.**  When random program corruption returns, no address is added,
removed or moved; each address is unchanged or was a single instruction and is
now that instruction followed by at least one other word, without repetition,
at the same address, at most `2 ^ max_amount` in all; and exactly
`ceil(max(1, x))` addresses have changed. -/
theorem C22_corrupt_program (prog : Program) (hk : (prog.map (·.1)).Nodup) (percent prod : Rat)
    (maxAmount : Int) (ds : Draws) (prog' : Program) (ds' : Draws)
    (h : corruptProgram prog percent prod maxAmount ds = some (.ok (prog', ds'))) :
    prog'.map (·.1) = prog.map (·.1) ∧
    (∀ a cs, dictGet prog a = some cs → ∃ cs', dictGet prog' a = some cs' ∧
      (cs' = cs ∨ corruptedFrom (2 ^ (max 1 maxAmount).toNat) cs cs')) ∧
    (prog.map (·.1)).countP (fun a => decide (dictGet prog' a ≠ dictGet prog a)) =
      (max 1 prod).ceil.toNat := by
  unfold corruptProgram at h
  split at h
  · simp at h
  · have := cpLoop_ok hk _ _ _ 0 _ _ (by
      exact {
        keys := rfl
        each := fun a cs h => ⟨cs, h, Or.inl rfl⟩
        count := by simp }) h
    exact ⟨this.keys, this.each, by rw [this.count, Nat.zero_add]; rfl⟩

/-- C22 for one instruction: the words added differ from the original only in
the enabled fields, do not repeat, are not the original, and are not ignored. -/
theorem C22_corrupt_instruction (ignore : Nat → Bool) (existing : List CInst) (orig : CInst)
    (conditional registers opcode : Bool) (amount : Nat) (ds : Draws) (r : List CInst) (ds' : Draws)
    (h : corruptInstruction ignore existing orig conditional registers opcode amount ds =
      some (.ok (r, ds'))) :
    ∃ new, r = existing ++ new ∧ (new.map (·.encoding)).Nodup ∧
      ∀ c ∈ new, c.address = orig.address ∧ c.encoding ≠ orig.encoding ∧
        ignore c.encoding = false ∧
        agreeOutside (fun i => (conditional = true ∧ 28 ≤ i ∧ i ≤ 31) ∨
          (registers = true ∧ 0 ≤ i ∧ i ≤ 10) ∨ (opcode = true ∧ 20 ≤ i ∧ i ≤ 27))
          orig.encoding c.encoding := by
  unfold corruptInstruction at h
  rw [rnd_bind_ok] at h
  obtain ⟨am, ds1, _, h⟩ := h
  dsimp only at h
  rw [rnd_bind_ok] at h
  obtain ⟨l1, ds2, h1, h⟩ := h
  rw [rnd_bind_ok] at h
  obtain ⟨l2, ds3, h2, h⟩ := h
  rw [rnd_bind_ok] at h
  obtain ⟨l3, ds4, h3, h⟩ := h
  rw [rnd_pure_ok] at h
  simp only [Prod.mk.injEq] at h
  obtain ⟨rfl, rfl⟩ := h
  have g1 : goodList (fun i => conditional = true ∧ 28 ≤ i ∧ i ≤ 31) orig.encoding l1 := by
    cases conditional with
    | true =>
      simp only [corruptStep, if_true] at h1
      rw [rnd_bind_ok] at h1
      obtain ⟨a, ds5, _, h1⟩ := h1
      exact goodList_mono (corruptBits_good h1) (by intro i hi; exact ⟨rfl, hi⟩)
    | false =>
      simp only [corruptStep, Bool.false_eq_true, if_false] at h1
      rw [rnd_pure_ok] at h1
      simp only [Prod.mk.injEq] at h1
      obtain ⟨rfl, rfl⟩ := h1
      refine ⟨rfl, by simp, ?_⟩
      intro w hw
      rw [List.mem_singleton] at hw
      subst hw
      exact fun _ _ => rfl
  have g2 : goodList (fun i => (conditional = true ∧ 28 ≤ i ∧ i ≤ 31) ∨
      (registers = true ∧ 0 ≤ i ∧ i ≤ 10)) orig.encoding l2 := by
    cases registers with
    | true =>
      simp only [corruptStep, if_true] at h2
      rw [rnd_bind_ok] at h2
      obtain ⟨a, ds5, _, h2⟩ := h2
      have := extendAll_good (F := fun i => 0 ≤ i ∧ i ≤ 10)
        (fun c ds r hh => corruptBits_good hh) g1 h2
      exact goodList_mono this (by
        rintro i (hi | hi)
        · exact Or.inl hi
        · exact Or.inr ⟨rfl, hi⟩)
    | false =>
      simp only [corruptStep, Bool.false_eq_true, if_false] at h2
      rw [rnd_pure_ok] at h2
      simp only [Prod.mk.injEq] at h2
      obtain ⟨rfl, rfl⟩ := h2
      exact goodList_mono g1 fun i hi => Or.inl hi
  have g3 : goodList (fun i => (conditional = true ∧ 28 ≤ i ∧ i ≤ 31) ∨
      (registers = true ∧ 0 ≤ i ∧ i ≤ 10) ∨ (opcode = true ∧ 20 ≤ i ∧ i ≤ 27))
      orig.encoding l3 := by
    cases opcode with
    | true =>
      simp only [corruptStep, if_true] at h3
      rw [rnd_bind_ok] at h3
      obtain ⟨a, ds5, _, h3⟩ := h3
      have := extendAll_good (F := fun i => 20 ≤ i ∧ i ≤ 27)
        (fun c ds r hh => corruptBits_good hh) g2 h3
      exact goodList_mono this (by
        rintro i ((hi | hi) | hi)
        · exact Or.inl hi
        · exact Or.inr (Or.inl hi)
        · exact Or.inr (Or.inr ⟨rfl, hi⟩))
    | false =>
      simp only [corruptStep, Bool.false_eq_true, if_false] at h3
      rw [rnd_pure_ok] at h3
      simp only [Prod.mk.injEq] at h3
      obtain ⟨rfl, rfl⟩ := h3
      exact goodList_mono g2 (by
        rintro i (hi | hi)
        · exact Or.inl hi
        · exact Or.inr (Or.inl hi))
  obtain ⟨a1, a2, a3⟩ := g3
  obtain ⟨t, rfl⟩ : ∃ t, l3 = orig.encoding :: t := by
    cases l3 with
    | nil => simp at a1
    | cons x t => simp at a1; subst a1; exact ⟨t, rfl⟩
  rw [List.nodup_cons] at a2
  refine ⟨_, rfl, ?_, ?_⟩
  · rw [List.map_map, List.tail_cons]
    have : ((fun x : CInst => x.encoding) ∘ fun e => (⟨e, orig.address⟩ : CInst)) = id := rfl
    rw [this, List.map_id]
    exact a2.2.filter _
  · intro c hc
    obtain ⟨e, he, rfl⟩ := List.mem_map.1 hc
    rw [List.tail_cons, List.mem_filter] at he
    refine ⟨rfl, ?_, by simpa using he.2, a3 e (List.mem_cons_of_mem _ he.1)⟩
    rintro rfl
    exact a2.1 he.1

/-- Two addresses, one corrupted in two bits. -/
example : (corruptProgram [(100, [⟨7, 100⟩]), (104, [⟨8, 104⟩])] 20 (2 / 5) 2 [1, 1, 0, 1]).bind
    Except.toOption = some ([(100, [⟨7, 100⟩]), (104, [⟨8, 104⟩, ⟨9, 104⟩, ⟨10, 104⟩, ⟨11, 104⟩])], []) := by
  decide +kernel

theorem rnd_bind_err {α β : Type} {m : Rnd α} {f : α → Rnd β} {ds : Draws} {e : Err}
    (h : (m >>= f) ds = some (.error e)) :
    m ds = some (.error e) ∨ ∃ a ds', m ds = some (.ok (a, ds')) ∧ f a ds' = some (.error e) := by
  simp only [bind, Rnd.seq] at h
  split at h
  · simp at h
  · rename_i e' he
    simp only [Option.some.injEq, Except.error.injEq] at h
    exact Or.inl (by rw [he, h])
  · rename_i a ds' he
    exact Or.inr ⟨a, ds', he, h⟩

/-- The loop of program corruption raises nothing. -/
theorem cpLoop_no_error {maxA len mn : Nat} (hm : 1 ≤ maxA) : ∀ (fuel n : Nat) (cur : Program) (ds : Draws) (e : Err),
    cpLoop maxA len mn fuel n cur ds ≠ some (.error e) := by
  intro fuel
  induction fuel with
  | zero =>
    intro n cur ds e
    cases n with
    | zero => simp [cpLoop, pure, Rnd.ret]
    | succ n => simp [cpLoop]
  | succ fuel ih =>
    intro n cur ds e
    cases n with
    | zero => simp [cpLoop, pure, Rnd.ret]
    | succ n =>
      intro h
      have hr : ∀ lo hi ds e', lo ≤ hi → randint lo hi ds ≠ some (.error e') := by
        intro lo hi ds e' hl he
        simp only [randint] at he
        rw [if_neg (by omega)] at he
        cases ds <;> simp at he
      unfold cpLoop at h
      rcases rnd_bind_err h with h | ⟨x, ds1, _, h⟩
      · exact hr _ _ _ _ (Nat.zero_le _) h
      · dsimp only at h
        rcases hc : dictGet cur (x * 4 + mn) with _ | (_ | ⟨c, _ | ⟨_, _⟩⟩)
        · rw [hc] at h; exact ih _ _ _ _ h
        · rw [hc] at h; exact ih _ _ _ _ h
        · rw [hc] at h
          dsimp only at h
          rcases rnd_bind_err h with h | ⟨a, ds2, _, h⟩
          · exact hr _ _ _ _ hm h
          · rcases rnd_bind_err h with h | ⟨rs, ds3, _, h⟩
            · exact (C19_no_error 31 0 a c.encoding ds2).1 (by omega) _ h
            · exact ih _ _ _ _ h
        · rw [hc] at h; exact ih _ _ _ _ h

/-- **C23 is false of the code**: no percentage is ever rejected; a negative one
corrupts one instruction, and one that asks for more addresses than there are never
returns, whatever the draws. -/
theorem C23_refuted :
    (∀ (prog : Program) (percent prod : Rat) (maxAmount : Int) (ds : Draws) (e : Err),
      corruptProgram prog percent prod maxAmount ds ≠ some (.error e)) ∧
    (corruptProgram [(100, [⟨7, 100⟩])] (-5) (-1 / 20) 1 [0, 0, 0] =
      some (.ok ([(100, [⟨7, 100⟩, ⟨6, 100⟩])], []))) ∧
    (∀ (prog : Program) (percent prod : Rat) (maxAmount : Int) (ds : Draws) (r : Program × Draws),
      (prog.map (·.1)).Nodup → (prog.length : Rat) < prod →
      corruptProgram prog percent prod maxAmount ds ≠ some (.ok r)) := by
  refine ⟨?_, by decide +kernel, ?_⟩
  · intro prog p prod maxAmount ds e
    have : badPercent p = false := by
      unfold badPercent
      rw [Bool.and_eq_false_iff]
      by_cases h : 0 > p
      · right
        rw [decide_eq_false_iff_not]
        intro h2
        have : (0 : Rat) > 100 := lt_trans h2 h
        revert this; decide
      · left; simpa using h
    unfold corruptProgram
    rw [this, if_neg (by simp)]
    exact cpLoop_no_error (by omega) _ _ _ _ _
  · intro prog percent prod maxAmount ds r hk hp h
    obtain ⟨_, _, hc⟩ := C22_corrupt_program prog hk percent prod maxAmount ds r.1 r.2 h
    have hle := List.countP_le_length (p := fun a => decide (dictGet r.1 a ≠ dictGet prog a))
      (l := prog.map (·.1))
    rw [hc, List.length_map] at hle
    have h1 : prod ≤ (((max 1 prod).ceil : Int) : Rat) :=
      le_trans (le_max_right 1 prod) Rat.le_ceil
    have h2 : ((max 1 prod).ceil : Int) ≤ prog.length := by
      have := Int.self_le_toNat (max 1 prod).ceil
      omega
    have h3 : (((max 1 prod).ceil : Int) : Rat) ≤ prog.length := by exact_mod_cast h2
    exact absurd (lt_of_lt_of_le hp h1) (not_lt.2 h3)

end Verif
