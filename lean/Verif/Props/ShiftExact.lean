import Verif.Props.Compressor

/-! # C72: what shift compression removes when the listed groups overlap -/

namespace Verif

/-- Whether the bit at `q` goes, when groups of `n` bits start at `starts`: for some place `a`
not after it, the groups that start from `a` to `q` ask for more bits than lie from `a` up to
`q`.  Groups that overlap thereby take as many bits as they would apart, the bits that follow
them in place of those they share. -/
def Spec.Taken (n : Nat) (starts : List Nat) (q : Nat) : Prop :=
  ∃ a, a ≤ q ∧ q - a < n * starts.countP fun p => decide (a ≤ p ∧ p ≤ q)

open Classical in
/-- The bits that are not taken. -/
noncomputable def Spec.notTaken (n : Nat) (starts : List Nat) (q : Nat) : Bool :=
  !decide (Spec.Taken n starts q)

/-- Walking along the bits from number `i` with `c` bits still to be taken. -/
def walkTake (n : Nat) (ps : List Nat) : List Bool → Nat → Nat → List Bool
  | [], _, _ => []
  | x :: t, i, c =>
      if c + n * ps.count i = 0 then x :: walkTake n ps t (i + 1) 0
      else walkTake n ps t (i + 1) (c + n * ps.count i - 1)

theorem walkTake_drop (n k : Nat) (ps : List Nat) : ∀ (l : List Bool) (i c : Nat),
    walkTake n ps l i (c + k) = (walkTake n ps l i c).drop k := by
  intro l
  induction l generalizing k with
  | nil => intro i c; simp [walkTake]
  | cons x t ih =>
    intro i c
    by_cases hk : k = 0
    · subst hk; simp
    rw [walkTake, walkTake, if_neg (by omega)]
    by_cases h : c + n * ps.count i = 0
    · rw [if_pos h, show c + k + n * ps.count i - 1 = 0 + (k - 1) by omega, ih]
      obtain ⟨k', rfl⟩ : ∃ k', k = k' + 1 := ⟨k - 1, by omega⟩
      rfl
    · rw [if_neg h, ← ih]
      congr 1
      omega

/-- Before the first group nothing is taken. -/
theorem walkTake_before (n p : Nat) (ps : List Nat) (hp : ∀ x ∈ ps, p ≤ x) : ∀ (l : List Bool) (i : Nat), i ≤ p →
    walkTake n ps l i 0 = l.take (p - i) ++ walkTake n ps (l.drop (p - i)) p 0 := by
  intro l
  induction l with
  | nil => intro i _; simp [walkTake]
  | cons x t ih =>
    intro i hi
    by_cases h : i = p
    · subst h; simp
    · have hc : ps.count i = 0 := List.count_eq_zero.2 fun hm => by have := hp i hm; omega
      rw [walkTake, hc, if_pos (by omega), ih (i + 1) (by omega),
        show p - i = (p - (i + 1)) + 1 by omega]
      rfl

theorem walkTake_more (n p : Nat) (ps : List Nat) : ∀ (l : List Bool) (i c : Nat), p < i →
    walkTake n (p :: ps) l i c = walkTake n ps l i c := by
  intro l
  induction l with
  | nil => intro i c _; rfl
  | cons x t ih =>
    intro i c hi
    rw [walkTake, walkTake, List.count_cons_of_ne (by omega), ih _ _ (by omega), ih _ _ (by omega)]

theorem walkTake_cons (n p : Nat) (ps : List Nat) (l : List Bool) (c : Nat) :
    walkTake n (p :: ps) l p c = walkTake n ps l p (c + n) := by
  cases l with
  | nil => rfl
  | cons x t =>
    rw [walkTake, walkTake, List.count_cons_self, walkTake_more _ _ _ _ _ _ (by omega),
      walkTake_more _ _ _ _ _ _ (by omega),
      show c + n * (ps.count p + 1) = c + n + n * ps.count p by rw [Nat.mul_add]; omega]

/-- The deletions from the highest position down are one walk. -/
theorem delSlices_walk (n : Nat) (ps : List Nat) (hs : ps.Pairwise (· ≤ ·)) (l : List Bool) :
    ps.foldr (fun p a => delSlice a p n) l = walkTake n ps l 0 0 := by
  induction ps with
  | nil =>
    have : ∀ (l : List Bool) (i : Nat), walkTake n [] l i 0 = l := by
      intro l
      induction l with
      | nil => intro i; rfl
      | cons x t ih => intro i; rw [walkTake]; simp [ih]
    exact (this l 0).symm
  | cons p ps ih =>
    obtain ⟨h1, h2⟩ := List.pairwise_cons.1 hs
    rw [List.foldr_cons, ih h2, walkTake_before n p (p :: ps) (by simpa using h1) l 0 (by omega),
      walkTake_cons, walkTake_drop]
    rw [walkTake_before n p ps h1 l 0 (by omega)]
    unfold delSlice
    simp only [Nat.sub_zero]
    by_cases hl : p ≤ l.length
    · rw [List.take_append_of_le_length (by simp [hl]), List.take_take, Nat.min_self,
        List.drop_append, List.length_take, Nat.min_eq_left hl, Nat.add_sub_cancel_left,
        List.drop_eq_nil_of_le (as := l.take p) (by simp), List.nil_append]
    · rw [List.drop_eq_nil_of_le (as := l) (i := p) (by omega)]
      simp only [walkTake, List.append_nil, List.drop_nil]
      rw [List.take_take, Nat.min_self, List.drop_eq_nil_of_le (as := l.take p) (by simp),
        List.append_nil]

theorem countP_from (ps : List Nat) (i q : Nat) (h : i ≤ q) :
    ps.countP (fun p => decide (i ≤ p ∧ p ≤ q)) = ps.count i + ps.countP fun p => decide (i + 1 ≤ p ∧ p ≤ q) := by
  induction ps with
  | nil => rfl
  | cons x t ih =>
    rw [List.countP_cons, List.countP_cons, List.count_cons, ih]
    by_cases hx : x = i
    · subst hx; simp [h]; omega
    · have e : decide (i ≤ x ∧ x ≤ q) = decide (i + 1 ≤ x ∧ x ≤ q) := by
        rw [decide_eq_decide]; omega
      rw [e]
      simp only [beq_iff_eq, if_neg hx]
      omega

/-- Taken on a walk that has come to `i` with `c` bits still to be taken. -/
def TakenFrom (n : Nat) (ps : List Nat) (i c q : Nat) : Prop :=
  q - i < c + n * ps.countP (fun p => decide (i ≤ p ∧ p ≤ q)) ∨
    ∃ a, i ≤ a ∧ a ≤ q ∧ q - a < n * ps.countP fun p => decide (a ≤ p ∧ p ≤ q)

theorem takenFrom_step (n : Nat) (ps : List Nat) (i c q : Nat) (h : i + 1 ≤ q) :
    TakenFrom n ps i c q ↔ TakenFrom n ps (i + 1) (c + n * ps.count i - 1) q := by
  unfold TakenFrom
  rw [countP_from ps i q (by omega), Nat.mul_add]
  constructor
  · rintro (h1 | ⟨a, h1, h2, h3⟩)
    · left; omega
    · by_cases ha : a = i
      · subst ha
        rw [countP_from ps a q h2, Nat.mul_add] at h3
        left; omega
      · exact Or.inr ⟨a, by omega, h2, h3⟩
  · rintro (h1 | ⟨a, h1, h2, h3⟩)
    · by_cases hc : c + n * ps.count i = 0
      · right
        exact ⟨i + 1, by omega, h, by omega⟩
      · left; omega
    · exact Or.inr ⟨a, by omega, h2, h3⟩

theorem takenFrom_self (n : Nat) (ps : List Nat) (i c : Nat) :
    TakenFrom n ps i c i ↔ c + n * ps.count i ≠ 0 := by
  unfold TakenFrom
  have h1 : ps.countP (fun p => decide (i ≤ p ∧ p ≤ i)) = ps.count i := by
    rw [countP_from ps i i (le_refl _)]
    have : ps.countP (fun p => decide (i + 1 ≤ p ∧ p ≤ i)) = 0 := by
      rw [List.countP_eq_zero]
      intro p _
      simp
      omega
    omega
  rw [h1]
  constructor
  · rintro (h | ⟨a, h2, h3, h⟩)
    · omega
    · have : a = i := by omega
      subst this
      rw [h1] at h
      omega
  · intro h
    left; omega

open Classical in
theorem walkTake_keepIdx (n : Nat) (ps : List Nat) : ∀ (l : List Bool) (i c : Nat),
    walkTake n ps l i c = keepIdx l i fun q => !decide (TakenFrom n ps i c q) := by
  intro l
  induction l with
  | nil => intro i c; rfl
  | cons x t ih =>
    intro i c
    have hcong : ∀ (t : List Bool) (j : Nat) (f g : Nat → Bool), (∀ q, j ≤ q → f q = g q) →
        keepIdx t j f = keepIdx t j g := by
      intro t
      induction t with
      | nil => intro j f g _; rfl
      | cons y t ih =>
        intro j f g h
        rw [keepIdx, keepIdx, h j (le_refl _), ih (j + 1) f g fun q hq => h q (by omega)]
    have htail : ∀ c', c' = c + n * ps.count i - 1 → walkTake n ps t (i + 1) c' =
        keepIdx t (i + 1) fun q => !decide (TakenFrom n ps i c q) := by
      intro c' hc'
      subst hc'
      rw [ih]
      apply hcong
      intro q hq
      rw [decide_eq_decide.2 (takenFrom_step n ps i c q hq)]
    rw [walkTake, keepIdx]
    have hself := takenFrom_self n ps i c
    by_cases h : c + n * ps.count i = 0
    · rw [if_pos h, if_pos (by simpa using fun hh => hself.1 hh h), htail 0 (by omega)]
    · rw [if_neg h, if_neg (by simpa using hself.2 h), htail _ rfl]

open Classical in
theorem walkTake_eq (n : Nat) (ps : List Nat) (l : List Bool) :
    walkTake n ps l 0 0 = keepIdx l 0 (Spec.notTaken n ps) := by
  rw [walkTake_keepIdx]
  congr 1
  funext q
  unfold Spec.notTaken
  congr 1
  rw [decide_eq_decide]
  unfold TakenFrom Spec.Taken
  constructor
  · rintro (h | ⟨a, _, h⟩)
    · exact ⟨0, by omega, by omega⟩
    · exact ⟨a, h⟩
  · rintro ⟨a, h⟩
    exact Or.inr ⟨a, by omega, h⟩

/-- **C72, exactly**, overlapping groups included: the result is the bits that the listed
groups other than the first do not take, in order, filled with zeros to a whole byte. -/
theorem C72_exact (remove : List ErrT) (data : List Int) (shift : Nat)
    (hd : ∀ x ∈ data, 0 ≤ x ∧ x < 2 ^ 32) (hb : ∀ r ∈ remove, r.2.1 < 32) :
    ∃ (out : Bytes) (kept : List Bool) (rest : List ErrT),
      shiftCompress remove data shift = .ok out ∧
      Spec.WithoutLeast (fun r : ErrT => r.1 * 32 + r.2.1) remove rest ∧
      kept = Spec.atPositions (Spec.wordBits data)
        (Spec.notTaken shift (rest.map fun r => r.1 * 32 + r.2.1)) ∧
      out.length = (kept.length + 7) / 8 ∧
      ∀ i j, i < out.length → j < 8 →
        ∃ b, out[i]? = some b ∧ b.toNat.testBit j = (kept[8 * i + (7 - j)]?).getD false := by
  have inst1 : Std.Total (fun a b : ErrT => sortKey a ≤ sortKey b) := ⟨fun a b => le_total _ _⟩
  have inst2 : IsTrans ErrT (fun a b => sortKey a ≤ sortKey b) := ⟨fun a b c => le_trans⟩
  have hp := List.perm_insertionSort (fun a b : ErrT => sortKey a ≤ sortKey b) remove
  have hs := List.pairwise_insertionSort (fun a b : ErrT => sortKey a ≤ sortKey b) remove
  have hap : ((sortedRemove remove).map posOf).Pairwise (· ≤ ·) := by
    rw [List.pairwise_map]
    refine List.Pairwise.imp_of_mem ?_ hs
    intro a b ha hb' h1
    have k1 := hb a (hp.mem_iff.1 ha)
    have k2 := hb b (hp.mem_iff.1 hb')
    unfold sortKey at h1
    unfold posOf
    omega
  refine ⟨_, ((sortedRemove remove).drop 1).reverse.foldl (fun a r => delSlice a (posOf r) shift)
      (bitsOfBytes (data.flatMap fun x => leBytes 4 x.toNat)), (sortedRemove remove).drop 1,
    by unfold shiftCompress; rw [packWords_ok data hd]; rfl, ?_, ?_, ?_, ?_⟩
  · rcases insertionSort_least (fun r : ErrT => r.1 * 10000 + r.2.1) remove with h | ⟨a, x, b, hl, ha, hb', hp⟩
    · exact Or.inl h
    · refine Or.inr ⟨a, x, b, hl, ?_, ?_, hp⟩
      · intro y hy
        have h1 := ha y hy
        have h2 := hb x (by rw [hl]; simp)
        have h3 := hb y (by rw [hl]; simp [hy])
        dsimp only at h1 ⊢
        omega
      · intro y hy
        have h1 := hb' y hy
        have h2 := hb x (by rw [hl]; simp)
        have h3 := hb y (by rw [hl]; simp [hy])
        dsimp only at h1 ⊢
        omega
  · rw [List.foldl_reverse]
    have := delSlices_walk shift (((sortedRemove remove).drop 1).map posOf)
      (hap.sublist ((List.drop_sublist 1 _).map posOf))
      (bitsOfBytes (data.flatMap fun x => leBytes 4 x.toNat))
    rw [List.foldr_map] at this
    rw [this, walkTake_eq, keepIdx_eq, bits_of_words data]
    rfl
  · exact bytesOfBits_length _
  · intro i j hi hj
    rw [bytesOfBits_length] at hi
    exact bytesOfBits_testBit _ i j hi hj

/-- Groups of four bits at 8 and at 10 (and one at 0, which stays): eight bits go, from 8 to
15, although the groups cover six only. -/
theorem C72_overlap_case :
    shiftCompress [(0, 0, none), (0, 8, none), (0, 10, none)] [0x00FF03AA] 4 = .ok [0xAA, 0xFF, 0] ∧
    Spec.Taken 4 [8, 10] 15 ∧ ¬ Spec.Taken 4 [8, 10] 16 := by
  refine ⟨by decide +kernel, ⟨8, by omega, by decide⟩, ?_⟩
  rintro ⟨a, h1, h2⟩
  have : ∀ a : Nat, a ≤ 16 → ¬ 16 - a < 4 * [8, 10].countP fun p => decide (a ≤ p ∧ p ≤ 16) := by decide
  exact this a h1 h2

end Verif
