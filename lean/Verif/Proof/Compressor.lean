import Verif.Model.Compressor
import Verif.Proof.SolutionIO

/-! # Lemmas about the bit compressors -/

namespace Verif

theorem byteOf_testBit (b : Nat → Bool) (j : Nat) (hj : j < 8) :
    (byteOf (b 0) (b 1) (b 2) (b 3) (b 4) (b 5) (b 6) (b 7)).toNat.testBit j = b (7 - j) := by
  have key : ∀ b0 b1 b2 b3 b4 b5 b6 b7 : Bool,
      (byteOf b0 b1 b2 b3 b4 b5 b6 b7).toNat.testBit 0 = b7 ∧
      (byteOf b0 b1 b2 b3 b4 b5 b6 b7).toNat.testBit 1 = b6 ∧
      (byteOf b0 b1 b2 b3 b4 b5 b6 b7).toNat.testBit 2 = b5 ∧
      (byteOf b0 b1 b2 b3 b4 b5 b6 b7).toNat.testBit 3 = b4 ∧
      (byteOf b0 b1 b2 b3 b4 b5 b6 b7).toNat.testBit 4 = b3 ∧
      (byteOf b0 b1 b2 b3 b4 b5 b6 b7).toNat.testBit 5 = b2 ∧
      (byteOf b0 b1 b2 b3 b4 b5 b6 b7).toNat.testBit 6 = b1 ∧
      (byteOf b0 b1 b2 b3 b4 b5 b6 b7).toNat.testBit 7 = b0 := by decide +kernel
  obtain ⟨h0, h1, h2, h3, h4, h5, h6, h7⟩ := key (b 0) (b 1) (b 2) (b 3) (b 4) (b 5) (b 6) (b 7)
  have : j = 0 ∨ j = 1 ∨ j = 2 ∨ j = 3 ∨ j = 4 ∨ j = 5 ∨ j = 6 ∨ j = 7 := by omega
  rcases this with rfl | rfl | rfl | rfl | rfl | rfl | rfl | rfl
  · exact h0
  · exact h1
  · exact h2
  · exact h3
  · exact h4
  · exact h5
  · exact h6
  · exact h7

theorem bytesOfBits_length (a : List Bool) : (bytesOfBits a).length = (a.length + 7) / 8 := by
  simp [bytesOfBits]

theorem bytesOfBits_testBit (a : List Bool) (i j : Nat) (hi : i < (a.length + 7) / 8) (hj : j < 8) :
    ∃ b, (bytesOfBits a)[i]? = some b ∧ b.toNat.testBit j = (a[8 * i + (7 - j)]?).getD false := by
  refine ⟨_, ?_, byteOf_testBit (fun j => (a[8 * i + j]?).getD false) j hj⟩
  simp only [bytesOfBits, List.getElem?_map]
  rw [List.getElem?_range hi]
  rfl

/-- Indexing a list of pieces of equal length. -/
theorem getElem?_flatMap_const {α β : Type} (f : α → List β) (n : Nat) (hn : 0 < n)
    (hf : ∀ a, (f a).length = n) (l : List α) (i j : Nat) (hj : j < n) :
    (l.flatMap f)[n * i + j]? = l[i]?.bind fun a => (f a)[j]? := by
  induction l generalizing i with
  | nil => simp
  | cons a l ih =>
    rw [List.flatMap_cons]
    cases i with
    | zero =>
      rw [Nat.mul_zero, Nat.zero_add, List.getElem?_append_left (by rw [hf]; exact hj)]
      rfl
    | succ i =>
      rw [List.getElem?_append_right (by rw [hf, Nat.mul_add, Nat.mul_one]; omega), hf,
        show n * (i + 1) + j - n = n * i + j by rw [Nat.mul_add, Nat.mul_one]; omega, ih]
      rfl

theorem length_flatMap_const {α β : Type} (f : α → List β) (n : Nat) (hf : ∀ a, (f a).length = n)
    (l : List α) : (l.flatMap f).length = n * l.length := by
  induction l with
  | nil => rfl
  | cons a l ih => rw [List.flatMap_cons, List.length_append, hf, ih, List.length_cons, Nat.mul_add]; omega

theorem bitsOfBytes_length (bs : Bytes) : (bitsOfBytes bs).length = 8 * bs.length :=
  length_flatMap_const _ 8 (fun _ => by simp) bs

theorem bitsOfBytes_getElem? (bs : Bytes) (i j : Nat) (hj : j < 8) :
    (bitsOfBytes bs)[8 * i + j]? = bs[i]?.map fun b => b.toNat.testBit (7 - j) := by
  unfold bitsOfBytes
  rw [getElem?_flatMap_const _ 8 (by omega) (fun _ => by simp) bs i j hj]
  cases bs[i]? with
  | none => rfl
  | some b => simp [List.getElem?_range hj]

theorem leBytes_length' (k n : Nat) : (leBytes k n).length = k := by
  induction k generalizing n with
  | zero => rfl
  | succ k ih => simp [leBytes, ih]

theorem leBytes_testBit (k n c j : Nat) (hc : c < k) (hj : j < 8) :
    ∃ b, (leBytes k n)[c]? = some b ∧ b.toNat.testBit j = n.testBit (8 * c + j) := by
  induction k generalizing n c with
  | zero => omega
  | succ k ih =>
    cases c with
    | zero =>
      refine ⟨UInt8.ofNat (n % 256), rfl, ?_⟩
      rw [UInt8.toNat_ofNat', Nat.mul_zero, Nat.zero_add, show (2 : Nat) ^ 8 = 256 from rfl, Nat.mod_mod,
        show (256 : Nat) = 2 ^ 8 from rfl, Nat.testBit_mod_two_pow]
      simp [hj]
    | succ c =>
      obtain ⟨b, h1, h2⟩ := ih (n / 256) c (by omega)
      refine ⟨b, h1, ?_⟩
      rw [h2, show (256 : Nat) = 2 ^ 8 from rfl, Nat.testBit_div_two_pow]
      congr 1
      omega

/-- The bits handed to the compressors. -/
theorem pack_bit (data : List Int) (buf : Bytes) (h : packWords data = .ok buf) :
    buf.length = 4 * data.length ∧
    ∀ (w c t : Nat) (x : Int), data[w]? = some x → c < 4 → t < 8 →
      (bitsOfBytes buf)[8 * (4 * w + c) + t]? = some (x.toNat.testBit (8 * c + (7 - t))) := by
  unfold packWords at h
  split at h
  · cases h
    refine ⟨length_flatMap_const _ 4 (fun _ => leBytes_length' 4 _) data, ?_⟩
    intro w c t x hx hc ht
    rw [bitsOfBytes_getElem? _ _ _ ht,
      getElem?_flatMap_const _ 4 (by omega) (fun _ => leBytes_length' 4 _) data w c hc, hx]
    obtain ⟨b, h1, h2⟩ := leBytes_testBit 4 x.toNat c (7 - t) hc (by omega)
    simp only [Option.bind_some, h1, Option.map_some, h2]
  · cases h

theorem packWords_ok (data : List Int) (h : ∀ x ∈ data, 0 ≤ x ∧ x < 2 ^ 32) :
    packWords data = .ok (data.flatMap fun x => leBytes 4 x.toNat) := by
  unfold packWords
  rw [if_pos]
  rw [List.all_eq_true]
  intro x hx
  exact decide_eq_true (h x hx)

/-! ### Swapping -/

theorem swapTurn_eq (shift : Nat) (hs : 0 < shift) (a : List Bool) (r : ErrT) :
    swapTurn shift a r = if r.2.2.isSome then a else a.set (posOf r) false := by
  unfold swapTurn
  split
  · rfl
  split
  · next h => rw [List.set_eq_of_length_le h]
  · have : ∀ n, (List.range (n + 1)).foldl (fun (a : List Bool) _ => a.set (posOf r) false) a
        = a.set (posOf r) false := by
      intro n
      induction n with
      | zero => rfl
      | succ n ih => rw [List.range_succ, List.foldl_append, ih]; simp
    obtain ⟨n, rfl⟩ : ∃ n, shift = n + 1 := ⟨shift - 1, by omega⟩
    exact this n

/-- Some untagged entry of the list is at array position `q`. -/
def Listed (l : List ErrT) (q : Nat) : Prop := ∃ r ∈ l, r.2.2 = none ∧ posOf r = q

instance (l : List ErrT) (q : Nat) : Decidable (Listed l q) :=
  inferInstanceAs (Decidable (∃ r ∈ l, _))

theorem swap_loop (shift : Nat) (hs : 0 < shift) (l : List ErrT) : ∀ a : List Bool,
    (l.foldl (swapTurn shift) a).length = a.length ∧
    ∀ q, (l.foldl (swapTurn shift) a)[q]? = a[q]?.map fun b => b && !decide (Listed l q) := by
  induction l with
  | nil =>
    intro a
    refine ⟨rfl, fun q => ?_⟩
    simp [Listed]
  | cons r l ih =>
    intro a
    rw [List.foldl_cons]
    obtain ⟨h1, h2⟩ := ih (swapTurn shift a r)
    have hlen : (swapTurn shift a r).length = a.length := by
      rw [swapTurn_eq shift hs]; split <;> simp
    refine ⟨h1.trans hlen, fun q => ?_⟩
    rw [h2, swapTurn_eq shift hs]
    have hL : Listed (r :: l) q ↔ (r.2.2 = none ∧ posOf r = q) ∨ Listed l q := by
      simp [Listed]
    by_cases hr : r.2.2.isSome
    · rw [if_pos hr]
      have : Listed (r :: l) q ↔ Listed l q := by
        rw [hL]
        constructor
        · rintro (⟨h, _⟩ | h)
          · rw [h] at hr; cases hr
          · exact h
        · exact Or.inr
      simp only [this]
    · rw [if_neg hr, List.getElem?_set]
      have hr' : r.2.2 = none := by
        cases h : r.2.2 with
        | none => rfl
        | some x => rw [h] at hr; exact absurd rfl hr
      by_cases hq : posOf r = q
      · rw [if_pos hq]
        have : Listed (r :: l) q := hL.2 (Or.inl ⟨hr', hq⟩)
        simp only [this, decide_true, Bool.not_true, Bool.and_false]
        split
        · next hlt =>
          rw [List.getElem?_eq_getElem (by omega : q < a.length)]
          rfl
        · next hlt =>
          rw [List.getElem?_eq_none (by omega)]
          rfl
      · rw [if_neg hq]
        have : Listed (r :: l) q ↔ Listed l q := by
          rw [hL]
          constructor
          · rintro (⟨_, h⟩ | h)
            · exact absurd h hq
            · exact h
          · exact Or.inr
        simp only [this]

/-! ### Shifting -/

/-- The elements whose index satisfies `p`. -/
def keepIdx (l : List Bool) (off : Nat) (p : Nat → Bool) : List Bool :=
  match l with
  | [] => []
  | x :: t => if p off then x :: keepIdx t (off + 1) p else keepIdx t (off + 1) p

theorem keepIdx_append (l m : List Bool) (off : Nat) (p : Nat → Bool) :
    keepIdx (l ++ m) off p = keepIdx l off p ++ keepIdx m (off + l.length) p := by
  induction l generalizing off with
  | nil => rfl
  | cons x t ih =>
    simp only [List.cons_append, keepIdx, ih, List.length_cons,
      show off + 1 + t.length = off + (t.length + 1) by omega]
    split <;> rfl

theorem keepIdx_congr (l : List Bool) (off : Nat) (p q : Nat → Bool)
    (h : ∀ i, off ≤ i → i < off + l.length → p i = q i) : keepIdx l off p = keepIdx l off q := by
  induction l generalizing off with
  | nil => rfl
  | cons x t ih =>
    simp only [keepIdx]
    rw [h off (le_refl _) (by simp), ih (off + 1) fun i h1 h2 => h i (by omega) (by simp; omega)]

theorem keepIdx_true (l : List Bool) (off : Nat) : keepIdx l off (fun _ => true) = l := by
  induction l generalizing off with
  | nil => rfl
  | cons x t ih => simp [keepIdx, ih]

theorem keepIdx_false (l : List Bool) (off : Nat) : keepIdx l off (fun _ => false) = [] := by
  induction l generalizing off with
  | nil => rfl
  | cons x t ih => simp [keepIdx, ih]

/-- Whether an index lies in none of the groups. -/
def outside (ks : List Nat) (s q : Nat) : Bool := ks.all fun k => !decide (k ≤ q ∧ q < k + s)

theorem delSlice_all (s : Nat) (ks : List Nat) (h : ks.Pairwise fun a b => a + s ≤ b) (a : List Bool) :
    ks.foldr (fun k a => delSlice a k s) a = keepIdx a 0 (outside ks s) := by
  induction ks with
  | nil => exact (keepIdx_true a 0).symm
  | cons k ks ih =>
    rw [List.pairwise_cons] at h
    rw [List.foldr_cons, ih h.2]
    by_cases hk : k + s ≤ a.length
    · -- split into three parts
      have hsplit : a = a.take k ++ ((a.drop k).take s ++ a.drop (k + s)) := by
        rw [show a.drop (k + s) = (a.drop k).drop s by rw [List.drop_drop], List.take_append_drop,
          List.take_append_drop]
      have l1 : (a.take k).length = k := by rw [List.length_take]; omega
      have l2 : ((a.drop k).take s).length = s := by rw [List.length_take, List.length_drop]; omega
      generalize hA : a.take k = A at *
      generalize hB : (a.drop k).take s = B at *
      generalize hC : a.drop (k + s) = C at *
      rw [hsplit, keepIdx_append, keepIdx_append, keepIdx_append, keepIdx_append, l1, l2, Nat.zero_add]
      have e1 : keepIdx A 0 (outside ks s) = A := by
        rw [keepIdx_congr A 0 (outside ks s) (fun _ => true), keepIdx_true]
        intro i _ hi
        rw [outside, List.all_eq_true]
        intro k' hk'
        have := h.1 k' hk'
        simp; omega
      have e1' : keepIdx A 0 (outside (k :: ks) s) = A := by
        rw [keepIdx_congr A 0 (outside (k :: ks) s) (fun _ => true), keepIdx_true]
        intro i _ hi
        rw [outside, List.all_eq_true]
        intro k' hk'
        rcases List.mem_cons.1 hk' with rfl | hk'
        · simp; omega
        · have := h.1 k' hk'
          simp; omega
      have e2 : keepIdx B k (outside ks s) = B := by
        rw [keepIdx_congr B k (outside ks s) (fun _ => true), keepIdx_true]
        intro i _ hi
        rw [outside, List.all_eq_true]
        intro k' hk'
        have := h.1 k' hk'
        simp; omega
      have e2' : keepIdx B k (outside (k :: ks) s) = [] := by
        rw [keepIdx_congr B k (outside (k :: ks) s) (fun _ => false), keepIdx_false]
        intro i h1 hi
        rw [outside, List.all_cons]
        have : decide (k ≤ i ∧ i < k + s) = true := decide_eq_true ⟨h1, by omega⟩
        rw [this]
        rfl
      have e3 : keepIdx C (k + s) (outside (k :: ks) s) = keepIdx C (k + s) (outside ks s) := by
        apply keepIdx_congr
        intro i h1 _
        rw [outside, List.all_cons, show decide (k ≤ i ∧ i < k + s) = false from decide_eq_false (by omega)]
        rfl
      rw [e1, e1', e2, e2', e3]
      unfold delSlice
      rw [List.take_append_of_le_length (by omega), ← l1, List.take_length, List.nil_append]
      congr 1
      rw [← List.drop_drop, List.drop_left, ← l2, List.drop_left]
    · have e0 : keepIdx a 0 (outside ks s) = a := by
        rw [keepIdx_congr a 0 (outside ks s) (fun _ => true), keepIdx_true]
        intro i _ hi
        rw [outside, List.all_eq_true]
        intro k' hk'
        have := h.1 k' hk'
        simp; omega
      rw [e0]
      unfold delSlice
      rw [List.drop_eq_nil_of_le (by omega : a.length ≤ k + s), List.append_nil]
      by_cases hk2 : a.length ≤ k
      · rw [List.take_of_length_le hk2]
        symm
        rw [keepIdx_congr a 0 (outside (k :: ks) s) (fun _ => true), keepIdx_true]
        intro i _ hi
        rw [outside, List.all_eq_true]
        intro k' hk'
        rcases List.mem_cons.1 hk' with rfl | hk'
        · simp; omega
        · have := h.1 k' hk'
          simp; omega
      · conv_rhs => rw [← List.take_append_drop k a]
        have l1 : (a.take k).length = k := by rw [List.length_take]; omega
        rw [keepIdx_append, l1, Nat.zero_add]
        have e1' : keepIdx (a.take k) 0 (outside (k :: ks) s) = a.take k := by
          rw [keepIdx_congr _ 0 (outside (k :: ks) s) (fun _ => true), keepIdx_true]
          intro i _ hi
          rw [outside, List.all_eq_true]
          intro k' hk'
          rcases List.mem_cons.1 hk' with rfl | hk'
          · simp; omega
          · have := h.1 k' hk'
            simp; omega
        have e2' : keepIdx (a.drop k) k (outside (k :: ks) s) = [] := by
          rw [keepIdx_congr _ k (outside (k :: ks) s) (fun _ => false), keepIdx_false]
          intro i h1 hi
          rw [List.length_drop] at hi
          rw [outside, List.all_cons]
          have : decide (k ≤ i ∧ i < k + s) = true := decide_eq_true ⟨h1, by omega⟩
          rw [this]
          rfl
        rw [e1', e2', List.append_nil]

end Verif
