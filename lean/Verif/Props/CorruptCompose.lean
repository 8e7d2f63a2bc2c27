import Batteries.Data.Nat.Bitwise
import Verif.Props.Corruption

/-!
# C142: corrupting what is corrupted already
-/

namespace Verif

open Spec

theorem agree_symm {A : Nat → Prop} {v w : Nat} (h : agreeOutside A v w) : agreeOutside A w v :=
  fun i hi => (h i hi).symm

theorem agree_trans {A B : Nat → Prop} {u v w : Nat} (h1 : agreeOutside A u v) (h2 : agreeOutside B v w) :
    agreeOutside (fun i => A i ∨ B i) u w :=
  fun i hi => (h1 i fun h => hi (.inl h)).trans (h2 i fun h => hi (.inr h))

theorem agree_between {A B : Nat → Prop} {u w : Nat} (h : agreeOutside (fun i => A i ∨ B i) u w) :
    ∃ v, agreeOutside A u v ∧ agreeOutside B v w := by
  classical
  obtain ⟨n, hu, hw⟩ : ∃ n, u < 2 ^ n ∧ w < 2 ^ n :=
    ⟨max u w, lt_of_lt_of_le Nat.lt_two_pow_self (Nat.pow_le_pow_right (by norm_num) (le_max_left _ _)),
      lt_of_lt_of_le Nat.lt_two_pow_self (Nat.pow_le_pow_right (by norm_num) (le_max_right _ _))⟩
  have hbig : ∀ x i, x < 2 ^ n → n ≤ i → x.testBit i = false := fun x i hx hi =>
    Nat.testBit_lt_two_pow (lt_of_lt_of_le hx (Nat.pow_le_pow_right (by norm_num) hi))
  refine ⟨Nat.ofBits fun i : Fin n => if A i then w.testBit i else u.testBit i, ?_, ?_⟩
  · intro i hi
    rcases lt_or_ge i n with hn | hn
    · rw [Nat.testBit_ofBits_lt _ _ hn, if_neg hi]
    · rw [Nat.testBit_ofBits_ge _ _ hn, hbig u i hu hn]
  · intro i hi
    rcases lt_or_ge i n with hn | hn
    · rw [Nat.testBit_ofBits_lt _ _ hn]
      split
      · rfl
      · rename_i hA
        exact h i (by tauto)
    · rw [Nat.testBit_ofBits_ge _ _ hn, hbig w i hw hn]

/-- The words that differ inside the ranges only. -/
def InRanges (ts : List (Nat × Nat)) (i : Nat) : Prop := ∃ t ∈ ts, t.1 ≤ i ∧ i < t.2

/-- **C142.**  The candidates do not tell which of them the instruction was: corrupting any
of them in the same range gives the same words, in another order. -/
theorem C142_any_candidate (lo hi inst w : Nat) (hw : w ∈ corruptAllBits lo hi inst) :
    (corruptAllBits lo hi w).Perm (corruptAllBits lo hi inst) := by
  obtain ⟨_, n1, _, m1⟩ := C17_all_bits lo hi inst
  obtain ⟨_, n2, _, m2⟩ := C17_all_bits lo hi w
  rw [List.perm_ext_iff_of_nodup n2 n1]
  intro v
  rw [m1] at hw
  rw [m1, m2]
  constructor
  · exact fun h i hi => (agree_trans hw h) i (by tauto)
  · exact fun h i hi => (agree_trans (agree_symm hw) h) i (by tauto)

/-- **C142.**  The same of several ranges: the same words; in another order when the ranges
are disjoint. -/
theorem C142_any_candidate_tuples (ts : List (Nat × Nat)) (h : ∀ t ∈ ts, t.1 ≤ t.2 ∧ t.2 ≤ 31) (inst w : Nat)
    {r : List Nat} (hr : corruptAllBitsTuples ts inst = .ok r) (hw : w ∈ r) :
    ∃ r', corruptAllBitsTuples ts w = .ok r' ∧ (∀ v, v ∈ r' ↔ v ∈ r) ∧ r'.length = r.length ∧ (r.Nodup → r'.Perm r) := by
  obtain ⟨q, q1, _, q3, q4, q5⟩ := (C18_all_bits_tuples ts inst).1 h
  obtain ⟨r', r1, _, r3, r4, r5⟩ := (C18_all_bits_tuples ts w).1 h
  rw [hr] at q1
  cases q1
  have hm : ∀ v, v ∈ r' ↔ v ∈ r := by
    intro v
    rw [q4] at hw
    rw [r4, q4]
    constructor
    · exact fun h i hi => (agree_trans hw h) i fun h => h.elim hi hi
    · exact fun h i hi => (agree_trans (agree_symm hw) h) i fun h => h.elim hi hi
  refine ⟨r', r1, hm, by rw [r3, q3], fun hn => ?_⟩
  rw [List.perm_ext_iff_of_nodup (r5.2 (q5.1 hn)) hn]
  exact hm

/-- **C142.**  A range corrupted in two parts, the second in every result of the first, is
the range corrupted at once. -/
theorem C142_split (lo mid hi inst : Nat) (h1 : lo ≤ mid) (h2 : mid ≤ hi) :
    ((corruptAllBits lo mid inst).flatMap (corruptAllBits mid hi)).Perm (corruptAllBits lo hi inst) := by
  obtain ⟨_, n1, _, m1⟩ := C17_all_bits lo hi inst
  obtain ⟨_, n2, _, m2⟩ := C17_all_bits lo mid inst
  rw [List.perm_ext_iff_of_nodup ?_ n1]
  · intro v
    rw [m1, List.mem_flatMap]
    constructor
    · rintro ⟨w, hw, hv⟩ i hi'
      rw [m2] at hw
      rw [(C17_all_bits mid hi w).2.2.2] at hv
      exact (agree_trans hw hv) i (by omega)
    · intro hv
      obtain ⟨w, a, b⟩ := agree_between (A := fun i => lo ≤ i ∧ i < mid) (B := fun i => mid ≤ i ∧ i < hi) (u := inst)
        (w := v) (fun i hi' => hv i (by omega))
      exact ⟨w, (m2 w).2 a, ((C17_all_bits mid hi w).2.2.2 v).2 b⟩
  · rw [List.nodup_flatMap]
    refine ⟨fun w _ => (C17_all_bits mid hi w).2.1, ?_⟩
    refine n2.imp_of_mem ?_
    intro a b ha hb hab v hva hvb
    rw [(C17_all_bits mid hi _).2.2.2] at hva hvb
    rw [m2] at ha hb
    apply hab
    apply Nat.eq_of_testBit_eq
    intro i
    by_cases hi' : lo ≤ i ∧ i < mid
    · rw [hva i (by omega), hvb i (by omega)]
    · rw [← ha i hi', ← hb i hi']

/-- **C142.**  Corrupting some ranges, and other ranges in every result, gives the words that
corrupting all of them at once gives; so the order of the two does not matter. -/
theorem C142_compose (ts us : List (Nat × Nat)) (ht : ∀ t ∈ ts, t.1 ≤ t.2 ∧ t.2 ≤ 31)
    (hu : ∀ t ∈ us, t.1 ≤ t.2 ∧ t.2 ≤ 31) (inst : Nat) :
    ∃ r q, corruptAllBitsTuples ts inst = .ok r ∧ corruptAllBitsTuples (ts ++ us) inst = .ok q ∧
      ∀ v, v ∈ q ↔ ∃ w ∈ r, ∃ r', corruptAllBitsTuples us w = .ok r' ∧ v ∈ r' := by
  obtain ⟨r, r1, _, _, r4, _⟩ := (C18_all_bits_tuples ts inst).1 ht
  obtain ⟨q, q1, _, _, q4, _⟩ := (C18_all_bits_tuples (ts ++ us) inst).1 (by
    intro t h
    rcases List.mem_append.1 h with h | h
    · exact ht t h
    · exact hu t h)
  refine ⟨r, q, r1, q1, ?_⟩
  intro v
  rw [q4]
  constructor
  · intro h
    obtain ⟨w, a, b⟩ := agree_between (A := InRanges ts) (B := InRanges us) (u := inst) (w := v) (fun i hi => h i (by
      rintro ⟨t, h1, h2⟩
      rcases List.mem_append.1 h1 with h1 | h1
      · exact hi (.inl ⟨t, h1, h2⟩)
      · exact hi (.inr ⟨t, h1, h2⟩)))
    obtain ⟨r', s1, _, _, s4, _⟩ := (C18_all_bits_tuples us w).1 hu
    exact ⟨w, (r4 w).2 a, r', s1, (s4 v).2 b⟩
  · rintro ⟨w, hw, r', s1, hv⟩ i hi
    obtain ⟨r'', s1', _, _, s4, _⟩ := (C18_all_bits_tuples us w).1 hu
    rw [s1] at s1'
    cases s1'
    refine (agree_trans ((r4 w).1 hw) ((s4 v).1 hv)) i ?_
    rintro (⟨t, h1, h2⟩ | ⟨t, h1, h2⟩)
    · exact hi ⟨t, List.mem_append_left _ h1, h2⟩
    · exact hi ⟨t, List.mem_append_right _ h1, h2⟩

/-- **C142.**  The order of the ranges does not matter, except to the order of the words;
and more ranges never lose a word. -/
theorem C142_order (ts us : List (Nat × Nat)) (h : ts.Perm us) (ht : ∀ t ∈ ts, t.1 ≤ t.2 ∧ t.2 ≤ 31) (inst : Nat) :
    ∃ r q, corruptAllBitsTuples ts inst = .ok r ∧ corruptAllBitsTuples us inst = .ok q ∧
      (∀ v, v ∈ r ↔ v ∈ q) ∧ r.length = q.length ∧ (r.Nodup ↔ q.Nodup) ∧ r.head? = q.head? := by
  obtain ⟨r, r1, r2, r3, r4, r5⟩ := (C18_all_bits_tuples ts inst).1 ht
  obtain ⟨q, q1, q2, q3, q4, q5⟩ := (C18_all_bits_tuples us inst).1 fun t hu => ht t (h.mem_iff.2 hu)
  refine ⟨r, q, r1, q1, ?_, ?_, ?_, by rw [r2, q2]⟩
  · intro v
    rw [r4, q4]
    simp only [h.mem_iff]
  · rw [r3, q3, (h.map _).sum_eq]
  · rw [r5, q5]
    exact (h.flatMap_right _).nodup_iff

/-- **C142.**  More ranges never lose a word. -/
theorem C142_more (ts us : List (Nat × Nat)) (hsub : ∀ i, InRanges ts i → InRanges us i)
    (ht : ∀ t ∈ ts, t.1 ≤ t.2 ∧ t.2 ≤ 31) (hu : ∀ t ∈ us, t.1 ≤ t.2 ∧ t.2 ≤ 31) (inst : Nat) :
    ∃ r q, corruptAllBitsTuples ts inst = .ok r ∧ corruptAllBitsTuples us inst = .ok q ∧ ∀ v, v ∈ r → v ∈ q := by
  obtain ⟨r, r1, _, _, r4, _⟩ := (C18_all_bits_tuples ts inst).1 ht
  obtain ⟨q, q1, _, _, q4, _⟩ := (C18_all_bits_tuples us inst).1 hu
  refine ⟨r, q, r1, q1, fun v hv => (q4 v).2 fun i hi => (r4 v).1 hv i fun h => hi (hsub i h)⟩

/-- Three bits of a word; two bits and then the third; two ranges in either order, and from
another of the words. -/
theorem C142_case :
    corruptAllBits 1 4 8 = [8, 10, 12, 14, 0, 2, 4, 6] ∧
    (corruptAllBits 1 2 8).flatMap (corruptAllBits 2 4) = [8, 12, 0, 4, 10, 14, 2, 6] ∧
    corruptAllBits 1 4 6 = [6, 4, 2, 0, 14, 12, 10, 8] ∧
    corruptAllBitsTuples [(0, 1), (4, 5)] 2 = .ok [2, 3, 18, 19] ∧
    corruptAllBitsTuples [(4, 5), (0, 1)] 2 = .ok [2, 18, 3, 19] ∧
    corruptAllBitsTuples [(0, 1), (4, 5)] 19 = .ok [19, 18, 3, 2] := by decide +kernel

end Verif
