import Verif.Model.Neighbours
import Verif.Proof.Basic
import Mathlib.Algebra.Order.Field.Rat
import Mathlib.Algebra.BigOperators.Group.List.Lemmas
import Mathlib.Algebra.Order.BigOperators.Group.List
import Mathlib.Algebra.Order.Field.Basic
import Mathlib.Tactic.Ring
import Mathlib.Tactic.Positivity
import Mathlib.Tactic.Linarith

/-! # Properties C118 and C119: what the candidates at and near an address say -/

namespace Verif.Spec

/-- The scores that count: of the candidates that are not ignored, have a positive score and
answer the question. -/
def countedScores (l : List Asked) : List Rat :=
  (l.filter fun x => !x.ignored && decide (x.score > 0) && x.answer).map (·.score)

/-- Their mean, if there are any. -/
def meanScore (l : List Asked) : Option Rat :=
  if countedScores l = [] then none else some ((countedScores l).sum / (countedScores l).length)

/-- The distances from `a` towards `b`, without `b`. -/
def Towards (a b k : Int) : Prop := (a ≤ k ∧ k < b) ∨ (b < k ∧ k ≤ a)

end Verif.Spec

namespace Verif
open Spec

/-! ### C118: the share of a kind -/

theorem kindCount_eq (l : List Asked) : ∀ s : Nat × Nat,
    kindCount l s = (s.1 + l.countP (fun x => !x.ignored && x.answer), s.2 + l.countP fun x => !x.ignored) := by
  induction l with
  | nil => intro s; rfl
  | cons x l ih =>
    intro s
    rw [kindCount, List.countP_cons, List.countP_cons]
    rcases x with ⟨i, q, a⟩
    cases i <;> cases a <;> simp [ih] <;> omega

/-- **C118**: the share of the candidates of a kind among those that are not ignored; it is 0
when all are ignored, and asking for an address without candidates raises `KeyError`. -/
theorem C118_share (prog : List (Int × List Asked)) (addr : Int) :
    (∀ l, dictGet prog addr = some l →
      ∃ p, probOfA prog addr = .ok p ∧ 0 ≤ p ∧ p ≤ 1 ∧
        p * (l.countP fun x => !x.ignored) = (l.countP fun x => !x.ignored && x.answer) ∧
        (p = 0 ↔ ∀ x ∈ l, x.ignored = false → x.answer = false) ∧
        (p = 1 ↔ (∃ x ∈ l, x.ignored = false) ∧ ∀ x ∈ l, x.ignored = false → x.answer = true)) ∧
    (dictGet prog addr = none → probOfA prog addr = .error .key) := by
  refine ⟨?_, fun h => by rw [probOfA, h]⟩
  intro l hl
  have hle : l.countP (fun x => !x.ignored && x.answer) ≤ l.countP fun x => !x.ignored := by
    apply List.countP_mono_left
    intro x _ h
    rw [Bool.and_eq_true] at h
    exact h.1
  have h0 : l.countP (fun x => !x.ignored && x.answer) = 0 ↔ ∀ x ∈ l, x.ignored = false → x.answer = false := by
    rw [List.countP_eq_zero]
    constructor
    · intro h x hx hi
      have := h x hx
      simpa [hi] using this
    · intro h x hx
      cases hi : x.ignored
      · simp [h x hx hi]
      · simp
  have h1 : l.countP (fun x => !x.ignored && x.answer) = l.countP (fun x => !x.ignored) ↔
      ∀ x ∈ l, x.ignored = false → x.answer = true := by
    clear hl h0
    induction l with
    | nil => simp
    | cons x l ih =>
      have hle' : l.countP (fun x => !x.ignored && x.answer) ≤ l.countP fun x => !x.ignored := by
        apply List.countP_mono_left
        intro x _ h
        rw [Bool.and_eq_true] at h
        exact h.1
      rw [List.countP_cons, List.countP_cons]
      simp only [List.forall_mem_cons, ← ih hle']
      cases x.ignored <;> cases x.answer <;> simp <;> omega
  have hpos : 0 < l.countP (fun x => !x.ignored) ↔ ∃ x ∈ l, x.ignored = false := by
    rw [List.countP_pos_iff]
    simp
  by_cases ht : 0 < l.countP fun x => !x.ignored
  · have ht' : (0 : Rat) < (l.countP fun x => !x.ignored : Nat) := by exact_mod_cast ht
    refine ⟨((l.countP fun x => !x.ignored && x.answer : Nat) : Rat) / ((l.countP fun x => !x.ignored : Nat) : Rat),
      ?_, ?_, ?_, ?_, ?_, ?_⟩
    · rw [probOfA, hl]
      simp only [kindCount_eq, Nat.zero_add]
      rw [if_pos ht]
    · positivity
    · rw [div_le_one ht']
      exact_mod_cast hle
    · rw [div_mul_cancel₀ _ ht'.ne']
    · rw [div_eq_zero_iff, ← h0]
      constructor
      · rintro (h | h)
        · exact_mod_cast h
        · exact absurd h ht'.ne'
      · intro h
        left
        exact_mod_cast h
    · rw [div_eq_one_iff_eq ht'.ne', ← h1, ← hpos]
      constructor
      · intro h
        exact ⟨ht, by exact_mod_cast h⟩
      · rintro ⟨_, h⟩
        exact_mod_cast h
  · have hz : l.countP (fun x => !x.ignored) = 0 := by omega
    refine ⟨0, ?_, le_refl _, by norm_num, ?_, ?_, ?_⟩
    · rw [probOfA, hl]
      simp only [kindCount_eq, Nat.zero_add]
      rw [if_neg (by omega)]
    · rw [zero_mul]
      have : l.countP (fun x => !x.ignored && x.answer) = 0 := by omega
      exact_mod_cast this.symm
    · simp only [true_iff]
      exact h0.1 (by omega)
    · rw [← hpos]
      constructor
      · intro h; norm_num at h
      · rintro ⟨h, _⟩; omega

/-- Two candidates of three count and one of them is of the kind. -/
theorem C118_case : probOfA [(8, [⟨false, 1, true⟩, ⟨true, 1, true⟩, ⟨false, 0, false⟩])] 8 = .ok (1 / 2) := by
  decide +kernel

/-! ### C119: evidence from a range of neighbours -/

theorem unionOf_eq (l : List Asked) : ∀ s : Nat × Rat,
    unionOf l s = (s.1 + (countedScores l).length, s.2 + (countedScores l).sum) := by
  induction l with
  | nil => intro s; simp [unionOf, countedScores]
  | cons x l ih =>
    intro s
    rw [unionOf]
    unfold countedScores at ih ⊢
    rw [List.filter_cons]
    split
    · rw [ih]
      simp only [List.map_cons, List.length_cons, List.sum_cons, Prod.mk.injEq]
      exact ⟨by omega, by ring⟩
    · rw [ih]

theorem countedScores_pos (l : List Asked) : ∀ q ∈ countedScores l, 0 < q := by
  intro q hq
  obtain ⟨x, hx, rfl⟩ := List.mem_map.1 hq
  have := (List.mem_filter.1 hx).2
  simp only [Bool.and_eq_true, decide_eq_true_eq] at this
  exact this.1.2

theorem sum_pos_iff (l : List Rat) (h : ∀ q ∈ l, 0 < q) : 0 < l.sum ↔ l ≠ [] := by
  constructor
  · rintro h rfl; simp at h
  · intro hne
    induction l with
    | nil => exact absurd rfl hne
    | cons q l ih =>
      rw [List.sum_cons]
      have hq := h q (by simp)
      by_cases hl : l = []
      · subst hl; simpa using hq
      · have := ih (fun q hq => h q (by simp [hq])) hl
        linarith

theorem rangeProbs_eq (prog : List (Int × List Asked)) (addr a b : Int) :
    rangeProbs prog addr a b =
      (rangeEither a b).filterMap fun k => (dictGet prog (addr - 4 * k)).bind meanScore := by
  unfold rangeProbs
  have : ∀ (ks : List Int) (acc : List Rat), ks.foldl (fun ph k =>
      match dictGet prog (addr - 4 * k) with
      | none => ph
      | some l =>
          let s := unionOf l (0, 0)
          if s.2 > 0 then ph ++ [s.2 / s.1] else ph) acc =
      acc ++ ks.filterMap fun k => (dictGet prog (addr - 4 * k)).bind meanScore := by
    intro ks
    induction ks with
    | nil => intro acc; simp
    | cons k ks ih =>
      intro acc
      rw [List.foldl_cons, ih, List.filterMap_cons]
      cases hg : dictGet prog (addr - 4 * k) with
      | none => simp
      | some l =>
        simp only [unionOf_eq, zero_add, Option.bind_some, meanScore]
        by_cases he : countedScores l = []
        · simp [he]
        · rw [if_pos ((sum_pos_iff _ (countedScores_pos l)).2 he), if_neg he]
          simp
  exact (this _ []).trans (by simp)

theorem mem_rangeEither (a b k : Int) : k ∈ rangeEither a b ↔ Towards a b k := by
  unfold rangeEither Towards
  split
  · simp only [List.mem_map, List.mem_range]
    constructor
    · rintro ⟨n, hn, rfl⟩; omega
    · intro h; exact ⟨(a - k).toNat, by omega, by omega⟩
  · simp only [List.mem_map, List.mem_range]
    constructor
    · rintro ⟨n, hn, rfl⟩; omega
    · intro h; exact ⟨(k - a).toNat, by omega, by omega⟩

/-- **C119, exactly**: the list of evidence holds, for every distance from the first towards
the last and without the last, in this order, the mean of the scores that count at the
address so many instructions *before* – nothing for an address without candidates or where no
score counts. -/
theorem C119_exact (prog : List (Int × List Asked)) (addr a b : Int) :
    ∃ ks : List Int, (∀ k, k ∈ ks ↔ Towards a b k) ∧
      (a ≤ b → ks.Pairwise (· < ·)) ∧ (b ≤ a → ks.Pairwise (· > ·)) ∧
      rangeProbs prog addr a b = ks.filterMap fun k => (dictGet prog (addr - 4 * k)).bind meanScore := by
  refine ⟨rangeEither a b, mem_rangeEither a b, ?_, ?_, rangeProbs_eq prog addr a b⟩
  · intro h
    rw [rangeEither, if_neg (by omega), List.pairwise_map]
    exact List.Pairwise.imp (fun h => by omega) List.pairwise_lt_range
  · intro h
    by_cases he : b = a
    · subst he; simp [rangeEither]
    · rw [rangeEither, if_pos (by omega), List.pairwise_map]
      exact List.Pairwise.imp (fun h => by omega) List.pairwise_lt_range

/-- **C119, what holds**: every number given is positive and not above the largest score; it
is a probability when the scores are. -/
theorem C119_probabilities_partial (prog : List (Int × List Asked)) (addr a b : Int) (m : Rat)
    (hm : ∀ q ∈ prog, ∀ x ∈ q.2, x.score ≤ m) :
    ∀ p ∈ rangeProbs prog addr a b, 0 < p ∧ p ≤ m := by
  rw [rangeProbs_eq]
  intro p hp
  obtain ⟨k, _, hk⟩ := List.mem_filterMap.1 hp
  obtain ⟨l, hl, hmean⟩ := Option.bind_eq_some_iff.1 hk
  unfold meanScore at hmean
  split at hmean
  · cases hmean
  · rename_i hne
    cases hmean
    have hpos := (sum_pos_iff _ (countedScores_pos l)).2 hne
    have hlen : (0 : Rat) < ((countedScores l).length : Nat) := by
      exact_mod_cast List.length_pos_iff.2 hne
    refine ⟨div_pos hpos hlen, ?_⟩
    rw [div_le_iff₀ hlen]
    have hall : ∀ q ∈ countedScores l, q ≤ m := by
      intro q hq
      obtain ⟨x, hx, rfl⟩ := List.mem_map.1 hq
      exact hm _ (dictGet_mem hl) x (List.mem_of_mem_filter hx)
    have := List.sum_le_card_nsmul _ m hall
    rw [nsmul_eq_mul] at this
    linarith

/-- **C119 is false** of the description of the distances: a negative distance, described as
an instruction before, is one after.  Whatever the program, the evidence from distance `-n`
is that of the address `4 * n` above. -/
theorem C119_negative_refuted (prog : List (Int × List Asked)) (addr : Int) (n : Int) (h : 0 < n) :
    rangeProbs prog addr (-n) (-n + 1) = ((dictGet prog (addr + 4 * n)).bind meanScore).toList ∧
    addr < addr + 4 * n := by
  refine ⟨?_, by omega⟩
  rw [rangeProbs_eq]
  have : rangeEither (-n) (-n + 1) = [-n] := by
    unfold rangeEither
    rw [if_neg (by omega), show (-n + 1 - -n).toNat = 1 by omega]
    simp
  rw [this, List.filterMap_cons, show addr - 4 * -n = addr + 4 * n by ring]
  cases (dictGet prog (addr + 4 * n)).bind meanScore <;> rfl

/-- **C119 is false** of exclusive choices: two candidates with score one half each answer the
question, one of the two is certainly there, and the evidence is one half. -/
theorem C119_union_refuted :
    rangeProbs [(4, [⟨false, 1 / 2, true⟩, ⟨false, 1 / 2, true⟩])] 8 1 2 = [1 / 2] := by
  decide +kernel

/-- Both directions, an address without candidates and one where no score counts. -/
theorem C119_case :
    rangeProbs [(0, [⟨false, 1, true⟩]), (4, [⟨false, 1 / 2, true⟩, ⟨false, 1, true⟩]), (8, [⟨true, 1, true⟩])] 12 0 4
      = [3 / 4, 1] ∧
    rangeProbs [(0, [⟨false, 1, true⟩]), (4, [⟨false, 1 / 2, true⟩, ⟨false, 1, true⟩]), (8, [⟨true, 1, true⟩])] 12 3 (-1)
      = [1, 3 / 4] := by
  decide +kernel

end Verif
