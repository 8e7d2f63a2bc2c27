import Verif.Model.SolutionQuality
import Verif.Spec.SolutionQuality
import Verif.Proof.Metadata
import Mathlib.Tactic.Linarith
import Mathlib.Algebra.Order.Field.Basic
import Mathlib.Tactic.Abel
import Mathlib.Algebra.BigOperators.Group.List.Basic

/-! # Lemmas about the measures of a candidate program -/

namespace Verif
open Spec

variable {R : Type} [AddCommMonoid R]

theorem lengthBins_eq (program : List (Nat × List SInst)) :
    lengthBins program = incKeys [] (program.map (·.2.length)) := by
  unfold lengthBins incKeys
  rw [List.foldl_map]

theorem sum_incKey {M : Type} [AddCommMonoid M] (f : Nat → M) (d : List (Nat × Nat)) (k : Nat) :
    ((incKey d k).map fun b => b.2 • f b.1).sum = (d.map fun b => b.2 • f b.1).sum + f k := by
  unfold incKey
  induction d with
  | nil => simp [dictSet, dictGet_nil, one_nsmul]
  | cons p d ih =>
    rw [dictGet_cons]
    unfold dictSet
    by_cases h : p.1 = k
    · rw [if_pos h, if_pos h]
      simp only [List.map_cons, List.sum_cons, h, succ_nsmul]
      abel
    · rw [if_neg h, if_neg h]
      simp only [List.map_cons, List.sum_cons, add_assoc, ih]

theorem sum_incKeys {M : Type} [AddCommMonoid M] (f : Nat → M) (ks : List Nat) :
    ∀ d : List (Nat × Nat), ((incKeys d ks).map fun b => b.2 • f b.1).sum
      = (d.map fun b => b.2 • f b.1).sum + (ks.map f).sum := by
  unfold incKeys
  induction ks with
  | nil => simp
  | cons k ks ih => intro d; rw [List.foldl_cons, ih, sum_incKey]; simp [add_assoc]

theorem foldl_size (lg : Nat → R) (l : List (Nat × Nat)) : ∀ s : R,
    l.foldl (fun s b => if b.1 > 1 then s + b.2 • lg b.1 else s) s
      = s + (l.map fun b => b.2 • (if b.1 > 1 then lg b.1 else 0)).sum := by
  induction l with
  | nil => simp
  | cons b l ih =>
    intro s
    rw [List.foldl_cons, ih]
    by_cases h : b.1 > 1 <;> simp [h, add_assoc]

theorem length_choices {α : Type} : ∀ l : List (List α),
    (choices l).length = (l.map List.length).prod
  | [] => rfl
  | c :: cs => by
    have ih := length_choices cs
    simp [choices, List.length_flatMap, ih, List.sum_const_nat]

/-- What a logarithm does to a product of positive numbers. -/
theorem lg_prod (lg : Nat → R) (h1 : lg 1 = 0)
    (hm : ∀ a b, 0 < a → 0 < b → lg (a * b) = lg a + lg b) :
    ∀ l : List Nat, (∀ x ∈ l, 0 < x) →
      (l.map fun k => if k > 1 then lg k else 0).sum = lg l.prod ∧ 0 < l.prod
  | [], _ => by simp [h1]
  | k :: l, h => by
    obtain ⟨e, hp⟩ := lg_prod lg h1 hm l fun x hx => h x (List.mem_cons_of_mem _ hx)
    have hk := h k List.mem_cons_self
    refine ⟨?_, by simpa using Nat.mul_pos hk hp⟩
    rw [List.map_cons, List.sum_cons, List.prod_cons, hm k _ hk hp, e]
    split
    · rfl
    · rw [show k = 1 by omega, h1]

/-! ### The depth -/

theorem minEncoding_fold (v : List SInst) : ∀ m : Nat,
    (v.foldl (fun m i => if i.enc < m then i.enc else m) m ≤ m
      ∧ ∀ i ∈ v, v.foldl (fun m i => if i.enc < m then i.enc else m) m ≤ i.enc)
      ∧ (v.foldl (fun m i => if i.enc < m then i.enc else m) m = m
        ∨ ∃ i ∈ v, v.foldl (fun m i => if i.enc < m then i.enc else m) m = i.enc) := by
  induction v with
  | nil => simp
  | cons a v ih =>
    intro m
    rw [List.foldl_cons]
    obtain ⟨⟨h1, h2⟩, h3⟩ := ih (if a.enc < m then a.enc else m)
    have h4 : (if a.enc < m then a.enc else m) ≤ m ∧ (if a.enc < m then a.enc else m) ≤ a.enc := by
      split <;> omega
    refine ⟨⟨by omega, ?_⟩, ?_⟩
    · intro i hi
      rcases List.mem_cons.1 hi with rfl | hi
      · omega
      · exact h2 i hi
    · rcases h3 with h3 | ⟨i, hi, h3⟩
      · by_cases h : a.enc < m
        · right; exact ⟨a, List.mem_cons_self, by rw [h3, if_pos h]⟩
        · left; rw [h3, if_neg h]
      · right; exact ⟨i, List.mem_cons_of_mem _ hi, h3⟩

theorem minEncoding_le (v : List SInst) : ∀ i ∈ v, minEncoding v ≤ i.enc :=
  (minEncoding_fold v _).1.2

theorem minEncoding_pos (v : List SInst) (h : ∀ i ∈ v, 0 < i.enc) : 0 < minEncoding v := by
  rcases (minEncoding_fold v (2 ^ 63 - 1)).2 with e | ⟨i, hi, e⟩
  · unfold minEncoding; rw [e]; decide
  · unfold minEncoding; rw [e]; exact h i hi

/-- The assumptions on the candidates of an address: no zero encoding, no
repeated encoding, and scores that differ do so by at least 10⁻⁹. -/
def Separated (v : List SInst) : Prop :=
  (∀ i ∈ v, 0 < i.enc) ∧ (v.map (·.enc)).Nodup ∧
    ∀ a ∈ v, ∀ b ∈ v, a.score < b.score → a.score + 1 / 1000000000 ≤ b.score

theorem depthKey_lt {v : List SInst} (h : Separated v) {a b : SInst} (ha : a ∈ v) (hb : b ∈ v)
    (hab : Better b.score a.score b.enc a.enc) :
    depthKey (minEncoding v) a < depthKey (minEncoding v) b := by
  obtain ⟨h1, h2, h3⟩ := h
  have hm := minEncoding_pos v h1
  have ea : (0 : Rat) < a.enc := by exact_mod_cast h1 a ha
  have eb : (0 : Rat) < b.enc := by exact_mod_cast h1 b hb
  have em : (0 : Rat) < minEncoding v := by exact_mod_cast hm
  have la : (minEncoding v : Rat) / a.enc ≤ 1 :=
    (div_le_one ea).2 (by exact_mod_cast minEncoding_le v a ha)
  have lb : (0 : Rat) < (minEncoding v : Rat) / b.enc := div_pos em eb
  unfold depthKey
  rw [if_neg (by omega), if_neg (by omega)]
  rcases hab with hab | ⟨hs, he⟩
  · have := h3 a ha b hb hab
    linarith
  · have he' : (b.enc : Rat) < a.enc := by exact_mod_cast he
    have := div_lt_div_of_pos_left em eb he'
    rw [hs]; linarith

theorem depthSort_pairwise {v : List SInst} (h : Separated v) :
    (depthSort v).Pairwise fun a b => Better a.score b.score a.enc b.enc := by
  have hp : (depthSort v).Pairwise
      fun a b => depthKey (minEncoding v) b ≤ depthKey (minEncoding v) a := by
    unfold depthSort
    have : Std.Total fun a b : SInst =>
        depthKey (minEncoding v) b ≤ depthKey (minEncoding v) a := ⟨fun a b => le_total _ _⟩
    have : IsTrans SInst fun a b =>
        depthKey (minEncoding v) b ≤ depthKey (minEncoding v) a := ⟨fun a b c h1 h2 => le_trans h2 h1⟩
    exact List.pairwise_insertionSort _ _
  have hperm : (depthSort v).Perm v := List.perm_insertionSort _ _
  have hn : ((depthSort v).map (·.enc)).Nodup := (hperm.map _).nodup_iff.2 h.2.1
  rw [List.Nodup, List.pairwise_map] at hn
  refine (List.Pairwise.and hp hn).imp_of_mem ?_
  intro a b ha hb hab
  by_contra hne
  have hba : Better b.score a.score b.enc a.enc := by
    unfold Better at hne ⊢
    push Not at hne
    rcases lt_or_eq_of_le hne.1 with hlt | heq
    · exact Or.inl hlt
    · exact Or.inr ⟨heq.symm, lt_of_le_of_ne (hne.2 heq) (Ne.symm hab.2)⟩
  have := depthKey_lt h (hperm.mem_iff.1 ha) (hperm.mem_iff.1 hb) hba
  exact absurd hab.1 (not_le.2 this)

theorem findIdx_count {α : Type} (r : α → α → Prop) [DecidableRel r] (hirr : ∀ a b, r a b → ¬ r b a)
    (p : α → Bool) (c : α) :
    ∀ w : List α, w.Pairwise r → c ∈ w → (∀ x ∈ w, p x = true ↔ x = c) →
      w.findIdx p = (w.filter fun x => r x c).length
  | [], _, h, _ => by simp at h
  | a :: w, hw, hc, hu => by
    rw [List.pairwise_cons] at hw
    by_cases hp : p a = true
    · have hac := (hu a List.mem_cons_self).1 hp
      subst hac
      have hrefl : ¬ r a a := fun h => hirr a a h h
      have h0 : (w.filter fun x => r x a) = [] := by
        rw [List.filter_eq_nil_iff]
        intro x hx
        simpa using hirr _ _ (hw.1 x hx)
      rw [List.filter_cons_of_neg (by simpa using hrefl), h0]
      simp [List.findIdx_cons, hp]
    · have hac : a ≠ c := fun h => hp ((hu a List.mem_cons_self).2 h)
      have hcw : c ∈ w := (List.mem_cons.1 hc).resolve_left (Ne.symm hac)
      have hrac := hw.1 c hcw
      rw [List.filter_cons_of_pos (by simpa using hrac), List.length_cons,
        ← findIdx_count r hirr p c w hw.2 hcw fun x hx => hu x (List.mem_cons_of_mem _ hx)]
      simp [List.findIdx_cons, hp]

theorem better_asymm (a b : SInst) (h : Better a.score b.score a.enc b.enc) :
    ¬ Better b.score a.score b.enc a.enc := by
  unfold Better at *
  rintro (h' | ⟨h1, h2⟩) <;> rcases h with h | ⟨h3, h4⟩
  · exact lt_asymm h h'
  · rw [h3] at h'; exact lt_irrefl _ h'
  · rw [h1] at h; exact lt_irrefl _ h
  · omega

/-- The rank the loop computes is the one of the specification. -/
theorem depth_rank {v : List SInst} (h : Separated v) {c : SInst} {s : Nat} (hc : c ∈ v)
    (hu : ∀ x ∈ v, x.str = s ↔ x = c) :
    (((depthSort v).findIdx (fun x => decide (x.str = s)) + 1 : Nat) : Rat)
      / ((depthSort v).length : Rat) = relRank (·.score) (·.enc) v c := by
  have hperm : (depthSort v).Perm v := List.perm_insertionSort _ _
  have := findIdx_count (fun a b : SInst => Better a.score b.score a.enc b.enc) better_asymm
    (fun x => decide (x.str = s)) c (depthSort v) (depthSort_pairwise h) (hperm.mem_iff.2 hc)
    (fun x hx => by simpa using hu x (hperm.mem_iff.1 hx))
  rw [this, (hperm.filter _).length_eq, hperm.length_eq]
  unfold relRank
  push_cast
  rfl

theorem depthTurn_ok {s : DepthSt} {o : Nat × SInst} {v : List SInst} {c : SInst}
    (ho : o.2.ignore = false) (hv : dictGet s.program o.1 = some v) (h : Separated v) (hc : c ∈ v)
    (hu : ∀ x ∈ v, x.str = o.2.str ↔ x = c) :
    ∃ s', qualityTurn s o = .ok s' ∧ s'.program = dictSet s.program o.1 (depthSort v)
      ∧ s'.depth = max s.depth (relRank (·.score) (·.enc) v c) := by
  have hperm : (depthSort v).Perm v := List.perm_insertionSort _ _
  have hl : (depthSort v).length ≠ 0 := by
    rw [hperm.length_eq]
    exact fun e => by rw [List.length_eq_zero_iff] at e; rw [e] at hc; simp at hc
  unfold qualityTurn
  rw [if_neg (by simp [ho]), hv]
  dsimp only
  rw [if_neg hl]
  refine ⟨_, rfl, rfl, ?_⟩
  dsimp only
  rw [depth_rank h hc hu]
  by_cases hgt : relRank (·.score) (·.enc) v c > s.depth
  · rw [if_pos hgt, max_eq_right hgt.le]
  · rw [if_neg hgt, max_eq_left (not_lt.1 hgt)]

end Verif
