import Verif.Spec.Rules
import Verif.Proof.Metadata

/-! # Lemmas about scoring rules -/

namespace Verif

/-- The score stored under `k` in the `i`-th candidate of a list. -/
def sc (k : String) (l : List RuleCand) (i : Nat) : Option Rat := l[i]?.bind fun x => dictGet x.scores k

theorem sc_zero (k : String) (x : RuleCand) (l : List RuleCand) : sc k (x :: l) 0 = dictGet x.scores k := rfl

theorem sc_succ (k : String) (x : RuleCand) (l : List RuleCand) (i : Nat) :
    sc k (x :: l) (i + 1) = sc k l i := rfl

/-- `xs'` comes from `xs` by storing scores under `k` only, and `u` tells whether
any changed. -/
structure Upd (k : String) (xs xs' : List RuleCand) (u : Bool) : Prop where
  same : xs'.map (·.a) = xs.map (·.a)
  other : ∀ k' ≠ k, ∀ i, sc k' xs' i = sc k' xs i
  exact : u = true ↔ ∃ i, sc k xs' i ≠ sc k xs i

theorem exists_nat_iff {P : Nat → Prop} : (∃ i, P i) ↔ P 0 ∨ ∃ i, P (i + 1) := by
  constructor
  · rintro ⟨i, h⟩
    cases i with
    | zero => exact Or.inl h
    | succ i => exact Or.inr ⟨i, h⟩
  · rintro (h | ⟨i, h⟩)
    · exact ⟨0, h⟩
    · exact ⟨i + 1, h⟩

theorem Upd.nil (k : String) : Upd k [] [] false :=
  ⟨rfl, fun _ _ _ => rfl, by simp [sc]⟩

theorem Upd.cons {k : String} {x x' : RuleCand} {xs xs' : List RuleCand} {u v : Bool}
    (h : Upd k xs xs' u) (ha : x'.a = x.a)
    (ho : ∀ k' ≠ k, dictGet x'.scores k' = dictGet x.scores k')
    (he : v = true ↔ dictGet x'.scores k ≠ dictGet x.scores k) :
    Upd k (x :: xs) (x' :: xs') (v || u) := by
  refine ⟨by simp [ha, h.same], ?_, ?_⟩
  · intro k' hk i
    cases i with
    | zero => exact ho k' hk
    | succ i => exact h.other k' hk i
  · rw [Bool.or_eq_true, he, h.exact]
    conv_rhs => rw [exists_nat_iff]
    rfl

theorem updateCandidate_a (k : String) (x : RuleCand) (v : Rat) : (updateCandidate k x v).1.a = x.a := by
  unfold updateCandidate; split <;> rfl

theorem updateCandidate_get (k : String) (x : RuleCand) (v : Rat) (k' : String) :
    dictGet (updateCandidate k x v).1.scores k' = if k' = k then some v else dictGet x.scores k' := by
  unfold updateCandidate
  split
  · split
    · next h1 h2 => rw [h2, h1]
    · rfl
  · simp only [dictGet_dictSet]
    by_cases h : k = k'
    · subst h; simp
    · rw [if_neg h, if_neg (Ne.symm h)]

theorem updateCandidate_flag (k : String) (x : RuleCand) (v : Rat) :
    (updateCandidate k x v).2 = true ↔ some v ≠ dictGet x.scores k := by
  unfold updateCandidate
  split
  · next h => simp [h]
  · next h => simp only [true_iff]; exact fun e => h e.symm

theorem updateCandidate_same (k : String) (y : RuleCand) (v : Rat) (h : dictGet y.scores k = some v) :
    updateCandidate k y v = (y, false) := by
  unfold updateCandidate
  rw [if_pos h]

theorem updateCandidate_again (k : String) (x : RuleCand) (v : Rat) :
    updateCandidate k (updateCandidate k x v).1 v = ((updateCandidate k x v).1, false) := by
  apply updateCandidate_same
  rw [updateCandidate_get, if_pos rfl]

theorem Upd.consUpdate {k : String} {xs xs' : List RuleCand} {u : Bool} (h : Upd k xs xs' u)
    (x : RuleCand) (v : Rat) :
    Upd k (x :: xs) ((updateCandidate k x v).1 :: xs') ((updateCandidate k x v).2 || u) := by
  apply h.cons (updateCandidate_a k x v)
  · intro k' hk
    rw [updateCandidate_get, if_neg hk]
  · rw [updateCandidate_flag, updateCandidate_get, if_pos rfl]

theorem Upd.consSame {k : String} {xs xs' : List RuleCand} {u : Bool} (h : Upd k xs xs' u)
    (x : RuleCand) : Upd k (x :: xs) (x :: xs') u := by
  have := h.cons (x := x) (x' := x) (v := false) rfl (fun _ _ => rfl) (by simp)
  simpa using this

theorem updateScores_upd (k : String) : ∀ (vs : List Rat) (xs xs' : List RuleCand) (u : Bool),
    updateScores k vs xs = .ok (xs', u) → Upd k xs xs' u ∧ updateScores k vs xs' = .ok (xs', false) := by
  intro vs xs
  induction xs generalizing vs with
  | nil =>
    intro xs' u h
    simp only [updateScores, Except.ok.injEq, Prod.mk.injEq] at h
    obtain ⟨rfl, rfl⟩ := h
    exact ⟨Upd.nil k, by simp [updateScores]⟩
  | cons x xs ih =>
    intro xs' u h
    cases vs with
    | nil => simp [updateScores] at h
    | cons v vs =>
      simp only [updateScores, bind, Except.bind] at h
      split at h
      · cases h
      · next r hr =>
        obtain ⟨ys, w⟩ := r
        obtain ⟨h1, h2⟩ := ih vs ys w hr
        simp only [pure, Except.pure, Except.ok.injEq, Prod.mk.injEq] at h
        obtain ⟨rfl, rfl⟩ := h
        refine ⟨h1.consUpdate x v, ?_⟩
        simp only [updateScores, bind, Except.bind, h2, updateCandidate_again, pure, Except.pure]
        rfl

theorem countUpdate_upd {κ : Type} [DecidableEq κ] (r : CountRule κ) (k : String) (scores : List (κ × Rat)) :
    ∀ xs : List RuleCand, Upd k xs (countUpdate r k scores xs).1 (countUpdate r k scores xs).2 ∧
      countUpdate r k scores (countUpdate r k scores xs).1 = ((countUpdate r k scores xs).1, false) := by
  intro xs
  induction xs with
  | nil => exact ⟨Upd.nil k, rfl⟩
  | cons x xs ih =>
    obtain ⟨h1, h2⟩ := ih
    by_cases hi : x.a.c.m.ignore
    · simp only [countUpdate, if_pos hi]
      refine ⟨h1.consSame x, ?_⟩
      simp [countUpdate, if_pos hi, h2]
    · simp only [countUpdate, if_neg hi]
      refine ⟨h1.consUpdate x _, ?_⟩
      have ha := updateCandidate_a k x (countScore r scores x.a)
      simp only [countUpdate, ha, if_neg hi, updateCandidate_again, h2]
      rfl

/-! ### Programs -/

theorem dictGet_map_snd {κ α β : Type} [DecidableEq κ] (d : List (κ × α)) (f : α → β) (k : κ) :
    dictGet (d.map fun q => (q.1, f q.2)) k = (dictGet d k).map f := by
  induction d with
  | nil => rfl
  | cons p t ih =>
    simp only [List.map_cons, dictGet_cons, ih]
    split <;> rfl

theorem answers_dictSet (prog : RuleProg) (a : Int) (l l' : List RuleCand) (h : dictGet prog a = some l)
    (hs : l'.map (·.a) = l.map (·.a)) : answers (dictSet prog a l') = answers prog := by
  induction prog with
  | nil => cases h
  | cons q t ih =>
    rw [dictGet_cons] at h
    by_cases hq : q.1 = a
    · rw [if_pos hq] at h
      cases h
      simp [dictSet, hq, answers, hs]
    · rw [if_neg hq] at h
      have := ih h
      simp only [dictSet, if_neg hq, answers, List.map_cons] at this ⊢
      rw [this]

theorem scoreAt_dictSet (k : String) (prog : RuleProg) (a : Int) (l' : List RuleCand) (b : Int) (i : Nat) :
    Spec.scoreAt k (dictSet prog a l') b i = if a = b then sc k l' i else Spec.scoreAt k prog b i := by
  unfold Spec.scoreAt
  rw [dictGet_dictSet]
  by_cases h : a = b
  · rw [if_pos h, if_pos h]; rfl
  · rw [if_neg h, if_neg h]

theorem scoreAt_of (k : String) {prog : RuleProg} {a : Int} {l : List RuleCand} (h : dictGet prog a = some l)
    (i : Nat) : Spec.scoreAt k prog a i = sc k l i := by
  unfold Spec.scoreAt; rw [h]; rfl

theorem dictSet_dictSet {α β : Type} [DecidableEq α] (d : List (α × β)) (k : α) (v w : β) :
    dictSet (dictSet d k v) k w = dictSet d k w := by
  induction d with
  | nil => simp [dictSet]
  | cons p t ih =>
    by_cases h : p.1 = k
    · simp [dictSet, h]
    · simp [dictSet, h, ih]

theorem Upd.prog {k : String} {prog : RuleProg} {a : Int} {l l' : List RuleCand} {u : Bool}
    (hl : dictGet prog a = some l) (h : Upd k l l' u) :
    Spec.OnlyKey k prog (dictSet prog a l') ∧ (u = true ↔ Spec.Changed k prog (dictSet prog a l')) := by
  refine ⟨⟨answers_dictSet prog a l l' hl h.same, ?_⟩, ?_⟩
  · intro k' hk b i
    rw [scoreAt_dictSet]
    split
    · next e => subst e; rw [h.other k' hk, scoreAt_of k' hl]
    · rfl
  · rw [h.exact]
    constructor
    · rintro ⟨i, hi⟩
      exact ⟨a, i, by rw [scoreAt_dictSet, if_pos rfl, scoreAt_of k hl]; exact hi⟩
    · rintro ⟨b, i, hi⟩
      rw [scoreAt_dictSet] at hi
      split at hi
      · next e => subst e; rw [scoreAt_of k hl] at hi; exact ⟨i, hi⟩
      · exact absurd rfl hi

/-! ### Scores given one after the other -/

theorem giveScores_snoc (k : String) (x : RuleCand) (vs : List Rat) (v : Rat) :
    giveScores k x (vs ++ [v]) =
      ((updateCandidate k (giveScores k x vs).1 v).1,
        (giveScores k x vs).2 || (updateCandidate k (giveScores k x vs).1 v).2) := by
  unfold giveScores
  rw [List.foldl_append]
  rfl

theorem giveScores_spec (k : String) (x : RuleCand) (vs : List Rat) :
    (giveScores k x vs).1.a = x.a ∧
    (∀ k', dictGet (giveScores k x vs).1.scores k'
      = if k' = k then vs.getLast?.or (dictGet x.scores k) else dictGet x.scores k') ∧
    ((giveScores k x vs).2 = false → (giveScores k x vs).1 = x) := by
  induction vs using List.reverseRecOn with
  | nil =>
    refine ⟨rfl, fun k' => ?_, fun _ => rfl⟩
    split
    · next h => subst h; rfl
    · rfl
  | append_singleton vs v ih =>
    obtain ⟨h1, h2, h3⟩ := ih
    rw [giveScores_snoc]
    refine ⟨by simp only [updateCandidate_a, h1], fun k' => ?_, ?_⟩
    · simp only [updateCandidate_get, h2, List.getLast?_append]
      split
      · simp
      · rfl
    · simp only [Bool.or_eq_false_iff]
      rintro ⟨ha, hb⟩
      rw [h3 ha] at hb ⊢
      have := updateCandidate_flag k x v
      unfold updateCandidate at hb ⊢
      split
      · rfl
      · next hc => rw [if_neg hc] at hb; cases hb

end Verif
