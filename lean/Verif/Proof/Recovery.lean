import Verif.Model.Recovery
import Verif.Proof.Metadata

/-! Lemmas about pruning, the report and the recovery loop. -/

namespace Verif

variable {α : Type}

/-! ### Pruning -/

/-- What the first loop keeps. -/
def keep1 : Nat → List (RInst α) → List (RInst α)
  | _, [] => []
  | one, x :: r =>
      if x.score = 1 then x :: keep1 (one + 1) r
      else if x.score = 0 then keep1 one r
      else if one > 0 then keep1 one r
      else x :: keep1 one r

def ones (l : List (RInst α)) : Nat := l.countP fun x => decide (x.score = 1)

def others (l : List (RInst α)) : Nat := l.countP fun x => decide (x.score ≠ 1 ∧ x.score ≠ 0)

theorem eraseIdx_mid {α : Type} (pre r : List α) (x : α) :
    (pre ++ x :: r).eraseIdx pre.length = pre ++ r := by
  rw [List.eraseIdx_append_of_length_le (Nat.le_refl _)]
  simp

theorem prune1 : ∀ (rest pre : List (RInst α)) (one less fuel : Nat), rest.length < fuel →
    whileLoop pruneCond pruneTurn1 fuel ⟨pre ++ rest, pre.length, one, less⟩ =
      some (.ok ⟨pre ++ keep1 one rest, (pre ++ keep1 one rest).length, one + ones rest,
        less + others rest⟩) := by
  intro rest
  induction rest with
  | nil =>
    intro pre one less fuel hf
    obtain ⟨f, rfl⟩ : ∃ f, fuel = f + 1 := ⟨fuel - 1, by simp at hf; omega⟩
    simp [whileLoop, pruneCond, keep1, ones, others]
  | cons x r ih =>
    intro pre one less fuel hf
    obtain ⟨f, rfl⟩ : ∃ f, fuel = f + 1 := ⟨fuel - 1, by simp at hf; omega⟩
    simp only [List.length_cons] at hf
    have hget : (pre ++ x :: r)[pre.length]? = some x := by simp
    rw [whileLoop, if_pos (by simp [pruneCond])]
    have hsplit : pre ++ x :: r = (pre ++ [x]) ++ r := by simp
    by_cases h1 : x.score = 1
    · have : pruneTurn1 ⟨pre ++ x :: r, pre.length, one, less⟩ =
          .ok ⟨(pre ++ [x]) ++ r, (pre ++ [x]).length, one + 1, less⟩ := by
        simp only [pruneTurn1, hget, if_pos h1]
        simp
      rw [this]
      dsimp only
      rw [ih (pre ++ [x]) (one + 1) less f (by omega)]
      have hk : keep1 one (x :: r) = x :: keep1 (one + 1) r := by rw [keep1, if_pos h1]
      have e1 : ones (x :: r) = ones r + 1 := by simp [ones, h1]
      have e2 : others (x :: r) = others r := by simp [others, h1]
      rw [hk, e1, e2, List.append_assoc, List.singleton_append]
      congr 3; omega
    · by_cases h0 : x.score = 0
      · have : pruneTurn1 ⟨pre ++ x :: r, pre.length, one, less⟩ =
            .ok ⟨pre ++ r, pre.length, one, less⟩ := by
          simp only [pruneTurn1, hget, if_neg h1, if_pos h0, eraseIdx_mid]
        rw [this]
        dsimp only
        rw [ih pre one less f (by omega)]
        have hk : keep1 one (x :: r) = keep1 one r := by rw [keep1, if_neg h1, if_pos h0]
        have e1 : ones (x :: r) = ones r := by simp [ones, h1]
        have e2 : others (x :: r) = others r := by simp [others, h0]
        rw [hk, e1, e2]
      · have e1 : ones (x :: r) = ones r := by simp [ones, h1]
        have e2 : others (x :: r) = others r + 1 := by simp [others, h0, h1]
        by_cases ho : one > 0
        · have : pruneTurn1 ⟨pre ++ x :: r, pre.length, one, less⟩ =
              .ok ⟨pre ++ r, pre.length, one, less + 1⟩ := by
            simp only [pruneTurn1, hget, if_neg h1, if_neg h0, if_pos ho, eraseIdx_mid]
          rw [this]
          dsimp only
          rw [ih pre one (less + 1) f (by omega)]
          have hk : keep1 one (x :: r) = keep1 one r := by
            rw [keep1, if_neg h1, if_neg h0, if_pos ho]
          rw [hk, e1, e2]
          congr 3; omega
        · have : pruneTurn1 ⟨pre ++ x :: r, pre.length, one, less⟩ =
              .ok ⟨(pre ++ [x]) ++ r, (pre ++ [x]).length, one, less + 1⟩ := by
            simp only [pruneTurn1, hget, if_neg h1, if_neg h0, if_neg ho]
            simp
          rw [this]
          dsimp only
          rw [ih (pre ++ [x]) one (less + 1) f (by omega)]
          have hk : keep1 one (x :: r) = x :: keep1 one r := by
            rw [keep1, if_neg h1, if_neg h0, if_neg ho]
          rw [hk, e1, e2, List.append_assoc, List.singleton_append]
          congr 3; omega

theorem prune2 : ∀ (rest pre : List (RInst α)) (one less fuel : Nat), rest.length < fuel →
    whileLoop pruneCond pruneTurn2 fuel ⟨pre ++ rest, pre.length, one, less⟩ =
      some (.ok ⟨pre ++ rest.filter (fun x => decide (¬ (x.score < 1 ∧ one > 0))),
        (pre ++ rest.filter (fun x => decide (¬ (x.score < 1 ∧ one > 0)))).length, one, less⟩) := by
  intro rest
  induction rest with
  | nil =>
    intro pre one less fuel hf
    obtain ⟨f, rfl⟩ : ∃ f, fuel = f + 1 := ⟨fuel - 1, by simp at hf; omega⟩
    simp [whileLoop, pruneCond]
  | cons x r ih =>
    intro pre one less fuel hf
    obtain ⟨f, rfl⟩ : ∃ f, fuel = f + 1 := ⟨fuel - 1, by simp at hf; omega⟩
    simp only [List.length_cons] at hf
    have hget : (pre ++ x :: r)[pre.length]? = some x := by simp
    rw [whileLoop, if_pos (by simp [pruneCond])]
    by_cases h1 : x.score < 1 ∧ one > 0
    · have : pruneTurn2 ⟨pre ++ x :: r, pre.length, one, less⟩ =
          .ok ⟨pre ++ r, pre.length, one, less⟩ := by
        simp only [pruneTurn2, hget, if_pos h1, eraseIdx_mid]
      rw [this]
      dsimp only
      rw [ih pre one less f (by omega), List.filter_cons, if_neg (by rw [decide_eq_true_eq]; exact fun h => h h1)]
    · have : pruneTurn2 ⟨pre ++ x :: r, pre.length, one, less⟩ =
          .ok ⟨(pre ++ [x]) ++ r, (pre ++ [x]).length, one, less⟩ := by
        simp only [pruneTurn2, hget, if_neg h1]
        simp
      rw [this]
      dsimp only
      rw [ih (pre ++ [x]) one less f (by omega), List.filter_cons,
        if_pos (by rw [decide_eq_true_eq]; exact h1), List.append_assoc, List.singleton_append]

theorem keep1_length (one : Nat) (l : List (RInst α)) : (keep1 one l).length ≤ l.length := by
  induction l generalizing one with
  | nil => simp [keep1]
  | cons x r ih =>
    unfold keep1
    have a := ih one
    have b := ih (one + 1)
    split
    · simp; omega
    · split
      · simp; omega
      · split <;> simp <;> omega

/-- The whole pruning of one address. -/
theorem removeBad_eq (v : List (RInst α)) (fuel : Nat) (hf : v.length < fuel) :
    removeBad fuel v =
      some (.ok (
        (keep1 0 v).filter (fun x => decide (¬ (others v > 0 ∧ x.score < 1 ∧ ones v > 0))),
        v.length - ((keep1 0 v).filter
          (fun x => decide (¬ (others v > 0 ∧ x.score < 1 ∧ ones v > 0)))).length)) := by
  unfold removeBad
  have h1 := prune1 v [] 0 0 fuel hf
  simp only [List.nil_append, List.length_nil, Nat.zero_add] at h1
  rw [h1]
  dsimp only
  by_cases ho : others v > 0
  · rw [if_pos ho]
    have hk := keep1_length 0 v
    have h2 := prune2 (keep1 0 v) [] (ones v) (others v) fuel (by omega)
    simp only [List.nil_append, List.length_nil] at h2
    rw [h2]
    simp only [Option.map_some, ho, true_and]
    rfl
  · rw [if_neg ho]
    have : (keep1 0 v).filter (fun x => decide (¬ (others v > 0 ∧ x.score < 1 ∧ ones v > 0))) =
        keep1 0 v := by
      rw [List.filter_eq_self]
      intro x _
      simp [ho]
    rw [this]

theorem keep1_pos (one : Nat) (h : 0 < one) (l : List (RInst α)) :
    keep1 one l = l.filter fun x => decide (x.score = 1) := by
  induction l generalizing one with
  | nil => rfl
  | cons x r ih =>
    unfold keep1
    by_cases h1 : x.score = 1
    · rw [if_pos h1, ih (one + 1) (by omega), List.filter_cons, if_pos (by simpa using h1)]
    · rw [List.filter_cons, if_neg (show ¬ decide (x.score = 1) = true by simpa using h1), if_neg h1]
      split
      · exact ih one h
      · exact ih one h

theorem keep1_none (l : List (RInst α)) (h : ones l = 0) :
    keep1 0 l = l.filter fun x => decide (x.score ≠ 0) := by
  induction l with
  | nil => rfl
  | cons x r ih =>
    have h1 : x.score ≠ 1 := by
      intro h1
      simp [ones, h1] at h
    have hr : ones r = 0 := by
      simp only [ones, List.countP_cons] at h ⊢
      omega
    unfold keep1
    rw [if_neg h1]
    by_cases h0 : x.score = 0
    · rw [if_pos h0, ih hr, List.filter_cons, if_neg (by simpa using h0)]
    · rw [if_neg h0, if_neg (by omega), ih hr, List.filter_cons, if_pos (by simpa using h0)]

/-- Filtering the ones out of what the first loop keeps. -/
theorem keep1_ones (l : List (RInst α)) :
    (keep1 0 l).filter (fun x => decide (x.score = 1)) = l.filter fun x => decide (x.score = 1) := by
  induction l with
  | nil => rfl
  | cons x r ih =>
    unfold keep1
    by_cases h1 : x.score = 1
    · rw [if_pos h1, keep1_pos 1 (by omega), List.filter_cons, if_pos (by simpa using h1),
        List.filter_cons, if_pos (by simpa using h1), List.filter_filter]
      simp
    · rw [List.filter_cons (x := x) (xs := r),
        if_neg (show ¬ decide (x.score = 1) = true by simpa using h1), if_neg h1]
      split
      · exact ih
      · rw [if_neg (show ¬ 0 > 0 by omega), List.filter_cons,
          if_neg (show ¬ decide (x.score = 1) = true by simpa using h1)]
        exact ih

theorem keep1_no_others (one : Nat) (l : List (RInst α)) (h : others l = 0) :
    keep1 one l = l.filter fun x => decide (x.score = 1) := by
  induction l generalizing one with
  | nil => rfl
  | cons x r ih =>
    have hr : others r = 0 := by
      simp only [others, List.countP_cons] at h ⊢
      omega
    unfold keep1
    by_cases h1 : x.score = 1
    · rw [if_pos h1, ih _ hr, List.filter_cons, if_pos (by simpa using h1)]
    · have h0 : x.score = 0 := by
        by_contra h0
        simp [others, h0, h1] at h
      rw [if_neg h1, if_pos h0, ih _ hr, List.filter_cons, if_neg (by simpa using h1)]

theorem keep1_mem {one : Nat} {l : List (RInst α)} {x : RInst α} (h : x ∈ keep1 one l) : x ∈ l := by
  induction l generalizing one with
  | nil => simp [keep1] at h
  | cons y r ih =>
    unfold keep1 at h
    split at h
    · rcases List.mem_cons.1 h with rfl | h
      · simp
      · exact List.mem_cons_of_mem _ (ih h)
    · split at h
      · exact List.mem_cons_of_mem _ (ih h)
      · split at h
        · exact List.mem_cons_of_mem _ (ih h)
        · rcases List.mem_cons.1 h with rfl | h
          · simp
          · exact List.mem_cons_of_mem _ (ih h)

theorem keep1_sublist (one : Nat) (l : List (RInst α)) : (keep1 one l).Sublist l := by
  induction l generalizing one with
  | nil => exact List.Sublist.refl _
  | cons y r ih =>
    unfold keep1
    split
    · exact (ih _).cons_cons _
    · split
      · exact (ih _).cons _
      · split
        · exact (ih _).cons _
        · exact (ih _).cons_cons _

/-! ### Pruning everything -/

theorem pruneAll_ok (fuel : Nat) : ∀ prog : List (List (RInst α)), (∀ v ∈ prog, v.length < fuel) →
    ∃ prog' b, pruneAll fuel prog = some (.ok (prog', b)) ∧
      List.Forall₂ (fun v v' => v'.Sublist v) prog prog' ∧
      (b = false ↔ prog'.map List.length = prog.map List.length) ∧
      (prog'.map List.length).sum ≤ (prog.map List.length).sum ∧
      (b = true → (prog'.map List.length).sum < (prog.map List.length).sum) := by
  intro prog
  induction prog with
  | nil => intro _; exact ⟨[], false, rfl, List.Forall₂.nil, by simp, by simp, by simp⟩
  | cons v vs ih =>
    intro h
    obtain ⟨p', b, h1, h2, h3, h4, h5⟩ := ih fun w hw => h w (by simp [hw])
    have hr := removeBad_eq v fuel (h v (by simp))
    have hsub : ((keep1 0 v).filter
        (fun x => decide (¬ (others v > 0 ∧ x.score < 1 ∧ ones v > 0)))).Sublist v :=
      (List.filter_sublist).trans (keep1_sublist 0 v)
    generalize (keep1 0 v).filter
        (fun x => decide (¬ (others v > 0 ∧ x.score < 1 ∧ ones v > 0))) = v' at hr hsub
    have hle := hsub.length_le
    refine ⟨v' :: p', decide (v.length - v'.length > 0) || b, ?_, ?_, ?_, ?_, ?_⟩
    · simp only [pruneAll, hr, h1]
    · exact List.Forall₂.cons hsub h2
    · rw [Bool.or_eq_false_iff, h3]
      simp only [decide_eq_false_iff_not, List.map_cons, List.cons.injEq]
      constructor
      · rintro ⟨a, b⟩; exact ⟨by omega, b⟩
      · rintro ⟨a, b⟩; exact ⟨by omega, b⟩
    · simp; omega
    · intro hb
      rw [Bool.or_eq_true] at hb
      simp only [List.map_cons, List.sum_cons]
      rcases hb with hb | hb
      · simp at hb; omega
      · have := h5 hb; omega

/-! ### The report -/

theorem sortScore_perm (l : List (RInst α)) : (sortScore l).Perm l := List.perm_insertionSort _ _

theorem reportAddr_ok (r : Report) (o : RInst α) (l : List (RInst α)) :
    ∃ r' l', reportAddr r o l = .ok (r', l') ∧ l'.Perm l ∧
      l' = (if 1 < l.length then sortScore l else l) ∧
      r'.errors = r.errors + (if 1 < l.length then 1 else 0) ∧
      (r.errors = r.recovered + r.looses + r.tide → r'.errors = r'.recovered + r'.looses + r'.tide) := by
  unfold reportAddr
  by_cases h : l.length > 1
  · rw [if_pos h, if_pos h, if_pos h]
    have hp := sortScore_perm l
    have hlen := hp.length_eq
    match hs : sortScore l with
    | [] => rw [hs] at hlen; simp at hlen; omega
    | [x] => rw [hs] at hlen; simp at hlen; omega
    | c1 :: c2 :: rest =>
      dsimp only
      refine ⟨_, _, rfl, hs ▸ hp, rfl, ?_, ?_⟩
      · dsimp only
        split
        · rfl
        · split <;> rfl
      · intro hr
        dsimp only
        split
        · dsimp only; omega
        · split <;> dsimp only <;> omega
  · rw [if_neg h, if_neg h, if_neg h]
    exact ⟨r, l, rfl, List.Perm.refl _, rfl, rfl, id⟩

theorem reportLoop_ok : ∀ (os : List (RInst α)) (iss : List (List (RInst α))) (r : Report),
    os.length = iss.length →
    ∃ r' iss', reportLoop r os iss = .ok (r', iss') ∧
      iss' = iss.map (fun l => if 1 < l.length then sortScore l else l) ∧
      r'.errors = r.errors + iss.countP (fun l => decide (1 < l.length)) ∧
      (r.errors = r.recovered + r.looses + r.tide → r'.errors = r'.recovered + r'.looses + r'.tide) := by
  intro os
  induction os with
  | nil =>
    intro iss r h
    have : iss = [] := List.length_eq_zero_iff.1 h.symm
    subst this
    exact ⟨r, [], rfl, rfl, by simp, id⟩
  | cons o os ih =>
    intro iss r h
    cases iss with
    | nil => simp at h
    | cons l iss =>
      simp only [List.length_cons, Nat.add_right_cancel_iff] at h
      obtain ⟨r1, l1, a1, a2, a3, a4, a5⟩ := reportAddr_ok r o l
      obtain ⟨r2, iss2, b1, b2, b3, b4⟩ := ih iss r1 h
      refine ⟨r2, l1 :: iss2, ?_, ?_, ?_, ?_⟩
      · simp only [reportLoop, a1]
        show (Except.bind (reportLoop r1 os iss) _) = _
        rw [b1]
        rfl
      · rw [b2, a3]; rfl
      · rw [b3, a4, List.countP_cons]
        by_cases hl : 1 < l.length <;> simp [hl] <;> omega
      · intro hr; exact b4 (a5 hr)

theorem printReport_eq (os : List (RInst α)) (iss : List (List (RInst α))) (h : os.length = iss.length) :
    (∃ r, printReport os iss = .ok (r, iss.map (fun l => if 1 < l.length then sortScore l else l)) ∧
      r.errors = iss.countP (fun l => decide (1 < l.length)) ∧ 0 < r.errors ∧
      r.errors = r.recovered + r.looses + r.tide) ∨
    ((∀ l ∈ iss, l.length ≤ 1) ∧ printReport os iss = .error .zeroDiv) := by
  obtain ⟨r, iss', h1, h2, h3, h4⟩ := reportLoop_ok os iss {} h
  have h3' : r.errors = iss.countP (fun l => decide (1 < l.length)) := by simpa using h3
  unfold printReport
  rw [h1]
  by_cases hz : r.errors = 0
  · right
    refine ⟨?_, ?_⟩
    · rw [h3', List.countP_eq_zero] at hz
      intro l hl
      have := hz l hl
      simpa using this
    · show (if r.errors = 0 then _ else _) = _
      rw [if_pos hz]
  · left
    refine ⟨r, ?_, h3', by omega, h4 rfl⟩
    show (if r.errors = 0 then _ else _) = _
    rw [if_neg hz, h2]
    rfl

end Verif
