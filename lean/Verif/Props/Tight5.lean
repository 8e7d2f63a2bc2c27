import Verif.Props.Tight4

/-!
# The depth of a program exactly, and the depth of every number of candidates (C78)
-/

namespace Verif

open Spec (trialKey LeastEncoding TriedIn depthIn)

theorem minEncoding_least (v : List SInst) : LeastEncoding (·.enc) v (minEncoding v) := by
  have key : ∀ (v : List SInst) (m : Nat), 
      let r := v.foldl (fun m i => if i.enc < m then i.enc else m) m
      (∀ x ∈ v, r ≤ x.enc) ∧ r ≤ m ∧ (r = m ∨ ∃ x ∈ v, x.enc = r) := by
    intro v
    induction v with
    | nil => intro m; simp
    | cons x v ih =>
      intro m
      obtain ⟨h1, h2, h3⟩ := ih (if x.enc < m then x.enc else m)
      rw [List.foldl_cons]
      refine ⟨?_, ?_, ?_⟩
      · intro y hy
        rcases List.mem_cons.1 hy with rfl | hy
        · refine Nat.le_trans h2 ?_
          split <;> omega
        · exact h1 y hy
      · refine Nat.le_trans h2 ?_
        split <;> omega
      · rcases h3 with h3 | ⟨y, hy, h3⟩
        · by_cases hx : x.enc < m
          · rw [if_pos hx] at h3 ⊢
            exact .inr ⟨x, List.mem_cons_self, h3.symm⟩
          · rw [if_neg hx] at h3 ⊢
            exact .inl h3
        · exact .inr ⟨y, List.mem_cons_of_mem _ hy, h3⟩
  exact key v _

theorem depthSort_tried (v : List SInst) : TriedIn (·.score) (·.enc) v (depthSort v) := by
  have hk : ∀ x : SInst, trialKey (minEncoding v) x.score x.enc = depthKey (minEncoding v) x := by
    intro x
    unfold trialKey depthKey
    norm_num
  refine ⟨minEncoding v, minEncoding_least v, List.perm_insertionSort _ _, ?_, fun k => ?_⟩
  · simp only [hk]
    have : IsTrans SInst fun a b => depthKey (minEncoding v) b ≤ depthKey (minEncoding v) a := ⟨fun _ _ _ h1 h2 => le_trans h2 h1⟩
    have : Std.Total fun a b : SInst => depthKey (minEncoding v) b ≤ depthKey (minEncoding v) a := ⟨fun a b => le_total _ _⟩
    exact List.pairwise_insertionSort _ v
  · simp only [hk]
    have hperm : (depthSort v).Perm v := List.perm_insertionSort _ _
    have hsub : (v.filter fun x => depthKey (minEncoding v) x = k).Sublist (depthSort v) := by
      have : IsTrans SInst fun a b => depthKey (minEncoding v) b ≤ depthKey (minEncoding v) a := ⟨fun _ _ _ h1 h2 => le_trans h2 h1⟩
      refine List.sublist_insertionSort (List.pairwise_of_forall_mem_list fun a ha b hb => ?_) List.filter_sublist
      rw [show depthKey (minEncoding v) a = k by simpa using (List.mem_filter.1 ha).2,
        show depthKey (minEncoding v) b = k by simpa using (List.mem_filter.1 hb).2]
    have h2 := hsub.filter (fun x => depthKey (minEncoding v) x = k)
    rw [List.filter_filter] at h2
    simp only [Bool.and_self] at h2
    exact (h2.eq_of_length_le (Nat.le_of_eq (hperm.filter _).length_eq)).symm

theorem findIdx_takeWhile {α : Type} (p : α → Bool) : ∀ l : List α, l.findIdx p = (l.takeWhile fun x => !p x).length
  | [] => rfl
  | x :: l => by
    rw [List.findIdx_cons, List.takeWhile_cons]
    cases p x with
    | true => rfl
    | false => simp [findIdx_takeWhile p l]

/-- A defined original that looks like a candidate. -/
def looksLike (o : Nat × SInst) (c : SInst) : Bool := c.str = o.2.str

/-- What the loop of the depth leaves. -/
theorem quality_fold (program : List (Nat × List SInst)) : ∀ (original : List (Nat × SInst)) (s s' : DepthSt),
    (original.map (·.1)).Nodup → (∀ o ∈ original, dictGet s.program o.1 = dictGet program o.1) →
    original.foldlM qualityTurn s = .ok s' →
    let defined := original.filter fun o => !o.2.ignore
    let order := fun a => depthSort ((dictGet program a).getD [])
    (∀ o ∈ defined, ∃ v, dictGet program o.1 = some v ∧ v ≠ []) ∧
    s'.depth = (defined.map fun o => depthIn (looksLike o) (order o.1)).foldl max s.depth ∧
    (∀ n, dictGet s'.bins n = if defined.any (fun o => (order o.1).length == n) then
        some (((defined.filter fun o => (order o.1).length == n).map fun o => depthIn (looksLike o) (order o.1)).foldl max
          ((dictGet s.bins n).getD 0))
      else dictGet s.bins n) ∧
    ∀ a, dictGet s'.program a = if a ∈ defined.map (·.1) then some (order a) else dictGet s.program a := by
  intro original
  induction original with
  | nil =>
    intro s s' _ _ h
    cases h
    simp
  | cons o original ih =>
    intro s s' hd hs h
    rw [List.map_cons, List.nodup_cons] at hd
    rw [List.foldlM_cons] at h
    have hs' : ∀ o' ∈ original, dictGet s.program o'.1 = dictGet program o'.1 := fun o' ho' => hs o' (List.mem_cons_of_mem _ ho')
    by_cases hi : o.2.ignore = true
    · rw [show qualityTurn s o = .ok s by unfold qualityTurn; rw [if_pos hi]] at h
      have := ih s s' hd.2 hs' h
      rw [List.filter_cons_of_neg (by simp [hi])]
      exact this
    · obtain ⟨v, hv, hne⟩ : ∃ v, dictGet program o.1 = some v ∧ v ≠ [] := by
        rw [← hs o List.mem_cons_self]
        cases hv : dictGet s.program o.1 with
        | none =>
          rw [show qualityTurn s o = .error .key by unfold qualityTurn; rw [if_neg hi, hv]] at h
          cases h
        | some v =>
          refine ⟨v, rfl, ?_⟩
          rintro rfl
          rw [show qualityTurn s o = .error .zeroDiv by unfold qualityTurn; rw [if_neg hi, hv]; rfl] at h
          cases h
      have hlen : (depthSort v).length = v.length := (List.perm_insertionSort _ _).length_eq
      have hpos : (depthSort v).length ≠ 0 := by rw [hlen]; simpa using hne
      have ht : qualityTurn s o = .ok ⟨dictSet s.program o.1 (depthSort v), max s.depth (depthIn (looksLike o) (depthSort v)),
          dictSet s.bins (depthSort v).length (max ((dictGet s.bins (depthSort v).length).getD 0) (depthIn (looksLike o) (depthSort v)))⟩ := by
        have hr : (((depthSort v).findIdx (fun c => c.str = o.2.str) + 1 : Nat) : Rat) / ((depthSort v).length : Rat)
            = depthIn (looksLike o) (depthSort v) := by
          rw [findIdx_takeWhile]
          unfold depthIn looksLike
          push_cast
          rfl
        have hm : ∀ a b : Rat, (if b > a then b else a) = max a b := by
          intro a b
          split
          · next h => rw [max_eq_right (le_of_lt h)]
          · next h => rw [max_eq_left (not_lt.1 h)]
        unfold qualityTurn
        rw [if_neg hi, hs o List.mem_cons_self, hv]
        dsimp only
        rw [if_neg hpos, hr, hm, hm]
      rw [ht] at h
      have hs2 : ∀ o' ∈ original, dictGet (dictSet s.program o.1 (depthSort v)) o'.1 = dictGet program o'.1 := by
        intro o' ho'
        rw [dictGet_dictSet, if_neg fun e => hd.1 (List.mem_map.2 ⟨o', ho', e.symm⟩)]
        exact hs' o' ho'
      obtain ⟨g1, g2, g3, g4⟩ := ih _ s' hd.2 hs2 h
      have hord : depthSort ((dictGet program o.1).getD []) = depthSort v := by rw [hv]; rfl
      dsimp only at g2 g3 g4 ⊢
      rw [List.filter_cons_of_pos (by simp [hi])]
      refine ⟨?_, ?_, fun n => ?_, fun a => ?_⟩
      · intro o' ho'
        rcases List.mem_cons.1 ho' with rfl | ho'
        · exact ⟨v, hv, hne⟩
        · exact g1 o' ho'
      · rw [g2, List.map_cons, List.foldl_cons, hord]
      · rw [g3 n, List.any_cons, hord, dictGet_dictSet]
        by_cases hn : (depthSort v).length = n
        · subst hn
          rw [if_pos rfl, Option.getD_some, List.filter_cons_of_pos (by rw [hord]; simp), List.map_cons, List.foldl_cons, hord]
          simp only [beq_self_eq_true, Bool.true_or, if_true]
          split
          · rfl
          · next hx =>
            rw [List.filter_eq_nil_iff.2 fun o' ho' hb => hx (List.any_eq_true.2 ⟨o', ho', hb⟩)]
            rfl
        · rw [if_neg hn, List.filter_cons_of_neg (by rw [hord]; simpa using hn),
            show ((depthSort v).length == n) = false by simpa using hn, Bool.false_or]
      · rw [g4 a, dictGet_dictSet, List.map_cons]
        by_cases ha : a = o.1
        · subst ha
          simp [hord]
        · by_cases hb : a ∈ (original.filter fun o => !o.2.ignore).map (·.1)
          · rw [if_pos hb, if_pos (List.mem_cons_of_mem _ hb)]
          · have hc : a ∉ o.1 :: (original.filter fun o => !o.2.ignore).map (·.1) := by rw [List.mem_cons, not_or]; exact ⟨ha, hb⟩
            rw [if_neg hb, if_neg hc, if_neg fun e => ha e.symm]

/-- **C78, exactly.**  Whenever the depth is given, the candidates of the address of every
defined original have been put in the order of trial; the depth is the largest depth of a
defined original; the depth kept for a number of candidates is the largest depth of a
defined original with so many, and there is none when there is no such original. -/
theorem C78_exact {R : Type} [Semiring R] (lg : Nat → R) (program : List (Nat × List SInst)) (original : List (Nat × SInst))
    (hd : (original.map (·.1)).Nodup) {d : Option Rat} {q : Quality R}
    (h : highestDepth lg (newQuality R program original) = .ok (d, q)) :
    ∃ order : Nat → List SInst, let defined := original.filter fun o => !o.2.ignore
      (∀ o ∈ defined, ∃ v, dictGet program o.1 = some v ∧ v ≠ [] ∧ TriedIn (·.score) (·.enc) v (order o.1)) ∧
      (∀ a, dictGet q.program a = if a ∈ defined.map (·.1) then some (order a) else dictGet program a) ∧
      d = some ((defined.map fun o => depthIn (fun c => c.str = o.2.str) (order o.1)).foldl max 0) ∧
      ∀ n, dictGet q.depthBins n = if defined.any (fun o => (order o.1).length == n) then
        some (((defined.filter fun o => (order o.1).length == n).map fun o => depthIn (fun c => c.str = o.2.str) (order o.1)).foldl max 0)
      else none := by
  have h' : (do
      let q ← (do
        let s ← original.foldlM qualityTurn ⟨program, 0, []⟩
        Except.ok { countSolutions lg (newQuality R program original) with
          count := none, program := s.program, depth := some s.depth, depthBins := s.bins })
      Except.ok (q.depth, q) : Py (Option Rat × Quality R)) = .ok (d, q) := h
  cases hf : original.foldlM qualityTurn ⟨program, 0, []⟩ with
  | error e => rw [hf] at h'; cases h'
  | ok s =>
    rw [hf] at h'
    cases h'
    obtain ⟨g1, g2, g3, g4⟩ := quality_fold program original _ s hd (fun _ _ => rfl) hf
    refine ⟨fun a => depthSort ((dictGet program a).getD []), ?_, g4, congrArg some g2, g3⟩
    intro o ho
    obtain ⟨v, hv, hne⟩ := g1 o ho
    refine ⟨v, hv, hne, ?_⟩
    show TriedIn _ _ v (depthSort ((dictGet program o.1).getD []))
    rw [hv]
    exact depthSort_tried v

theorem highestDepth_fold {R : Type} [Semiring R] (lg : Nat → R) {program : List (Nat × List SInst)} {original : List (Nat × SInst)}
    {s : DepthSt} (h : original.foldlM qualityTurn ⟨program, 0, []⟩ = .ok s) :
    highestDepth lg (newQuality R program original) = .ok (some s.depth, { countSolutions lg (newQuality R program original) with
      count := none, program := s.program, depth := some s.depth, depthBins := s.bins }) := by
  show (do
      let q ← (do
        let s ← original.foldlM qualityTurn ⟨program, 0, []⟩
        Except.ok { countSolutions lg (newQuality R program original) with
          count := none, program := s.program, depth := some s.depth, depthBins := s.bins })
      Except.ok (q.depth, q) : Py (Option Rat × Quality R)) = _
  rw [h]
  rfl

/-- An original that is missing from its address counts as one more than all; the numbers
of candidates are kept apart. -/
theorem C78_exact_case (lg : Nat → Rat) : ∃ d q,
    highestDepth lg (newQuality Rat [(0, [⟨5, 1, false, 0⟩, ⟨7, 2, false, 1⟩]), (4, [⟨5, 1, false, 0⟩]), (8, [])]
      [(0, ⟨5, 2, false, 0⟩), (4, ⟨5, 3, false, 0⟩), (8, ⟨0, 0, true, 0⟩)]) = .ok (d, q) ∧
    d = some 2 ∧ dictGet q.depthBins 2 = some (1 / 2) ∧ dictGet q.depthBins 1 = some 2 ∧ dictGet q.depthBins 0 = none ∧
    dictGet q.program 0 = some [⟨7, 2, false, 1⟩, ⟨5, 1, false, 0⟩] := by
  have hb : (match [(0, (⟨5, 2, false, 0⟩ : SInst)), (4, ⟨5, 3, false, 0⟩), (8, ⟨0, 0, true, 0⟩)].foldlM qualityTurn
      ⟨[(0, [⟨5, 1, false, 0⟩, ⟨7, 2, false, 1⟩]), (4, [⟨5, 1, false, 0⟩]), (8, [])], 0, []⟩ with
      | .ok s => decide (s.depth = 2 ∧ dictGet s.bins 2 = some (1 / 2) ∧ dictGet s.bins 1 = some 2 ∧ dictGet s.bins 0 = none ∧
          dictGet s.program 0 = some [⟨7, 2, false, 1⟩, ⟨5, 1, false, 0⟩])
      | .error _ => false) = true := by decide +kernel
  split at hb
  · next s hs =>
    obtain ⟨h1, h2, h3, h4, h5⟩ := of_decide_eq_true hb
    exact ⟨_, _, highestDepth_fold lg hs, congrArg some h1, h2, h3, h4, h5⟩
  · cases hb

end Verif
