import Verif.Proof.Metadata
import Mathlib.Algebra.Order.Field.Rat
import Mathlib.Tactic.Linarith
import Mathlib.Tactic.FieldSimp
import Mathlib.Tactic.Positivity

/-! # Properties C35–C37 and C77: collected metadata -/

namespace Verif
open Spec

/-- The collector at the start of `collect`. -/
def startOf (c : Collector) : Collector :=
  { c with emptySpaces := [], encodings := [], dist := fun _ => 0, defined := fun _ => false, meanAcc := [] }

theorem defined_ok (p : List MInst) : ∀ x ∈ defined p, x.ignore = false := by
  intro x hx
  have := (List.mem_filter.1 hx).2
  simpa using this

/-! ### C35 -/

theorem count_fold (p : List MInst) (hp : ∀ x ∈ p, x.ignore = false) (c : Collector) :
    (∀ k, dictGet (p.foldl collectTurn c).conditionCnt k =
      plus (dictGet c.conditionCnt k) (p.countP fun x => decide (x.cond = k))) ∧
    (∀ k, dictGet (p.foldl collectTurn c).instructionCnt k =
      plus (dictGet c.instructionCnt k) (p.countP fun x => decide (x.opcode = k))) ∧
    (∀ k, dictGet (p.foldl collectTurn c).storageCnt k =
      plus (dictGet c.storageCnt k) (p.map fun x => x.used.count k).sum) ∧
    ((p.foldl collectTurn c).conditionCnt.map (·.2)).sum =
      (c.conditionCnt.map (·.2)).sum + p.length ∧
    ((p.foldl collectTurn c).instructionCnt.map (·.2)).sum =
      (c.instructionCnt.map (·.2)).sum + p.length := by
  induction p using List.reverseRecOn with
  | nil => simp [plus]
  | append_singleton p x ih =>
    obtain ⟨i1, i2, i3, i4, i5⟩ := ih fun y hy => hp y (by simp [hy])
    have hs := same_collectTurn (p.foldl collectTurn c) x (hp x (by simp))
    rw [List.foldl_append, List.foldl_cons, List.foldl_nil]
    refine ⟨?_, ?_, ?_, ?_, ?_⟩
    · intro k
      rw [hs.conditionCnt, countTurn_conditionCnt, dictGet_incKey, i1, List.countP_append]
      by_cases hk : x.cond = k
      · simp [hk, plus]; split <;> simp_all <;> omega
      · simp [hk]
    · intro k
      rw [hs.instructionCnt, countTurn_instructionCnt, dictGet_incKey, i2, List.countP_append]
      by_cases hk : x.opcode = k
      · simp [hk, plus]; split <;> simp_all <;> omega
      · simp [hk]
    · intro k
      rw [hs.storageCnt, countTurn_storageCnt, dictGet_incKeys, i3, plus_plus]
      simp
    · rw [hs.conditionCnt, countTurn_conditionCnt, total_incKey, i4]; simp; omega
    · rw [hs.instructionCnt, countTurn_instructionCnt, total_incKey, i5]; simp; omega

theorem collectMeta_counts (c : Collector) (insts : List MInst) :
    (collectMeta c insts).conditionCnt =
      ((defined insts).foldl collectTurn (startOf c)).conditionCnt ∧
    (collectMeta c insts).instructionCnt =
      ((defined insts).foldl collectTurn (startOf c)).instructionCnt ∧
    (collectMeta c insts).storageCnt =
      ((defined insts).foldl collectTurn (startOf c)).storageCnt := by
  unfold collectMeta
  rw [← fold_defined]
  exact ⟨rfl, rfl, rfl⟩

/-- **C35.**  After collecting a program with a new collector, each counter is
the number of occurrences over the defined instructions, values that do not
occur have no counter, and the condition and opcode counters both total the
number of defined instructions. -/
theorem C35_counts (insts : List MInst) :
    (∀ k, dictGet (collectMeta {} insts).conditionCnt k =
      if (defined insts).countP (fun x => decide (x.cond = k)) = 0 then none
      else some ((defined insts).countP fun x => decide (x.cond = k))) ∧
    (∀ k, dictGet (collectMeta {} insts).instructionCnt k =
      if (defined insts).countP (fun x => decide (x.opcode = k)) = 0 then none
      else some ((defined insts).countP fun x => decide (x.opcode = k))) ∧
    (∀ k, dictGet (collectMeta {} insts).storageCnt k =
      if ((defined insts).map fun x => x.used.count k).sum = 0 then none
      else some ((defined insts).map fun x => x.used.count k).sum) ∧
    ((collectMeta {} insts).conditionCnt.map (·.2)).sum = (defined insts).length ∧
    ((collectMeta {} insts).instructionCnt.map (·.2)).sum = (defined insts).length := by
  obtain ⟨e1, e2, e3⟩ := collectMeta_counts {} insts
  obtain ⟨h1, h2, h3, h4, h5⟩ := count_fold (defined insts) (defined_ok insts) (startOf {})
  rw [e1, e2, e3]
  refine ⟨?_, ?_, ?_, ?_, ?_⟩
  · intro k; rw [h1]; simp [plus, startOf, dictGet_nil]
  · intro k; rw [h2]; simp [plus, startOf, dictGet_nil]
  · intro k; rw [h3]; simp only [plus, startOf, dictGet_nil]; split <;> simp
  · rw [h4]; simp [startOf]
  · rw [h5]; simp [startOf]

/-- Collecting again with the same collector adds to the counters. -/
theorem C35_accumulates (c : Collector) (insts : List MInst) (k : Int) (o s : Nat) :
    (dictGet (collectMeta c insts).conditionCnt k).getD 0 =
      (dictGet c.conditionCnt k).getD 0 + (defined insts).countP (fun x => decide (x.cond = k)) ∧
    (dictGet (collectMeta c insts).instructionCnt o).getD 0 =
      (dictGet c.instructionCnt o).getD 0 + (defined insts).countP (fun x => decide (x.opcode = o)) ∧
    (dictGet (collectMeta c insts).storageCnt s).getD 0 =
      (dictGet c.storageCnt s).getD 0 + ((defined insts).map fun x => x.used.count s).sum := by
  obtain ⟨e1, e2, e3⟩ := collectMeta_counts c insts
  obtain ⟨h1, h2, h3, _, _⟩ := count_fold (defined insts) (defined_ok insts) (startOf c)
  rw [e1, e2, e3, h1, h2, h3]
  have key : ∀ (o : Option Nat) (n : Nat), (plus o n).getD 0 = o.getD 0 + n := by
    intro o n; unfold plus; split <;> simp_all
  exact ⟨key _ _, key _ _, key _ _⟩

/-- A small program: two instructions, the second reads what the first wrote. -/
def demoProgram : List MInst :=
  [⟨false, 10, 14, 3, [1, 2], [2], [1]⟩, ⟨true, 99, 0, 0, [], [], []⟩,
   ⟨false, 30, 14, 5, [4], [], [4]⟩, ⟨false, 20, 0, 3, [3, 1], [1], [3]⟩]

example : (collectMeta {} demoProgram).conditionCnt = [(14, 2), (0, 1)] ∧
    (collectMeta {} demoProgram).storageCnt = [(1, 2), (2, 1), (4, 1), (3, 1)] := by decide +kernel

/-! ### C36 -/

theorem acc_keys (p : List MInst) (hp : ∀ x ∈ p, x.ignore = false) (c : Collector)
    (h : (c.meanAcc.map (·.1)).Nodup) : ((p.foldl collectTurn c).meanAcc.map (·.1)).Nodup := by
  induction p using List.reverseRecOn with
  | nil => exact h
  | append_singleton p x ih =>
    rw [List.foldl_append, List.foldl_cons, List.foldl_nil]
    apply (same_collectTurn _ x (hp x (by simp))).keys
    rw [countTurn_meanAcc]
    exact ih fun y hy => hp y (by simp [hy])

theorem meanDist_fold (p : List MInst) (hp : ∀ x ∈ p, x.ignore = false) (c : Collector) :
    (p.foldl collectTurn c).meanDist = c.meanDist := by
  induction p using List.reverseRecOn with
  | nil => rfl
  | append_singleton p x ih =>
    rw [List.foldl_append, List.foldl_cons, List.foldl_nil,
      (same_collectTurn _ x (hp x (by simp))).meanDist, countTurn_meanDist]
    exact ih fun y hy => hp y (by simp [hy])

theorem mean_get : ∀ (acc : List (Nat × (Nat × Nat))) (m : List (Nat × Rat)) (s : Nat),
    (acc.map (·.1)).Nodup →
    dictGet (acc.foldl (fun m p => dictSet m p.1 ((p.2.1 : Rat) / (p.2.2 : Rat))) m) s =
      match dictGet acc s with
      | none => dictGet m s
      | some a => some ((a.1 : Rat) / (a.2 : Rat)) := by
  intro acc
  induction acc with
  | nil => intro m s _; simp [dictGet_nil]
  | cons p acc ih =>
    intro m s hn
    rw [List.map_cons, List.nodup_cons] at hn
    rw [List.foldl_cons, ih _ _ hn.2, dictGet_cons]
    by_cases h : p.1 = s
    · subst h
      have : dictGet acc p.1 = none := (dictGet_eq_none acc p.1).2 hn.1
      rw [this]
      simp [dictGet_dictSet]
    · rw [if_neg h]
      cases dictGet acc s with
      | none => simp [dictGet_dictSet, h]
      | some a => rfl

/-- The statistics after `collect`, for a collector possibly used before. -/
theorem collect_dist (c : Collector) (insts : List MInst) (s : Nat) (hs : s < 20) :
    dictGet (collectMeta c insts).minDist s =
      (distances (defined insts) s).min?.or (dictGet c.minDist s) ∧
    dictGet (collectMeta c insts).maxDist s =
      (distances (defined insts) s).max?.or (dictGet c.maxDist s) ∧
    dictGet (collectMeta c insts).meanDist s =
      if distances (defined insts) s = [] then dictGet c.meanDist s
      else some (((distances (defined insts) s).sum : Rat) / ((distances (defined insts) s).length : Rat)) := by
  have hd := dinv_fold s hs (startOf c) rfl (by simp [startOf, dictGet_nil]) (defined insts) (defined_ok insts)
  have hk := acc_keys (defined insts) (defined_ok insts) (startOf c) (by simp [startOf])
  have hm := meanDist_fold (defined insts) (defined_ok insts) (startOf c)
  have e : collectMeta c insts =
      { (defined insts).foldl collectTurn (startOf c) with
        meanDist := ((defined insts).foldl collectTurn (startOf c)).meanAcc.foldl
          (fun m p => dictSet m p.1 ((p.2.1 : Rat) / (p.2.2 : Rat)))
          ((defined insts).foldl collectTurn (startOf c)).meanDist
        emptySpaces := ((defined insts).foldl collectTurn (startOf c)).emptySpaces.insertionSort
          fun a b => b.encoding ≤ a.encoding } := by
    unfold collectMeta
    rw [← fold_defined]
    rfl
  rw [e]
  refine ⟨hd.mn, hd.mx, ?_⟩
  dsimp only
  rw [mean_get _ _ _ hk]
  have ha : dictGet ((defined insts).foldl collectTurn (startOf c)).meanAcc s =
    if distances (defined insts) s = [] then none
    else some ((distances (defined insts) s).sum, (distances (defined insts) s).length) := hd.acc
  rw [ha, hm]
  by_cases hD : distances (defined insts) s = []
  · simp [hD, startOf]
  · simp [hD]

/-- **C36.**  After collecting a program with a new collector, the smallest,
largest and mean distance of every storage are those of the list of all its
write-to-read distances. -/
theorem C36_distances (insts : List MInst) (s : Nat) (hs : s < 20) :
    dictGet (collectMeta {} insts).minDist s = (distances (defined insts) s).min? ∧
    dictGet (collectMeta {} insts).maxDist s = (distances (defined insts) s).max? ∧
    dictGet (collectMeta {} insts).meanDist s =
      if distances (defined insts) s = [] then none
      else some (((distances (defined insts) s).sum : Rat) / ((distances (defined insts) s).length : Rat)) := by
  obtain ⟨h1, h2, h3⟩ := collect_dist {} insts s hs
  rw [h1, h2, h3]
  simp [dictGet_nil]

/-- A distance exists exactly when some instruction reads the storage after
another one wrote it. -/
theorem C36_exists (p : List MInst) (s : Nat) :
    distances p s ≠ [] ↔
      ∃ (i j : Nat) (x y : MInst), i < j ∧ p[i]? = some x ∧ p[j]? = some y ∧ s ∈ x.written ∧ s ∈ y.read := by
  constructor
  · intro h
    obtain ⟨d, hd⟩ := List.exists_mem_of_ne_nil _ h
    obtain ⟨j, _, hj⟩ := List.mem_filterMap.1 hd
    unfold distAt at hj
    split at hj
    · rename_i y i hy hi
      split at hj
      · simp at hj
      · rename_i x hx
        split at hj
        · rename_i hc
          exact ⟨i, j, x, y, (lastTouch_lt hi).1, hx, hy, hc.2, hc.1⟩
        · simp at hj
    · simp at hj
  · rintro ⟨i, j, x, y, hij, hx, hy, hw, hr⟩
    -- choose the closest such pair
    obtain ⟨n, hn⟩ : ∃ n, n = j - i := ⟨_, rfl⟩
    induction n using Nat.strongRecOn generalizing i j x y with
    | _ n ih =>
      by_cases hbetween : ∃ k z, i < k ∧ k < j ∧ p[k]? = some z ∧ (s ∈ z.read ∨ s ∈ z.written)
      · obtain ⟨k, z, h1, h2, h3, h4⟩ := hbetween
        rcases h4 with h4 | h4
        · exact ih (k - i) (by omega) i k x z h1 hx h3 hw h4 rfl
        · exact ih (j - k) (by omega) k j z y h2 h3 hy h4 hr rfl
      · have hl : lastTouch p s j = some i := by
          unfold lastTouch
          have hsplit : (List.range j).reverse =
              (List.range' (i + 1) (j - i - 1)).reverse ++ (i :: (List.range i).reverse) := by
            have : List.range j = List.range i ++ (i :: List.range' (i + 1) (j - i - 1)) := by
              rw [List.range_eq_range', List.range_eq_range']
              have : i :: List.range' (i + 1) (j - i - 1) = List.range' i (j - i) := by
                have e : j - i = (j - i - 1) + 1 := by omega
                rw [e, List.range'_succ]
                simp
              rw [this]
              have := List.range'_append (s := 0) (m := i) (n := j - i) (step := 1)
              rw [Nat.zero_add, Nat.one_mul] at this
              rw [this]
              congr 1; omega
            rw [this]; simp
          rw [hsplit, List.find?_append]
          refine (congrArg (Option.or · _) (List.find?_eq_none.2 ?_)).trans ?_
          · intro k hk
            rw [List.mem_reverse, List.mem_range'_1] at hk
            cases hz : p[k]? with
            | none => simp
            | some z =>
              simp only [decide_eq_true_eq]
              intro hc
              exact hbetween ⟨k, z, by omega, by omega, hz, hc⟩
          · rw [Option.none_or, List.find?_cons]
            simp [hx, hw]
        have hd : distAt p s j = some (j - i - 1) := by
          unfold distAt
          rw [hy, hl]
          simp [hx, hr, hw]
        have hjl : j < p.length := (List.getElem?_eq_some_iff.1 hy).1
        have : j - i - 1 ∈ distances p s :=
          List.mem_filterMap.2 ⟨j, List.mem_range.2 hjl, hd⟩
        exact List.ne_nil_of_mem this

/-- Every distance is the number of instructions between a write and a read of
the storage with none in between touching it. -/
theorem C36_attained (p : List MInst) (s d : Nat) (hd : d ∈ distances p s) :
    ∃ i j x y, j = i + d + 1 ∧ p[i]? = some x ∧ p[j]? = some y ∧ s ∈ x.written ∧ s ∈ y.read ∧
      ∀ k z, i < k → k < j → p[k]? = some z → s ∉ z.read ∧ s ∉ z.written := by
  obtain ⟨j, hjl, hj⟩ := List.mem_filterMap.1 hd
  unfold distAt at hj
  split at hj
  · rename_i y i hy hi
    split at hj
    · simp at hj
    · rename_i x hx
      split at hj
      · rename_i hc
        simp only [Option.some.injEq] at hj
        have hij := (lastTouch_lt hi).1
        refine ⟨i, j, x, y, by omega, hx, hy, hc.2, hc.1, ?_⟩
        intro k z hik hkj hz
        unfold lastTouch at hi
        rw [List.find?_eq_some_iff_append] at hi
        obtain ⟨_, as, bs, hab, hno⟩ := hi
        -- `k` comes before `i` in the reversed range
        have hmem : k ∈ as := by
          have hr : List.range j = bs.reverse ++ (i :: as.reverse) := by
            have := congrArg List.reverse hab
            simpa using this
          have hk : k ∈ List.range j := List.mem_range.2 hkj
          rw [hr] at hk
          have hpw : (List.range j).Pairwise (· < ·) := List.pairwise_lt_range
          rw [hr, List.pairwise_append] at hpw
          rcases List.mem_append.1 hk with h | h
          · have := hpw.2.2 k h i (by simp)
            omega
          · rcases List.mem_cons.1 h with h | h
            · omega
            · simpa using h
        have := hno k hmem
        rw [hz] at this
        simpa using this
      · simp at hj
  · simp at hj

/-- The smallest, mean and largest distance are in order and below the length
of the program. -/
theorem C36_order (insts : List MInst) (s : Nat) (hs : s < 20) (mn mx : Nat) (mean : Rat)
    (h1 : dictGet (collectMeta {} insts).minDist s = some mn)
    (h2 : dictGet (collectMeta {} insts).maxDist s = some mx)
    (h3 : dictGet (collectMeta {} insts).meanDist s = some mean) :
    (mn : Rat) ≤ mean ∧ mean ≤ mx ∧ mx + 2 ≤ (defined insts).length := by
  obtain ⟨e1, e2, e3⟩ := C36_distances insts s hs
  rw [e1] at h1
  rw [e2] at h2
  rw [e3] at h3
  have hmin := List.min?_eq_some_iff.1 h1
  have hmax := List.max?_eq_some_iff.1 h2
  generalize hD : distances (defined insts) s = D at *
  have hne : D ≠ [] := List.ne_nil_of_mem hmin.1
  rw [if_neg hne, Option.some.injEq] at h3
  have hlow : ∀ D : List Nat, (∀ b ∈ D, mn ≤ b) → mn * D.length ≤ D.sum := by
    intro D
    induction D with
    | nil => simp
    | cons a D ih =>
      intro h
      have := ih fun b hb => h b (by simp [hb])
      have := h a (by simp)
      simp only [List.length_cons, List.sum_cons, Nat.mul_add, Nat.mul_one]; omega
  have hhigh : ∀ D : List Nat, (∀ b ∈ D, b ≤ mx) → D.sum ≤ mx * D.length := by
    intro D
    induction D with
    | nil => simp
    | cons a D ih =>
      intro h
      have := ih fun b hb => h b (by simp [hb])
      have := h a (by simp)
      simp only [List.length_cons, List.sum_cons, Nat.mul_add, Nat.mul_one]; omega
  have l := hlow D (fun b hb => hmin.2 b hb)
  have u := hhigh D (fun b hb => hmax.2 b hb)
  have hpos : (0 : Rat) < (D.length : Rat) := by
    have := List.length_pos_of_ne_nil hne
    exact_mod_cast this
  subst h3
  refine ⟨?_, ?_, ?_⟩
  · rw [le_div_iff₀ hpos]; exact_mod_cast l
  · rw [div_le_iff₀ hpos]; exact_mod_cast u
  · have : mx ∈ distances (defined insts) s := hD ▸ hmax.1
    obtain ⟨i, j, x, y, hj, _, hy, _⟩ := C36_attained _ _ _ this
    have := (List.getElem?_eq_some_iff.1 hy).1
    omega

/-- Storages outside the tracked range never get statistics. -/
theorem C36_untracked (insts : List MInst) (s : Nat) (hs : 20 ≤ s) :
    dictGet (collectMeta {} insts).minDist s = none ∧
    dictGet (collectMeta {} insts).maxDist s = none := by
  have key : ∀ (p : List MInst) (c : Collector), (∀ x ∈ p, x.ignore = false) →
      dictGet (p.foldl collectTurn c).minDist s = dictGet c.minDist s ∧
      dictGet (p.foldl collectTurn c).maxDist s = dictGet c.maxDist s := by
    intro p
    induction p with
    | nil => intro c _; exact ⟨rfl, rfl⟩
    | cons x p ih =>
      intro c hp
      rw [List.foldl_cons]
      obtain ⟨a, b⟩ := ih (collectTurn c x) fun y hy => hp y (by simp [hy])
      rw [a, b, collectTurn_defined c x (hp x (by simp))]
      have hw : ∀ (ts : List Nat) (c : Collector), (ts.foldl writeTurn c).minDist = c.minDist ∧
          (ts.foldl writeTurn c).maxDist = c.maxDist := by
        intro ts
        induction ts with
        | nil => intro c; exact ⟨rfl, rfl⟩
        | cons t ts ih =>
          intro c
          rw [List.foldl_cons, (ih _).1, (ih _).2]
          unfold writeTurn
          split <;> exact ⟨rfl, rfl⟩
      rw [(hw _ _).1, (hw _ _).2]
      have hv := view_readFold x.read s (List.range storageCount) (countTurn c x) List.nodup_range
      rw [if_neg (by simp [storageCount]; omega), view_countTurn] at hv
      exact ⟨congrArg View.mn hv, congrArg View.mx hv⟩
  have := key (defined insts) (startOf {}) (defined_ok insts)
  have e : (collectMeta {} insts).minDist = ((defined insts).foldl collectTurn (startOf {})).minDist ∧
      (collectMeta {} insts).maxDist = ((defined insts).foldl collectTurn (startOf {})).maxDist := by
    unfold collectMeta
    rw [← fold_defined]
    exact ⟨rfl, rfl⟩
  rw [e.1, e.2, this.1, this.2]
  simp [startOf, dictGet_nil]

example : (collectMeta {} demoProgram).minDist = [(1, 1)] ∧
    distances (defined demoProgram) 1 = [1] := by decide +kernel

/-! ### C77 -/

/-- The first instruction with each encoding. -/
theorem spaces_fold (p : List MInst) (hp : ∀ x ∈ p, x.ignore = false) (c : Collector)
    (h0 : c.encodings = []) (h1 : c.emptySpaces = []) :
    (p.foldl collectTurn c).emptySpaces.map (·.encoding) = (p.foldl collectTurn c).encodings ∧
    (p.foldl collectTurn c).encodings.Nodup ∧
    (∀ e, e ∈ (p.foldl collectTurn c).encodings ↔ ∃ x ∈ p, x.encoding = e) ∧
    (∀ x ∈ (p.foldl collectTurn c).emptySpaces, p.find? (fun y => y.encoding = x.encoding) = some x) := by
  induction p using List.reverseRecOn with
  | nil => simp [h0, h1]
  | append_singleton p x ih =>
    obtain ⟨i1, i2, i3, i4⟩ := ih fun y hy => hp y (by simp [hy])
    have hs := same_collectTurn (p.foldl collectTurn c) x (hp x (by simp))
    rw [List.foldl_append, List.foldl_cons, List.foldl_nil, hs.emptySpaces, hs.encodings]
    generalize p.foldl collectTurn c = c' at *
    by_cases hx : x.encoding ∈ c'.encodings
    · have e : (countTurn c' x).emptySpaces = c'.emptySpaces ∧ (countTurn c' x).encodings = c'.encodings := by
        unfold countTurn; simp [hx]
      rw [e.1, e.2]
      refine ⟨i1, i2, ?_, ?_⟩
      · intro n
        rw [i3]
        constructor
        · rintro ⟨y, hy, h⟩; exact ⟨y, by simp [hy], h⟩
        · rintro ⟨y, hy, h⟩
          rcases List.mem_append.1 hy with hy | hy
          · exact ⟨y, hy, h⟩
          · rw [List.mem_singleton] at hy
            subst hy
            obtain ⟨z, hz, he⟩ := (i3 _).1 hx
            exact ⟨z, hz, he.trans h⟩
      · intro y hy
        rw [List.find?_append, i4 y hy]; rfl
    · have e : (countTurn c' x).emptySpaces = c'.emptySpaces ++ [x] ∧
          (countTurn c' x).encodings = c'.encodings ++ [x.encoding] := by
        unfold countTurn; simp [hx]
      rw [e.1, e.2]
      refine ⟨by simp [i1], ?_, ?_, ?_⟩
      · refine List.nodup_append.2 ⟨i2, by simp, ?_⟩
        intro a ha b hb
        rw [List.mem_singleton] at hb
        subst hb
        rintro rfl
        exact hx ha
      · intro n
        rw [List.mem_append, i3, List.mem_singleton]
        constructor
        · rintro (⟨y, hy, h⟩ | h)
          · exact ⟨y, by simp [hy], h⟩
          · exact ⟨x, by simp, h.symm⟩
        · rintro ⟨y, hy, h⟩
          rcases List.mem_append.1 hy with hy | hy
          · exact Or.inl ⟨y, hy, h⟩
          · rw [List.mem_singleton] at hy
            subst hy
            exact Or.inr h.symm
      · intro y hy
        rw [List.find?_append]
        rcases List.mem_append.1 hy with hy | hy
        · rw [i4 y hy]; rfl
        · rw [List.mem_singleton] at hy
          subst hy
          have : p.find? (fun z => decide (z.encoding = y.encoding)) = none := by
            rw [List.find?_eq_none]
            intro z hz
            simp only [decide_eq_true_eq]
            intro he
            exact hx ((i3 _).2 ⟨z, hz, he⟩)
          rw [this]
          simp

/-- **C77.**  The encodings kept as references for unused encodings are exactly
the different encodings of the defined instructions, once each, in strictly
decreasing order, each represented by its first occurrence. -/
theorem C77_spaces (c : Collector) (insts : List MInst) :
    (collectMeta c insts).emptySpaces.Pairwise (fun a b => b.encoding < a.encoding) ∧
    (∀ e, e ∈ (collectMeta c insts).emptySpaces.map (·.encoding) ↔
      ∃ x ∈ insts, x.ignore = false ∧ x.encoding = e) ∧
    (∀ x ∈ (collectMeta c insts).emptySpaces,
      insts.find? (fun y => !y.ignore && decide (y.encoding = x.encoding)) = some x) := by
  obtain ⟨h1, h2, h3, h4⟩ := spaces_fold (defined insts) (defined_ok insts) (startOf c) rfl rfl
  have e : (collectMeta c insts).emptySpaces =
      ((defined insts).foldl collectTurn (startOf c)).emptySpaces.insertionSort
        fun a b => b.encoding ≤ a.encoding := by
    unfold collectMeta
    rw [← fold_defined]
    rfl
  rw [e]
  generalize (defined insts).foldl collectTurn (startOf c) = c' at *
  have hperm := List.perm_insertionSort (fun a b : MInst => b.encoding ≤ a.encoding) c'.emptySpaces
  have : Std.Total (fun a b : MInst => b.encoding ≤ a.encoding) := ⟨fun a b => Nat.le_total _ _⟩
  have : IsTrans MInst (fun a b : MInst => b.encoding ≤ a.encoding) := ⟨fun a b c h h' => Nat.le_trans h' h⟩
  have hsort := List.pairwise_insertionSort (fun a b : MInst => b.encoding ≤ a.encoding) c'.emptySpaces
  refine ⟨?_, ?_, ?_⟩
  · have hn : ((c'.emptySpaces.insertionSort fun a b : MInst => b.encoding ≤ a.encoding).map
        (fun x : MInst => x.encoding)).Nodup := by
      rw [(hperm.map (fun x : MInst => x.encoding)).nodup_iff, h1]
      exact h2
    have hne := List.pairwise_map.1 hn
    exact (hsort.and hne).imp fun {a b} h => by
      have := h.1; have := h.2; omega
  · intro n
    rw [(hperm.map (fun x : MInst => x.encoding)).mem_iff, h1, h3]
    constructor
    · rintro ⟨x, hx, he⟩
      exact ⟨x, (List.mem_filter.1 hx).1, defined_ok insts x hx, he⟩
    · rintro ⟨x, hx, hi, he⟩
      exact ⟨x, List.mem_filter.2 ⟨hx, by simp [hi]⟩, he⟩
  · intro x hx
    have := h4 x (hperm.mem_iff.1 hx)
    unfold defined at this
    rw [List.find?_filter] at this
    rw [← this]
    apply find_congr
    intro y _
    simp [Bool.decide_and]

example : (collectMeta {} demoProgram).emptySpaces.map (·.encoding) = [30, 20, 10] := by decide +kernel

/-! ### C37 -/

theorem address_fold (insts : List MInst) :
    (((addressKeys insts).1.map (·.1)).Nodup ∧
      ∀ k, k ∈ (addressKeys insts).1.map (·.1) ↔ ∃ x ∈ insts, x.ignore = false ∧ x.cond = k) ∧
    (((addressKeys insts).2.1.map (·.1)).Nodup ∧
      ∀ k, k ∈ (addressKeys insts).2.1.map (·.1) ↔ ∃ x ∈ insts, x.ignore = false ∧ x.opcode = k) ∧
    (((addressKeys insts).2.2.map (·.1)).Nodup ∧
      ∀ k, k ∈ (addressKeys insts).2.2.map (·.1) ↔ ∃ x ∈ insts, x.ignore = false ∧ k ∈ x.used) := by
  have hused : ∀ (us : List Nat) (d : List (Nat × Nat)), (d.map (·.1)).Nodup →
      ((us.foldl (fun r k => dictSet r k 1) d).map (·.1)).Nodup ∧
      ∀ k, k ∈ (us.foldl (fun r k => dictSet r k 1) d).map (·.1) ↔ k ∈ d.map (·.1) ∨ k ∈ us := by
    intro us
    induction us with
    | nil => intro d hd; simp [hd]
    | cons u us ih =>
      intro d hd
      obtain ⟨h1, h2⟩ := ih (dictSet d u 1) (keys_dictSet_nodup _ _ _ hd)
      refine ⟨h1, ?_⟩
      intro k
      rw [List.foldl_cons, h2, keys_dictSet]
      split
      · rename_i hu
        constructor
        · rintro (h | h)
          · exact Or.inl h
          · exact Or.inr (by simp [h])
        · rintro (h | h)
          · exact Or.inl h
          · rcases List.mem_cons.1 h with rfl | h
            · exact Or.inl hu
            · exact Or.inr h
      · rw [List.mem_append, List.mem_singleton, List.mem_cons]; tauto
  have hset : ∀ {α : Type} [DecidableEq α] (d : List (α × Nat)) (u k : α),
      k ∈ (dictSet d u 1).map (·.1) ↔ k ∈ d.map (·.1) ∨ k = u := by
    intro α _ d u k
    rw [keys_dictSet]
    split
    · rename_i hu
      constructor
      · exact Or.inl
      · rintro (h | rfl)
        · exact h
        · exact hu
    · simp
  unfold addressKeys
  induction insts using List.reverseRecOn with
  | nil => simp
  | append_singleton p x ih =>
    rw [List.foldl_append, List.foldl_cons, List.foldl_nil]
    generalize List.foldl _ ([], [], []) p = s at ih
    obtain ⟨⟨n1, i1⟩, ⟨n2, i2⟩, ⟨n3, i3⟩⟩ := ih
    by_cases hx : x.ignore
    · rw [if_pos hx]
      have : ∀ f : MInst → Prop, (∃ y ∈ p ++ [x], y.ignore = false ∧ f y) ↔
          ∃ y ∈ p, y.ignore = false ∧ f y := by
        intro f
        constructor
        · rintro ⟨y, hy, h, h'⟩
          rcases List.mem_append.1 hy with hy | hy
          · exact ⟨y, hy, h, h'⟩
          · rw [List.mem_singleton] at hy; subst hy; rw [hx] at h; simp at h
        · rintro ⟨y, hy, h⟩; exact ⟨y, by simp [hy], h⟩
      refine ⟨⟨n1, ?_⟩, ⟨n2, ?_⟩, ⟨n3, ?_⟩⟩
      · intro k; rw [i1, this fun y => y.cond = k]
      · intro k; rw [i2, this fun y => y.opcode = k]
      · intro k; rw [i3, this fun y => k ∈ y.used]
    · rw [if_neg hx]
      have hx' : x.ignore = false := by simpa using hx
      have : ∀ f : MInst → Prop, (∃ y ∈ p ++ [x], y.ignore = false ∧ f y) ↔
          (∃ y ∈ p, y.ignore = false ∧ f y) ∨ f x := by
        intro f
        constructor
        · rintro ⟨y, hy, h, h'⟩
          rcases List.mem_append.1 hy with hy | hy
          · exact Or.inl ⟨y, hy, h, h'⟩
          · rw [List.mem_singleton] at hy; subst hy; exact Or.inr h'
        · rintro (⟨y, hy, h⟩ | h)
          · exact ⟨y, by simp [hy], h⟩
          · exact ⟨x, by simp, hx', h⟩
      refine ⟨⟨keys_dictSet_nodup _ _ _ n1, ?_⟩, ⟨keys_dictSet_nodup _ _ _ n2, ?_⟩,
        ⟨(hused _ _ n3).1, ?_⟩⟩
      · intro k; rw [hset, i1, this fun y => y.cond = k, eq_comm (a := k)]
      · intro k; rw [hset, i2, this fun y => y.opcode = k, eq_comm (a := k)]
      · intro k; rw [(hused _ _ n3).2, i3, this fun y => k ∈ y.used]

theorem count_of_nodup {α : Type} [DecidableEq α] {l : List α} (h : l.Nodup) (k : α) :
    l.count k = if k ∈ l then 1 else 0 := by
  split
  · rename_i hk; exact List.count_eq_one_of_mem h hk
  · rename_i hk; exact List.count_eq_zero.2 hk

/-- **C37.**  The corrupted-program counters are the number of addresses having
a defined candidate with that condition, opcode or storage; what occurs at no
address has no counter. -/
theorem C37_addresses {α : Type} (program : List (α × List MInst)) :
    (∀ k, dictGet (collectCorrupted program).1 k =
      let n := addressesWith program fun i => decide (i.cond = k)
      if n = 0 then none else some n) ∧
    (∀ k, dictGet (collectCorrupted program).2.1 k =
      let n := addressesWith program fun i => decide (i.opcode = k)
      if n = 0 then none else some n) ∧
    (∀ k, dictGet (collectCorrupted program).2.2 k =
      let n := addressesWith program fun i => decide (k ∈ i.used)
      if n = 0 then none else some n) := by
  have hplus : ∀ n, (if n = 0 then none else some n) = plus none n := by
    intro n; simp [plus]
  simp only [hplus]
  unfold collectCorrupted
  induction program using List.reverseRecOn with
  | nil => simp [dictGet_nil, addressesWith, plus]
  | append_singleton p q ih =>
    rw [List.foldl_append, List.foldl_cons, List.foldl_nil]
    generalize List.foldl _ ([], [], []) p = s at ih
    obtain ⟨i1, i2, i3⟩ := ih
    obtain ⟨⟨n1, a1⟩, ⟨n2, a2⟩, ⟨n3, a3⟩⟩ := address_fold q.2
    have hadd : ∀ f : MInst → Bool, addressesWith (p ++ [q]) f = addressesWith p f +
        if ∃ x ∈ q.2, x.ignore = false ∧ f x = true then 1 else 0 := by
      intro f
      unfold addressesWith
      rw [List.countP_append, List.countP_singleton]
      congr 1
      by_cases h : ∃ x ∈ q.2, x.ignore = false ∧ f x = true
      · rw [if_pos h]
        simpa using h
      · rw [if_neg h]
        simpa using h
    refine ⟨?_, ?_, ?_⟩
    · intro k
      dsimp only
      rw [dictGet_incKeys, i1, plus_plus, hadd, count_of_nodup n1]
      congr 2
      simp only [decide_eq_true_eq, a1]
    · intro k
      dsimp only
      rw [dictGet_incKeys, i2, plus_plus, hadd, count_of_nodup n2]
      congr 2
      simp only [decide_eq_true_eq, a2]
    · intro k
      dsimp only
      rw [dictGet_incKeys, i3, plus_plus, hadd, count_of_nodup n3]
      congr 2
      simp only [decide_eq_true_eq, a3]

example : (collectCorrupted [(0, demoProgram), (4, [⟨false, 1, 14, 3, [1, 1], [], []⟩])]).1 =
    [(14, 2), (0, 1)] ∧ addressesWith [(0, demoProgram), (4, [⟨false, 1, 14, 3, [1, 1], [], []⟩])]
      (fun i => decide (1 ∈ i.used)) = 2 := by decide +kernel

end Verif
