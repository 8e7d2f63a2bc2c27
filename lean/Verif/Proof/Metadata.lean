import Verif.Spec.Metadata
import Verif.Proof.Basic
import Mathlib.Data.List.Induction
import Mathlib.Data.List.Nodup

/-! Lemmas about the metadata collectors. -/

namespace Verif
open Spec

/-! ### Counters -/

theorem dictGet_incKey {α : Type} [DecidableEq α] (d : List (α × Nat)) (k k' : α) :
    dictGet (incKey d k) k' = if k = k' then some ((dictGet d k').getD 0 + 1) else dictGet d k' := by
  unfold incKey
  rw [dictGet_dictSet]
  by_cases h : k = k'
  · subst h
    rw [if_pos rfl, if_pos rfl]
    cases dictGet d k <;> simp
  · rw [if_neg h, if_neg h]

/-- What a counter holds after counting `n` more. -/
def plus (o : Option Nat) (n : Nat) : Option Nat := if n = 0 then o else some (o.getD 0 + n)

theorem dictGet_incKeys {α : Type} [DecidableEq α] (keys : List α) (d : List (α × Nat)) (k : α) :
    dictGet (incKeys d keys) k = plus (dictGet d k) (keys.count k) := by
  unfold incKeys
  induction keys generalizing d with
  | nil => simp [plus]
  | cons a keys ih =>
    rw [List.foldl_cons, ih, dictGet_incKey, List.count_cons]
    unfold plus
    by_cases h : a = k
    · subst h
      simp only [if_true, beq_self_eq_true, Option.getD_some]
      split
      · simp_all
      · simp; omega
    · simp [h]

theorem plus_plus (o : Option Nat) (m n : Nat) : plus (plus o m) n = plus o (m + n) := by
  unfold plus
  split <;> split <;> simp_all <;> omega

theorem keys_incKey {α : Type} [DecidableEq α] (d : List (α × Nat)) (k : α)
    (h : (d.map (·.1)).Nodup) : ((incKey d k).map (·.1)).Nodup := by
  unfold incKey
  rw [keys_dictSet]
  split
  · exact h
  · rename_i hk
    refine List.nodup_append.2 ⟨h, by simp, ?_⟩
    intro x hx y hy
    rw [List.mem_singleton] at hy
    subst hy
    rintro rfl
    exact hk hx

theorem keys_dictSet_nodup {α β : Type} [DecidableEq α] (d : List (α × β)) (k : α) (v : β)
    (h : (d.map (·.1)).Nodup) : ((dictSet d k v).map (·.1)).Nodup := by
  rw [keys_dictSet]
  split
  · exact h
  · rename_i hk
    refine List.nodup_append.2 ⟨h, by simp, ?_⟩
    intro x hx y hy
    rw [List.mem_singleton] at hy
    subst hy
    rintro rfl
    exact hk hx

/-- The sum of the values of a counter grows by one. -/
theorem total_incKey {α : Type} [DecidableEq α] (d : List (α × Nat)) (k : α) :
    ((incKey d k).map (·.2)).sum = (d.map (·.2)).sum + 1 := by
  have key : ∀ (d : List (α × Nat)) (v : Nat), ((dictSet d k v).map (·.2)).sum + (dictGet d k).getD 0
      = (d.map (·.2)).sum + v := by
    intro d v
    induction d with
    | nil => simp [dictSet, dictGet_nil]
    | cons p d ih =>
      rw [dictGet_cons]
      unfold dictSet
      by_cases h : p.1 = k
      · rw [if_pos h, if_pos h]; simp; omega
      · rw [if_neg h, if_neg h]; simp; omega
  unfold incKey
  have := key d (match dictGet d k with | some n => n + 1 | none => 1)
  revert this
  cases dictGet d k <;> simp <;> intro h <;> omega

/-! ### What happens to one storage -/

/-- The part of the collector about storage `s`. -/
structure View where
  defined : Bool
  dist : Nat
  mn : Option Nat
  mx : Option Nat
  acc : Option (Nat × Nat)

def view (s : Nat) (c : Collector) : View :=
  ⟨c.defined s, c.dist s, dictGet c.minDist s, dictGet c.maxDist s, dictGet c.meanAcc s⟩

def viewRead (reads : Bool) (v : View) : View :=
  if v.defined then
    if reads then
      match v.acc with
      | none => ⟨false, 0, some v.dist, some v.dist, some (v.dist, 1)⟩
      | some (t, n) => ⟨false, 0, if v.mn.getD 0 > v.dist then some v.dist else v.mn,
          if v.mx.getD 0 < v.dist then some v.dist else v.mx, some (t + v.dist, n + 1)⟩
    else { v with dist := v.dist + 1 }
  else v

theorem view_readTurn (r : List Nat) (c : Collector) (t s : Nat) :
    view s (readTurn r c t) = if t = s then viewRead (decide (s ∈ r)) (view s c) else view s c := by
  unfold readTurn
  by_cases hd : c.defined t
  · rw [if_pos hd]
    by_cases hr : t ∈ r
    · rw [if_pos hr]
      unfold recordDist
      by_cases hts : t = s
      · subst hts
        rw [if_pos rfl]
        simp only [viewRead, view, hd, hr, decide_true, if_true]
        cases ha : dictGet c.meanAcc t with
        | none => simp [view, upd, dictGet_dictSet]
        | some p =>
          obtain ⟨a, n⟩ := p
          simp only [upd, if_true, dictGet_dictSet, View.mk.injEq, true_and, and_true]
          constructor
          · split
            · simp [dictGet_dictSet]
            · rfl
          · split
            · simp [dictGet_dictSet]
            · rfl
      · have hst : ¬ s = t := fun h => hts h.symm
        rw [if_neg hts]
        cases ha : dictGet c.meanAcc t with
        | none => simp [view, upd, dictGet_dictSet, hts, hst]
        | some p =>
          obtain ⟨a, n⟩ := p
          simp only [view, upd, if_neg hst, dictGet_dictSet, if_neg hts, View.mk.injEq, true_and,
            and_true]
          constructor
          · split
            · simp [dictGet_dictSet, hts]
            · rfl
          · split
            · simp [dictGet_dictSet, hts]
            · rfl
    · rw [if_neg hr]
      by_cases hts : t = s
      · subst hts
        simp [viewRead, view, hd, hr, upd]
      · have hst : ¬ s = t := fun h => hts h.symm
        simp [view, upd, hts, hst]
  · rw [if_neg hd]
    by_cases hts : t = s
    · subst hts
      simp [viewRead, view, hd]
    · rw [if_neg hts]

theorem view_readFold (r : List Nat) (s : Nat) : ∀ (ts : List Nat) (c : Collector), ts.Nodup →
    view s (ts.foldl (readTurn r) c) =
      if s ∈ ts then viewRead (decide (s ∈ r)) (view s c) else view s c := by
  intro ts
  induction ts with
  | nil => intro c _; simp
  | cons t ts ih =>
    intro c hn
    rw [List.nodup_cons] at hn
    rw [List.foldl_cons, ih _ hn.2, view_readTurn]
    by_cases hts : t = s
    · subst hts
      simp [hn.1]
    · have hst : ¬ s = t := fun h => hts h.symm
      simp [hts, hst]

theorem view_writeFold (s : Nat) (hs : s < storageCount + 1) : ∀ (ts : List Nat) (c : Collector),
    view s (ts.foldl writeTurn c) =
      if s ∈ ts then { view s c with defined := true, dist := 0 } else view s c := by
  intro ts
  induction ts with
  | nil => intro c; simp
  | cons t ts ih =>
    intro c
    rw [List.foldl_cons, ih]
    have hw : view s (writeTurn c t) =
        if t = s then { view s c with defined := true, dist := 0 } else view s c := by
      unfold writeTurn
      by_cases hts : t = s
      · subst hts
        rw [if_pos hs, if_pos rfl]
        simp [view, upd]
      · have hst : ¬ s = t := fun h => hts h.symm
        rw [if_neg hts]
        split
        · simp [view, upd, hst]
        · rfl
    rw [hw]
    by_cases hts : t = s
    · subst hts
      simp
    · have hst : ¬ s = t := fun h => hts h.symm
      simp [hts, hst]

/-- The distance folds leave everything else alone. -/
structure Same (c c' : Collector) : Prop where
  storageCnt : c'.storageCnt = c.storageCnt
  conditionCnt : c'.conditionCnt = c.conditionCnt
  instructionCnt : c'.instructionCnt = c.instructionCnt
  meanDist : c'.meanDist = c.meanDist
  emptySpaces : c'.emptySpaces = c.emptySpaces
  encodings : c'.encodings = c.encodings
  keys : (c.meanAcc.map (·.1)).Nodup → (c'.meanAcc.map (·.1)).Nodup

theorem Same.refl (c : Collector) : Same c c := ⟨rfl, rfl, rfl, rfl, rfl, rfl, id⟩

theorem Same.trans {a b c : Collector} (h : Same a b) (h' : Same b c) : Same a c :=
  ⟨h'.1.trans h.1, h'.2.trans h.2, h'.3.trans h.3, h'.4.trans h.4, h'.5.trans h.5, h'.6.trans h.6,
    fun k => h'.7 (h.7 k)⟩

theorem same_readTurn (r : List Nat) (c : Collector) (t : Nat) : Same c (readTurn r c t) := by
  unfold readTurn
  split
  · split
    · unfold recordDist
      cases dictGet c.meanAcc t with
      | none => exact ⟨rfl, rfl, rfl, rfl, rfl, rfl, fun h => keys_dictSet_nodup _ _ _ h⟩
      | some p => exact ⟨rfl, rfl, rfl, rfl, rfl, rfl, fun h => keys_dictSet_nodup _ _ _ h⟩
    · exact ⟨rfl, rfl, rfl, rfl, rfl, rfl, id⟩
  · exact Same.refl c

theorem same_writeTurn (c : Collector) (t : Nat) : Same c (writeTurn c t) := by
  unfold writeTurn
  split
  · exact ⟨rfl, rfl, rfl, rfl, rfl, rfl, id⟩
  · exact Same.refl c

theorem same_foldl {f : Collector → Nat → Collector} (hf : ∀ c t, Same c (f c t)) :
    ∀ (ts : List Nat) (c : Collector), Same c (ts.foldl f c) := by
  intro ts
  induction ts with
  | nil => intro c; exact Same.refl c
  | cons t ts ih => intro c; exact (hf c t).trans (ih _)

/-- The collector before the distance loops of an instruction. -/
def countTurn (c : Collector) (inst : MInst) : Collector :=
  let c := if inst.encoding ∈ c.encodings then c
    else { c with encodings := c.encodings ++ [inst.encoding]
                  emptySpaces := c.emptySpaces ++ [inst] }
  { c with conditionCnt := incKey c.conditionCnt inst.cond
           instructionCnt := incKey c.instructionCnt inst.opcode
           storageCnt := incKeys c.storageCnt inst.used }

theorem collectTurn_defined (c : Collector) (inst : MInst) (h : inst.ignore = false) :
    collectTurn c inst =
      inst.written.foldl writeTurn
        ((List.range storageCount).foldl (readTurn inst.read) (countTurn c inst)) := by
  unfold collectTurn countTurn
  rw [if_neg (by simp [h])]

theorem same_collectTurn (c : Collector) (inst : MInst) (h : inst.ignore = false) :
    Same (countTurn c inst) (collectTurn c inst) := by
  rw [collectTurn_defined c inst h]
  exact (same_foldl (same_readTurn inst.read) _ _).trans (same_foldl same_writeTurn _ _)

theorem countTurn_conditionCnt (c : Collector) (inst : MInst) :
    (countTurn c inst).conditionCnt = incKey c.conditionCnt inst.cond := by
  unfold countTurn; dsimp only; split <;> rfl

theorem countTurn_instructionCnt (c : Collector) (inst : MInst) :
    (countTurn c inst).instructionCnt = incKey c.instructionCnt inst.opcode := by
  unfold countTurn; dsimp only; split <;> rfl

theorem countTurn_storageCnt (c : Collector) (inst : MInst) :
    (countTurn c inst).storageCnt = incKeys c.storageCnt inst.used := by
  unfold countTurn; dsimp only; split <;> rfl

theorem countTurn_meanAcc (c : Collector) (inst : MInst) :
    (countTurn c inst).meanAcc = c.meanAcc := by
  unfold countTurn; dsimp only; split <;> rfl

theorem countTurn_meanDist (c : Collector) (inst : MInst) :
    (countTurn c inst).meanDist = c.meanDist := by
  unfold countTurn; dsimp only; split <;> rfl

theorem view_countTurn (s : Nat) (c : Collector) (inst : MInst) :
    view s (countTurn c inst) = view s c := by
  unfold countTurn view; dsimp only; split <;> rfl

theorem view_collectTurn (s : Nat) (hs : s < storageCount) (c : Collector) (inst : MInst)
    (h : inst.ignore = false) :
    view s (collectTurn c inst) =
      if s ∈ inst.written then
        { viewRead (decide (s ∈ inst.read)) (view s c) with defined := true, dist := 0 }
      else viewRead (decide (s ∈ inst.read)) (view s c) := by
  rw [collectTurn_defined c inst h, view_writeFold s (by omega), view_readFold _ _ _ _ List.nodup_range,
    view_countTurn, if_pos (List.mem_range.2 hs)]

theorem fold_defined (p : List MInst) : ∀ c : Collector,
    p.foldl collectTurn c = (defined p).foldl collectTurn c := by
  unfold defined
  induction p with
  | nil => intro c; rfl
  | cons x p ih =>
    intro c
    by_cases hx : x.ignore
    · rw [List.foldl_cons, List.filter_cons, if_neg (by simp [hx]), ih]
      congr 1
      simp [collectTurn, hx]
    · rw [List.foldl_cons, List.filter_cons, if_pos (by simp [hx]), List.foldl_cons, ih]

/-! ### The specification, one instruction more -/

theorem find_congr {α : Type} {p q : α → Bool} {l : List α} (h : ∀ x ∈ l, p x = q x) :
    l.find? p = l.find? q := by
  induction l with
  | nil => rfl
  | cons a l ih =>
    simp only [List.find?_cons, h a (by simp)]
    rw [ih fun x hx => h x (by simp [hx])]

theorem lastTouch_append (p : List MInst) (x : MInst) (s j : Nat) (hj : j ≤ p.length) :
    lastTouch (p ++ [x]) s j = lastTouch p s j := by
  unfold lastTouch
  apply find_congr
  intro i hi
  have : i < j := by simpa using hi
  rw [List.getElem?_append_left (by omega)]

theorem lastTouch_succ (p : List MInst) (x : MInst) (s : Nat) :
    lastTouch (p ++ [x]) s (p.length + 1) =
      if s ∈ x.read ∨ s ∈ x.written then some p.length else lastTouch p s p.length := by
  rw [← lastTouch_append p x s p.length (Nat.le_refl _)]
  conv_lhs => unfold lastTouch
  rw [List.range_succ, List.reverse_append, List.reverse_singleton, List.singleton_append,
    List.find?_cons]
  have : (p ++ [x])[p.length]? = some x := by simp
  rw [this]
  by_cases h : s ∈ x.read ∨ s ∈ x.written
  · simp [h]
  · rw [if_neg h]
    simp only [h, decide_false]
    rfl

theorem lastTouch_lt {p : List MInst} {s j i : Nat} (h : lastTouch p s j = some i) :
    i < j ∧ ∃ x, p[i]? = some x ∧ (s ∈ x.read ∨ s ∈ x.written) := by
  unfold lastTouch at h
  have h1 := List.mem_of_find?_eq_some h
  have h2 := List.find?_some h
  refine ⟨by simpa using h1, ?_⟩
  cases hp : p[i]? with
  | none => rw [hp] at h2; simp at h2
  | some x => rw [hp] at h2; exact ⟨x, rfl, by simpa using h2⟩

theorem distAt_append (p : List MInst) (x : MInst) (s j : Nat) (hj : j < p.length) :
    distAt (p ++ [x]) s j = distAt p s j := by
  unfold distAt
  rw [lastTouch_append p x s j (by omega), List.getElem?_append_left hj]
  cases h : lastTouch p s j with
  | none => cases p[j]? <;> rfl
  | some i =>
    have := (lastTouch_lt h).1
    rw [List.getElem?_eq_getElem hj]
    simp only [List.getElem?_append_left (show i < p.length by omega)]

theorem distAt_last (p : List MInst) (x : MInst) (s : Nat) :
    distAt (p ++ [x]) s p.length =
      match lastTouch p s p.length with
      | none => none
      | some i =>
          match p[i]? with
          | none => none
          | some y => if s ∈ x.read ∧ s ∈ y.written then some (p.length - i - 1) else none := by
  unfold distAt
  rw [lastTouch_append p x s p.length (Nat.le_refl _)]
  have : (p ++ [x])[p.length]? = some x := by simp
  rw [this]
  cases h : lastTouch p s p.length with
  | none => rfl
  | some i =>
    have := (lastTouch_lt h).1
    simp only [List.getElem?_append_left this]
    cases p[i]? <;> rfl

theorem distances_append (p : List MInst) (x : MInst) (s : Nat) :
    distances (p ++ [x]) s = distances p s ++ (distAt (p ++ [x]) s p.length).toList := by
  unfold distances
  rw [List.length_append, List.length_singleton, List.range_succ, List.filterMap_append]
  have h1 : (List.range p.length).filterMap (distAt (p ++ [x]) s) =
      (List.range p.length).filterMap (distAt p s) := by
    apply List.filterMap_congr
    intro j hj
    exact distAt_append p x s j (List.mem_range.1 hj)
  rw [h1]
  congr 1

/-! ### The invariant -/

/-- What the collector knows about storage `s` after the instructions `p`. -/
structure DInv (s : Nat) (old : View) (p : List MInst) (v : View) : Prop where
  defined : v.defined = true ↔
    ∃ i x, lastTouch p s p.length = some i ∧ p[i]? = some x ∧ s ∈ x.written
  dist : ∀ i x, lastTouch p s p.length = some i → p[i]? = some x → s ∈ x.written →
    v.dist + i + 1 = p.length
  mn : v.mn = (distances p s).min?.or old.mn
  mx : v.mx = (distances p s).max?.or old.mx
  acc : v.acc = if distances p s = [] then none else some ((distances p s).sum, (distances p s).length)

theorem min?_snoc (D : List Nat) (d : Nat) :
    (D ++ [d]).min? = some (if D.min?.getD (d + 1) > d then d else D.min?.getD 0) := by
  cases D with
  | nil => simp
  | cons a D =>
    rw [List.cons_append, List.min?_cons', List.min?_cons', List.foldl_append]
    simp only [List.foldl_cons, List.foldl_nil, Option.getD_some, Option.some.injEq]
    split <;> omega

theorem max?_snoc (D : List Nat) (d : Nat) :
    (D ++ [d]).max? = some (if D.max?.getD 0 ≤ d then d else D.max?.getD 0) := by
  cases D with
  | nil => simp
  | cons a D =>
    rw [List.cons_append, List.max?_cons', List.max?_cons', List.foldl_append]
    simp only [List.foldl_cons, List.foldl_nil, Option.getD_some, Option.some.injEq]
    split <;> omega

theorem dinv_step (s : Nat) (old : View) (p : List MInst) (v : View) (x : MInst)
    (h : DInv s old p v) :
    DInv s old (p ++ [x])
      (if s ∈ x.written then { viewRead (decide (s ∈ x.read)) v with defined := true, dist := 0 }
       else viewRead (decide (s ∈ x.read)) v) := by
  have hx : (p ++ [x])[p.length]? = some x := by simp
  -- the statistics after reading
  have hstat : (viewRead (decide (s ∈ x.read)) v).mn = (distances (p ++ [x]) s).min?.or old.mn ∧
      (viewRead (decide (s ∈ x.read)) v).mx = (distances (p ++ [x]) s).max?.or old.mx ∧
      (viewRead (decide (s ∈ x.read)) v).acc =
        if distances (p ++ [x]) s = [] then none
        else some ((distances (p ++ [x]) s).sum, (distances (p ++ [x]) s).length) := by
    rw [distances_append, distAt_last]
    unfold viewRead
    by_cases hd : v.defined = true
    · obtain ⟨i, y, h1, h2, h3⟩ := h.defined.1 hd
      have hdist := h.dist i y h1 h2 h3
      rw [if_pos hd, h1]
      simp only [h2, h3, and_true]
      by_cases hr : s ∈ x.read
      · simp only [hr, decide_true, if_true, Option.toList_some]
        have e : p.length - i - 1 = v.dist := by omega
        rw [e]
        by_cases hD : distances p s = []
        · have : v.acc = none := by rw [h.acc, if_pos hD]
          rw [this]
          simp [hD]
        · have hacc : v.acc = some ((distances p s).sum, (distances p s).length) := by
            rw [h.acc, if_neg hD]
          rw [hacc]
          have hmin : ∃ m, (distances p s).min? = some m := by
            cases hm : (distances p s).min? with
            | none => exact absurd (List.min?_eq_none_iff.1 hm) hD
            | some m => exact ⟨m, rfl⟩
          have hmax : ∃ m, (distances p s).max? = some m := by
            cases hm : (distances p s).max? with
            | none => exact absurd (List.max?_eq_none_iff.1 hm) hD
            | some m => exact ⟨m, rfl⟩
          obtain ⟨m, hm⟩ := hmin
          obtain ⟨M, hM⟩ := hmax
          have e1 : v.mn = some m := by rw [h.mn, hm]; rfl
          have e2 : v.mx = some M := by rw [h.mx, hM]; rfl
          dsimp only
          rw [min?_snoc, max?_snoc, hm, hM, e1, e2]
          simp only [Option.getD_some, Option.some_or]
          refine ⟨?_, ?_, ?_⟩
          · split <;> rfl
          · split
            · rw [if_pos (by omega)]
            · split
              · rename_i h1 h2; congr 1; omega
              · rfl
          · simp
      · simp only [hr, decide_false, if_false, Bool.false_eq_true, Option.toList_none, List.append_nil]
        exact ⟨h.mn, h.mx, h.acc⟩
    · rw [if_neg hd]
      have hnone : (match lastTouch p s p.length with
          | none => none
          | some i =>
              match p[i]? with
              | none => none
              | some y => if s ∈ x.read ∧ s ∈ y.written then some (p.length - i - 1) else none) = none := by
        cases h1 : lastTouch p s p.length with
        | none => rfl
        | some i =>
          dsimp only
          cases h2 : p[i]? with
          | none => rfl
          | some y =>
            dsimp only
            rw [if_neg]
            rintro ⟨_, h3⟩
            exact hd (h.defined.2 ⟨i, y, h1, h2, h3⟩)
      rw [hnone, Option.toList_none, List.append_nil]
      exact ⟨h.mn, h.mx, h.acc⟩
  have hlen : (p ++ [x]).length = p.length + 1 := by simp
  by_cases hw : s ∈ x.written
  · rw [if_pos hw]
    have hl : lastTouch (p ++ [x]) s (p ++ [x]).length = some p.length := by
      rw [hlen, lastTouch_succ, if_pos (Or.inr hw)]
    refine ⟨?_, ?_, hstat.1, hstat.2.1, hstat.2.2⟩
    · simp only [true_iff]
      exact ⟨p.length, x, hl, hx, hw⟩
    · intro i y h1 _ _
      rw [hl] at h1
      simp only [Option.some.injEq] at h1
      subst h1
      dsimp only
      omega
  · rw [if_neg hw]
    refine ⟨?_, ?_, hstat.1, hstat.2.1, hstat.2.2⟩
    · by_cases hr : s ∈ x.read
      · have hl : lastTouch (p ++ [x]) s (p ++ [x]).length = some p.length := by
          rw [hlen, lastTouch_succ, if_pos (Or.inl hr)]
        have hf : (viewRead (decide (s ∈ x.read)) v).defined = false := by
          unfold viewRead
          simp only [hr, decide_true, if_true]
          split
          · split <;> rfl
          · rename_i h; simpa using h
        rw [hf]
        simp only [Bool.false_eq_true, false_iff, not_exists, not_and]
        intro i y h1 h2
        rw [hl] at h1
        simp only [Option.some.injEq] at h1
        subst h1
        rw [hx] at h2
        simp only [Option.some.injEq] at h2
        subst h2
        exact hw
      · have hl : lastTouch (p ++ [x]) s (p ++ [x]).length = lastTouch p s p.length := by
          rw [hlen, lastTouch_succ, if_neg (by simp [hr, hw])]
        have hf : (viewRead (decide (s ∈ x.read)) v).defined = v.defined := by
          unfold viewRead
          simp only [hr, decide_false, Bool.false_eq_true, if_false]
          split <;> rfl
        rw [hf, hl, h.defined]
        constructor
        · rintro ⟨i, y, h1, h2, h3⟩
          exact ⟨i, y, h1, by rw [List.getElem?_append_left (lastTouch_lt h1).1]; exact h2, h3⟩
        · rintro ⟨i, y, h1, h2, h3⟩
          exact ⟨i, y, h1, by rw [List.getElem?_append_left (lastTouch_lt h1).1] at h2; exact h2, h3⟩
    · intro i y h1 h2 h3
      by_cases hr : s ∈ x.read
      · exfalso
        have hl : lastTouch (p ++ [x]) s (p ++ [x]).length = some p.length := by
          rw [hlen, lastTouch_succ, if_pos (Or.inl hr)]
        rw [hl] at h1
        simp only [Option.some.injEq] at h1
        subst h1
        rw [hx] at h2
        simp only [Option.some.injEq] at h2
        subst h2
        exact hw h3
      · have hl : lastTouch (p ++ [x]) s (p ++ [x]).length = lastTouch p s p.length := by
          rw [hlen, lastTouch_succ, if_neg (by simp [hr, hw])]
        rw [hl] at h1
        rw [List.getElem?_append_left (lastTouch_lt h1).1] at h2
        have hd : v.defined = true := h.defined.2 ⟨i, y, h1, h2, h3⟩
        have := h.dist i y h1 h2 h3
        unfold viewRead
        simp only [hd, hr, decide_false, Bool.false_eq_true, if_false, if_true, hlen]
        omega

theorem dinv_fold (s : Nat) (hs : s < storageCount) (c : Collector) (hdef : c.defined s = false)
    (hacc : dictGet c.meanAcc s = none) (p : List MInst) (hp : ∀ x ∈ p, x.ignore = false) :
    DInv s (view s c) p (view s (p.foldl collectTurn c)) := by
  induction p using List.reverseRecOn with
  | nil =>
    refine ⟨?_, ?_, ?_, ?_, ?_⟩
    · simp [view, hdef, lastTouch]
    · intro i x h; simp [lastTouch] at h
    · simp [distances]
    · simp [distances]
    · simp [distances, view, hacc]
  | append_singleton p x ih =>
    rw [List.foldl_append, List.foldl_cons, List.foldl_nil,
      view_collectTurn s hs _ x (hp x (by simp))]
    exact dinv_step s _ p _ x (ih fun y hy => hp y (by simp [hy]))

end Verif
