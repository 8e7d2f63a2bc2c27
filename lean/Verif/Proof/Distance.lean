import Mathlib.Algebra.Order.Field.Rat
import Mathlib.Algebra.Order.Field.Basic
import Mathlib.Tactic.Linarith
import Mathlib.Tactic.Ring
import Verif.Proof.Rules
import Verif.Proof.Dominators
import Verif.Proof.ErrsIn
import Verif.Spec.Distance

/-! # The distance rule in closed form -/

namespace Verif

/-- An array of the storages. -/
def arrayOf (f : Nat → Rat) : List Rat := (List.range storageCount).map f

theorem arrayOf_get (f : Nat → Rat) (r : Nat) : (arrayOf f)[r]? = if r < storageCount then some (f r) else none := by
  unfold arrayOf
  rw [List.getElem?_map]
  by_cases h : r < storageCount
  · rw [List.getElem?_range h, if_pos h]; rfl
  · rw [if_neg h, List.getElem?_eq_none (by simpa using h)]; rfl

theorem arrayOf_set (f : Nat → Rat) (w : Nat) (v : Rat) : (arrayOf f).set w v = arrayOf (put f w v) := by
  apply List.ext_getElem?
  intro i
  rw [List.getElem?_set, arrayOf_get, arrayOf_get]
  have hl : (arrayOf f).length = storageCount := by simp [arrayOf]
  rw [hl]
  by_cases h : w = i
  · subst h
    by_cases h2 : w < storageCount
    · simp [h2, put_same]
    · simp [h2]
  · rw [if_neg h, put_ne _ _ _ (Ne.symm h)]

theorem replicate_array (c : Rat) : List.replicate storageCount c = arrayOf fun _ => c := by
  unfold arrayOf
  rw [List.map_const', List.length_range]

/-- What one storage written adds. -/
def writtenStep (storages : List Nat) (n c : Rat) (arr : List Rat) (w : Nat) : Py (List Rat) :=
  if w ∈ storages then
    match arr[w]? with
    | none => .error .index
    | some x => do
        let q ← pyDiv 1 (n * c)
        pure (arr.set w (x + q))
  else .ok arr

/-- The better score of the last storage written. -/
def lastStep (reg : List Rat) (w : Option Nat) (arr : List Rat) : Option Nat → List Rat × Option Nat
  | none => (reg, w)
  | some v =>
      match reg[v]?, arr[v]? with
      | some a, some b => (reg.set v (max a b), some v)
      | _, _ => (reg, some v)

theorem prevStep_of (storages : List Nat) (count : Nat) (reg : List Rat) (w : Option Nat) (p : RuleInst) (hi : ¬ p.c.m.ignore = true)
    (arr : List Rat) (h : p.c.m.written.foldlM (writtenStep storages p.c.m.written.length count) (List.replicate storageCount ruleEps) = .ok arr) :
    prevStep storages count (reg, w) p = .ok (lastStep reg w arr (p.c.m.written.getLast?.or w)) := by
  unfold prevStep
  rw [if_neg hi]
  refine (congrArg (fun x : Py (List Rat) => x >>= _) h).trans ?_
  show (match p.c.m.written.getLast?.or w with
    | none => (pure (reg, w) : Py (List Rat × Option Nat))
    | some w =>
        match reg[w]?, arr[w]? with
        | some a, some b => pure (reg.set w (max a b), some w)
        | _, _ => pure (reg, some w)) = _
  cases p.c.m.written.getLast?.or w with
  | none => rfl
  | some v =>
    unfold lastStep
    cases h1 : reg[v]? <;> cases h2 : arr[v]? <;> simp only [h1, h2] <;> rfl

/-- What a previous candidate writes adds to the storages read. -/
theorem written_fold (storages : List Nat) (hs : ∀ r ∈ storages, r < storageCount) (n c : Rat) (hn : n * c ≠ 0) (l : List Nat) :
    ∀ g : Nat → Rat, l.foldlM (writtenStep storages n c) (arrayOf g) = .ok (arrayOf fun r => g r + if r ∈ storages then (l.count r : Rat) * (1 / (n * c)) else 0) := by
  induction l with
  | nil =>
    intro g
    rw [List.foldlM_nil]
    show Except.ok _ = _
    congr 2
    funext r
    simp
  | cons w l ih =>
    intro g
    rw [List.foldlM_cons]
    by_cases hw : w ∈ storages
    · have h1 : writtenStep storages n c (arrayOf g) w = .ok ((arrayOf g).set w (g w + 1 / (n * c))) := by
        unfold writtenStep
        rw [if_pos hw, arrayOf_get, if_pos (hs w hw)]
        unfold pyDiv
        rw [if_neg hn]
        rfl
      rw [h1]
      show List.foldlM (writtenStep storages n c) ((arrayOf g).set w (g w + 1 / (n * c))) l = _
      rw [arrayOf_set, ih]
      congr 2
      funext r
      by_cases hr : r = w
      · subst hr
        rw [put_same, if_pos hw, if_pos hw, List.count_cons_self]
        push_cast
        ring
      · rw [put_ne _ _ _ hr, List.count_cons_of_ne (Ne.symm hr)]
    · have h1 : writtenStep storages n c (arrayOf g) w = .ok (arrayOf g) := by
        unfold writtenStep
        rw [if_neg hw]
      rw [h1]
      show List.foldlM (writtenStep storages n c) (arrayOf g) l = _
      rw [ih]
      congr 2
      funext r
      by_cases hr : r = w
      · subst hr
        rw [if_neg hw, if_neg hw]
      · rw [List.count_cons_of_ne (Ne.symm hr)]

/-- What a previous candidate gives a storage. -/
def prevValue (storages : List Nat) (count : Nat) (p : RuleInst) (r : Nat) : Rat :=
  if p.c.m.ignore = false ∧ p.c.m.written.getLast? = some r ∧ r ∈ storages then
    ruleEps + (p.c.m.written.count r : Rat) / (p.c.m.written.length * count)
  else ruleEps

theorem arrayOf_congr {f g : Nat → Rat} (h : ∀ r, r < storageCount → f r = g r) : arrayOf f = arrayOf g := by
  unfold arrayOf
  exact List.map_congr_left fun r hr => h r (List.mem_range.1 hr)

theorem prevStep_eq (storages : List Nat) (hs : ∀ r ∈ storages, r < storageCount) (count : Nat) (hc : count ≠ 0) (f : Nat → Rat)
    (hf : ∀ r, ruleEps ≤ f r) (w : Option Nat) (p : RuleInst) :
    ∃ w', prevStep storages count (arrayOf f, w) p = .ok (arrayOf fun r => max (f r) (prevValue storages count p r), w') := by
  have hmax : ∀ r, max (f r) ruleEps = f r := fun r => max_eq_left (hf r)
  by_cases hi : p.c.m.ignore = true
  · unfold prevStep
    rw [if_pos hi]
    refine ⟨w, ?_⟩
    congr 2
    refine arrayOf_congr fun r _ => ?_
    unfold prevValue
    rw [if_neg (by simp [hi]), hmax]
  · have hi' : p.c.m.ignore = false := by simpa using hi
    by_cases hw : p.c.m.written = []
    · rw [prevStep_of storages count _ w p hi (arrayOf fun _ => ruleEps) (by rw [hw, replicate_array]; rfl)]
      have hval : ∀ r, prevValue storages count p r = ruleEps := by
        intro r
        unfold prevValue
        rw [if_neg (by simp [hw])]
      simp only [hval, hmax, hw, List.getLast?_nil, Option.none_or]
      cases w with
      | none => exact ⟨none, rfl⟩
      | some v =>
        refine ⟨some v, ?_⟩
        unfold lastStep
        by_cases hv : v < storageCount
        · simp only [arrayOf_get, if_pos hv]
          rw [arrayOf_set]
          congr 2
          refine arrayOf_congr fun r _ => ?_
          by_cases hr : r = v
          · rw [hr, put_same, hmax]
          · rw [put_ne _ _ _ hr]
        · simp only [arrayOf_get, if_neg hv]
    · have hn : (p.c.m.written.length : Rat) * count ≠ 0 := by
        have h1 : (p.c.m.written.length : Rat) ≠ 0 := by
          simpa using hw
        have h2 : (count : Rat) ≠ 0 := by simpa using hc
        exact mul_ne_zero h1 h2
      rw [prevStep_of storages count _ w p hi _ (by rw [replicate_array]; exact written_fold storages hs _ _ hn _ _)]
      cases hl : p.c.m.written.getLast? with
      | none => exact absurd (List.getLast?_eq_none_iff.1 hl) hw
      | some v =>
        refine ⟨some v, ?_⟩
        rw [Option.some_or]
        unfold lastStep
        by_cases hv : v < storageCount
        · simp only [arrayOf_get, if_pos hv]
          rw [arrayOf_set]
          congr 2
          refine arrayOf_congr fun r _ => ?_
          unfold prevValue
          by_cases hr : r = v
          · subst hr
            rw [put_same]
            by_cases hm : r ∈ storages
            · rw [if_pos hm, if_pos ⟨hi', hl, hm⟩, mul_one_div]
            · rw [if_neg hm, if_neg (by simp [hm]), add_zero]
          · rw [put_ne _ _ _ hr, if_neg (by rw [hl]; simp [Ne.symm hr]), hmax]
        · simp only [arrayOf_get, if_neg hv]
          congr 2
          refine arrayOf_congr fun r hr => ?_
          unfold prevValue
          rw [if_neg (by rw [hl]; rintro ⟨_, h, _⟩; cases h; exact hv hr), hmax]

theorem le_foldl_max (l : List Rat) : ∀ b : Rat, b ≤ l.foldl max b ∧ (∀ v ∈ l, v ≤ l.foldl max b) ∧
    (l.foldl max b = b ∨ l.foldl max b ∈ l) := by
  induction l with
  | nil => intro b; simp
  | cons a l ih =>
    intro b
    obtain ⟨h1, h2, h3⟩ := ih (max b a)
    rw [List.foldl_cons]
    refine ⟨le_trans (le_max_left _ _) h1, ?_, ?_⟩
    · intro v hv
      rcases List.mem_cons.1 hv with rfl | hv
      · exact le_trans (le_max_right _ _) h1
      · exact h2 v hv
    · rcases h3 with h3 | h3
      · rw [h3]
        rcases max_choice b a with h | h
        · rw [h]; exact Or.inl rfl
        · rw [h]; exact Or.inr (by simp)
      · exact Or.inr (by simp [h3])

theorem prevSteps_eq (storages : List Nat) (hs : ∀ r ∈ storages, r < storageCount) (count : Nat) (hc : count ≠ 0)
    (l : List RuleInst) : ∀ (f : Nat → Rat) (_ : ∀ r, ruleEps ≤ f r) (w : Option Nat),
    ∃ w', l.foldlM (prevStep storages count) (arrayOf f, w) =
      .ok (arrayOf fun r => (l.map fun p => prevValue storages count p r).foldl max (f r), w') := by
  induction l with
  | nil => intro f _ w; exact ⟨w, rfl⟩
  | cons p l ih =>
    intro f hf w
    obtain ⟨w1, e1⟩ := prevStep_eq storages hs count hc f hf w p
    obtain ⟨w2, e2⟩ := ih (fun r => max (f r) (prevValue storages count p r)) (fun r => le_trans (hf r) (le_max_left _ _)) w1
    refine ⟨w2, ?_⟩
    rw [List.foldlM_cons, e1]
    exact e2

/-- All candidates ignored: nothing is done. -/
theorem prevSteps_ignored (storages : List Nat) (count : Nat) (l : List RuleInst) (hl : ∀ p ∈ l, p.c.m.ignore = true)
    (s : List Rat × Option Nat) : l.foldlM (prevStep storages count) s = .ok s := by
  induction l with
  | nil => rfl
  | cons p l ih =>
    rw [List.foldlM_cons]
    unfold prevStep
    rw [if_pos (hl p (by simp))]
    exact ih fun q hq => hl q (by simp [hq])

/-- The values the candidates of an address give a storage. -/
def addressValues (storages : List Nat) (insts : List RuleInst) (r : Nat) : List Rat :=
  insts.map fun p => prevValue storages (candidateCount insts) p r

theorem address_eq (storages : List Nat) (hs : ∀ r ∈ storages, r < storageCount) (insts : List RuleInst)
    (f : Nat → Rat) (hf : ∀ r, ruleEps ≤ f r) (w : Option Nat) :
    ∃ w', insts.foldlM (prevStep storages (candidateCount insts)) (arrayOf f, w) =
      .ok (arrayOf fun r => (addressValues storages insts r).foldl max (f r), w') := by
  by_cases hc : candidateCount insts = 0
  · have hl : ∀ p ∈ insts, p.c.m.ignore = true := by
      intro p hp
      unfold candidateCount at hc
      have := List.countP_eq_zero.1 hc p hp
      simpa using this
    refine ⟨w, ?_⟩
    rw [prevSteps_ignored _ _ _ hl]
    congr 2
    refine arrayOf_congr fun r _ => ?_
    have : ∀ v ∈ addressValues storages insts r, v = ruleEps := by
      intro v hv
      obtain ⟨p, hp, rfl⟩ := List.mem_map.1 hv
      unfold prevValue
      rw [if_neg (by simp [hl p hp])]
    obtain ⟨h1, h2, h3⟩ := le_foldl_max (addressValues storages insts r) (f r)
    rcases h3 with h3 | h3
    · exact h3.symm
    · have := this _ h3
      exact le_antisymm h1 (this ▸ hf r)
  · exact prevSteps_eq storages hs _ hc insts f hf w

/-- All the values found for a storage on the way back. -/
def wayValues (prog : List (Int × List RuleInst)) (storages : List Nat) (as : List Int) (r : Nat) : List Rat :=
  as.flatMap fun a => match dictGet prog a with
    | none => []
    | some insts => addressValues storages insts r

def meanOf (storages : List Nat) (f : Nat → Rat) : Rat := (storages.map f).sum / storages.length

theorem meanOf_mono {storages : List Nat} {f g : Nat → Rat} (h : ∀ r, f r ≤ g r) : meanOf storages f ≤ meanOf storages g := by
  unfold meanOf
  refine div_le_div_of_nonneg_right ?_ (Nat.cast_nonneg _)
  induction storages with
  | nil => simp
  | cons a l ih =>
    rw [List.map_cons, List.map_cons, List.sum_cons, List.sum_cons]
    exact add_le_add (h a) ih

theorem reads_sum (storages : List Nat) (hs : ∀ r ∈ storages, r < storageCount) (f : Nat → Rat) :
    (storages.map fun r => ((arrayOf f)[r]?).getD 0).sum = (storages.map f).sum := by
  congr 1
  refine List.map_congr_left fun r hr => ?_
  rw [arrayOf_get, if_pos (hs r hr)]
  rfl

theorem backLoop_eq (prog : List (Int × List RuleInst)) (storages : List Nat) (hs : ∀ r ∈ storages, r < storageCount)
    (hne : storages ≠ []) (as : List Int) : ∀ (f : Nat → Rat) (_ : ∀ r, ruleEps ≤ f r) (best : Rat) (_ : best ≤ meanOf storages f)
    (w : Option Nat), ∃ vs w', backLoop prog storages as (arrayOf f) best w = .ok (vs, w') ∧
      ((∀ a ∈ as, dictGet prog a = none) → vs = []) ∧
      ((∃ a ∈ as, dictGet prog a ≠ none) → vs.getLast? = some (min 1 (meanOf storages fun r =>
        (wayValues prog storages as r).foldl max (f r)))) := by
  induction as with
  | nil =>
    intro f _ best _ w
    exact ⟨[], w, rfl, fun _ => rfl, by simp⟩
  | cons a as ih =>
    intro f hf best hb w
    unfold backLoop
    cases hg : dictGet prog a with
    | none =>
      obtain ⟨vs, w', e, h1, h2⟩ := ih f hf best hb w
      refine ⟨vs, w', e, fun h => h1 fun b hb => h b (by simp [hb]), ?_⟩
      rintro ⟨b, hb, hbn⟩
      have hb' : b ∈ as := by
        rcases List.mem_cons.1 hb with rfl | h
        · exact absurd hg hbn
        · exact h
      rw [h2 ⟨b, hb', hbn⟩]
      unfold wayValues
      simp only [List.flatMap_cons, hg, List.nil_append]
    | some insts =>
      obtain ⟨w1, e1⟩ := address_eq storages hs insts f hf w
      let f1 : Nat → Rat := fun r => (addressValues storages insts r).foldl max (f r)
      have hf1 : ∀ r, f r ≤ f1 r := fun r => (le_foldl_max _ _).1
      have hm : meanOf storages f ≤ meanOf storages f1 := meanOf_mono hf1
      have hlen : (storages.length : Rat) ≠ 0 := by simpa using hne
      have hbest : max (meanOf storages f1) best = meanOf storages f1 := max_eq_left (le_trans hb hm)
      have hway : ∀ r, (wayValues prog storages (a :: as) r).foldl max (f r) = (wayValues prog storages as r).foldl max (f1 r) := by
        intro r
        unfold wayValues
        simp only [List.flatMap_cons, hg, List.foldl_append]
        rfl
      simp only [e1]
      show ∃ vs w', (pyDiv ((storages.map fun r => ((arrayOf f1)[r]?).getD 0).sum) storages.length >>= fun q => _) = _ ∧ _
      rw [reads_sum storages hs f1]
      unfold pyDiv
      rw [if_neg hlen]
      show ∃ vs w', (if max (meanOf storages f1) best ≥ 1 then (pure ([1], w1) : Py (List Rat × Option Nat)) else _) = _ ∧ _
      rw [hbest]
      by_cases h1 : meanOf storages f1 ≥ 1
      · rw [if_pos h1]
        refine ⟨[1], w1, rfl, fun h => absurd (h a (by simp)) (by rw [hg]; simp), fun _ => ?_⟩
        simp only [hway]
        have := le_trans h1 (meanOf_mono (storages := storages) fun r => (le_foldl_max (wayValues prog storages as r) (f1 r)).1)
        rw [min_eq_left this]
        rfl
      · rw [if_neg h1]
        obtain ⟨vs, w', e, g1, g2⟩ := ih f1 (fun r => le_trans (hf r) (hf1 r)) (meanOf storages f1) (le_refl _) w1
        refine ⟨meanOf storages f1 :: vs, w', ?_, fun h => absurd (h a (by simp)) (by rw [hg]; simp), fun _ => ?_⟩
        · have hb' : max ((storages.map f1).sum / storages.length) best = meanOf storages f1 := hbest
          simp only [hb']
          show (backLoop prog storages as (arrayOf f1) (meanOf storages f1) w1 >>= fun x => (pure (meanOf storages f1 :: x.1, x.2) : Py (List Rat × Option Nat))) = _
          rw [e]
          rfl
        · simp only [hway]
          by_cases hex : ∃ b ∈ as, dictGet prog b ≠ none
          · rw [List.getLast?_cons, g2 hex]
            rfl
          · have hno : ∀ b ∈ as, dictGet prog b = none := by
              intro b hb
              by_contra hc
              exact hex ⟨b, hb, hc⟩
            rw [g1 hno]
            have : ∀ r, wayValues prog storages as r = [] := by
              intro r
              unfold wayValues
              rw [List.flatMap_eq_nil_iff]
              intro b hb
              rw [hno b hb]
            simp only [this, List.foldl_nil]
            rw [min_eq_right (le_of_lt (not_le.1 h1))]
            rfl

/-! ### The range -/

theorem ruleRange_fold (coll : Collector) (l : List Nat) : ∀ (m : Int × Int) (k : Int),
    let z := l.foldl (fun m v =>
      ((match dictGet coll.minDist v with
        | some d => if (d : Int) < m.1 then (d : Int) else m.1
        | none => m.1),
       (match dictGet coll.maxDist v with
        | some d => if (d : Int) > m.2 then (d : Int) else m.2
        | none => m.2))) m
    (z.1 ≤ k ↔ m.1 ≤ k ∨ ∃ r ∈ l, ∃ d, dictGet coll.minDist r = some d ∧ (d : Int) ≤ k) ∧
    (k ≤ z.2 ↔ k ≤ m.2 ∨ ∃ r ∈ l, ∃ d, dictGet coll.maxDist r = some d ∧ k ≤ (d : Int)) := by
  induction l with
  | nil => intro m k; simp
  | cons v l ih =>
    intro m k
    rw [List.foldl_cons]
    refine ⟨(ih _ k).1.trans ?_, (ih _ k).2.trans ?_⟩
    · simp only [List.mem_cons, exists_eq_or_imp]
      rw [← or_assoc]
      refine or_congr_left ?_
      cases dictGet coll.minDist v with
      | none => simp
      | some d =>
        simp only [Option.some.injEq, exists_eq_left']
        split <;> omega
    · simp only [List.mem_cons, exists_eq_or_imp]
      rw [← or_assoc]
      refine or_congr_left ?_
      cases dictGet coll.maxDist v with
      | none => simp
      | some d =>
        simp only [Option.some.injEq, exists_eq_left']
        split <;> omega

theorem mem_backPositions (position : Int) (m : Int × Int) (a : Int) :
    a ∈ backPositions position m ↔ ∃ k : Int, m.1 ≤ k ∧ k ≤ m.2 ∧ a = position - 4 * k := by
  unfold backPositions
  rw [List.mem_map]
  constructor
  · rintro ⟨k, hk, rfl⟩
    simp only [List.bind_eq_flatMap, List.pure_def, List.mem_flatMap, List.mem_singleton, List.mem_range] at hk
    obtain ⟨n, hn, rfl⟩ := hk
    exact ⟨m.1 + n, by omega, by omega, by ring⟩
  · rintro ⟨k, h1, h2, rfl⟩
    refine ⟨(k - m.1).toNat, ?_, ?_⟩
    · simp only [List.bind_eq_flatMap, List.pure_def, List.mem_flatMap, List.mem_singleton, List.mem_range]
      exact ⟨_, by omega, rfl⟩
    · omega

theorem mem_range_iff (coll : Collector) (storages : List Nat) (position a : Int)
    (hd : ∀ r d, dictGet coll.maxDist r = some d → d < 2 ^ 63 - 1) :
    a ∈ backPositions position (ruleRange coll storages) ↔
      Spec.AtDistance (dictGet coll.minDist) (dictGet coll.maxDist) storages position a := by
  rw [mem_backPositions]
  have hm : maxSize = 9223372036854775807 := by decide
  constructor
  · rintro ⟨k, h1, h2, rfl⟩
    have h1 := (ruleRange_fold coll storages (maxSize, -maxSize) k).1.1 h1
    have h2 := (ruleRange_fold coll storages (maxSize, -maxSize) k).2.1 h2
    have hpos : 0 ≤ k := by
      rcases h1 with h | ⟨_, _, d, _, h⟩
      · simp only at h; omega
      · omega
    have hmax : ∃ r ∈ storages, ∃ d, dictGet coll.maxDist r = some d ∧ k ≤ (d : Int) := by
      rcases h2 with h | h
      · simp only at h; omega
      · exact h
    obtain ⟨r, hr, d, hrd, hkd⟩ := hmax
    have := hd r d hrd
    rcases h1 with h | ⟨r', hr', d', hd', h⟩
    · simp only at h; omega
    · exact ⟨k.toNat, by omega, ⟨r', hr', d', hd', by omega⟩, ⟨r, hr, d, hrd, by omega⟩⟩
  · rintro ⟨k, rfl, ⟨r', hr', d', hd', h⟩, ⟨r, hr, d, hrd, hkd⟩⟩
    refine ⟨k, ?_, ?_, rfl⟩
    · exact (ruleRange_fold coll storages (maxSize, -maxSize) k).1.2 (.inr ⟨r', hr', d', hd', by omega⟩)
    · exact (ruleRange_fold coll storages (maxSize, -maxSize) k).2.2 (.inr ⟨r, hr, d, hrd, by omega⟩)

theorem backPositions_nil (coll : Collector) (position : Int) : backPositions position (ruleRange coll []) = [] := by
  unfold backPositions ruleRange maxSize
  rfl

/-! ### The values -/

/-- The candidates of an address: whether they are ignored and what they write. -/
def writtenAt (prog : RuleProg) (a : Int) : Option (List (Bool × List Nat)) :=
  (dictGet prog a).map fun l => l.map fun x => (x.a.c.m.ignore, x.a.c.m.written)

theorem writtenAt_answers (prog : RuleProg) (a : Int) : writtenAt prog a =
    (dictGet (answers prog) a).map fun l => l.map fun x => (x.c.m.ignore, x.c.m.written) := by
  unfold writtenAt answers
  rw [dictGet_map_snd]
  cases dictGet prog a with
  | none => rfl
  | some l => simp

theorem way_largest (prog : RuleProg) (storages : List Nat) (as : List Int) (near : Int → Prop) (has : ∀ a, a ∈ as ↔ near a)
    (r : Nat) (hr : r ∈ storages) :
    Spec.Largest ruleEps (Spec.ShareOf (fun written r => written.getLast? = some r) (writtenAt prog) near r)
      ((wayValues (answers prog) storages as r).foldl max ruleEps) := by
  obtain ⟨h1, h2, h3⟩ := le_foldl_max (wayValues (answers prog) storages as r) ruleEps
  have hcount : ∀ insts : List RuleInst, (insts.map fun x => (x.c.m.ignore, x.c.m.written)).countP (fun c => !c.1) = candidateCount insts := by
    intro insts
    rw [List.countP_map]
    rfl
  refine ⟨?_, h1, ?_⟩
  · rcases h3 with h | h
    · exact .inl h
    · obtain ⟨a, ha, hv⟩ := List.mem_flatMap.1 h
      split at hv
      · cases hv
      next insts hi =>
      obtain ⟨p, hp, e⟩ := List.mem_map.1 hv
      by_cases hc : p.c.m.ignore = false ∧ p.c.m.written.getLast? = some r ∧ r ∈ storages
      · right
        refine ⟨_, ⟨a, _, p.c.m.written, (has a).1 ha, by rw [writtenAt_answers, hi]; rfl, ?_, hc.2.1, rfl⟩, ?_⟩
        · exact List.mem_map.2 ⟨p, hp, by rw [hc.1]⟩
        · rw [← e]
          unfold prevValue Spec.partOf
          rw [if_pos hc, hcount]
      · left
        rw [← e]
        unfold prevValue
        rw [if_neg hc]
  · rintro v ⟨a, cands, written, ha, hc, hw, hl, rfl⟩
    rw [writtenAt_answers] at hc
    cases hi : dictGet (answers prog) a with
    | none => rw [hi] at hc; cases hc
    | some insts =>
      rw [hi] at hc
      cases hc
      obtain ⟨p, hp, e⟩ := List.mem_map.1 hw
      obtain ⟨e1, rfl⟩ := Prod.mk.inj e
      refine h2 _ (List.mem_flatMap.2 ⟨a, (has a).2 ha, ?_⟩)
      rw [hi]
      refine List.mem_map.2 ⟨p, hp, ?_⟩
      unfold prevValue Spec.partOf
      rw [if_pos ⟨e1, hl, hr⟩, hcount]

end Verif
