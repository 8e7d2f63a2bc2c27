import Verif.Proof.Recuperator
import Verif.Spec.Evidence
import Mathlib.Algebra.BigOperators.Group.List.Basic
import Mathlib.Algebra.Order.BigOperators.Ring.List

/-! # Helper lemmas for the exact evidence -/

namespace Verif
open Spec

theorem dictGet_lookup {κ β : Type} [DecidableEq κ] (d : List (κ × β)) (k : κ) :
    dictGet d k = d.lookup k := by
  induction d with
  | nil => rfl
  | cons p d ih =>
    rw [dictGet_cons, List.lookup_cons, ih]
    by_cases h : p.1 = k
    · simp [h]
    · have : (k == p.1) = false := by simpa using fun e => h e.symm
      simp [h, this]

theorem dictGet_keys {κ β : Type} [DecidableEq κ] (d : List (κ × β)) (k : κ) :
    (dictGet d k).isSome = decide (k ∈ d.map (·.1)) := by
  rw [Bool.eq_iff_iff, dictGet_isSome]; simp

theorem validAt_eq (prog : CProg) (a : Int) : validAt prog a = definedAt prog a := by
  unfold validAt definedAt candsAt
  rw [dictGet_lookup]

theorem allAt_eq (prog : CProg) (a : Int) : allAt prog a = candsAt prog a := by
  unfold allAt candsAt
  rw [dictGet_lookup]

/-! ### Registers -/

theorem regMin_exact (num den : List (Nat × Nat)) (n d : Nat → Nat)
    (hn : ∀ k, dictGet num k = if n k = 0 then none else some (n k))
    (hd : ∀ k, dictGet den k = if d k = 0 then none else some (d k)) :
    ∀ (rs : List Nat) (av : Rat), (∀ r ∈ rs, 0 < d r) → 0 ≤ av →
      ∃ o, regMin num den rs av = .ok o ∧ 0 ≤ o.getD 0 ∧ o.getD 0 ≤ av ∧
        (∀ r ∈ rs, o.getD 0 ≤ (n r : Rat) / d r) ∧
        (o.getD 0 = av ∨ ∃ r ∈ rs, o.getD 0 = (n r : Rat) / d r) := by
  intro rs
  induction rs with
  | nil => intro av _ hav; exact ⟨some av, rfl, hav, le_refl _, by simp, Or.inl rfl⟩
  | cons r rs ih =>
    intro av hds hav
    have hdr := hds r (by simp)
    have hdr' : (0 : Rat) < d r := by exact_mod_cast hdr
    unfold regMin
    rw [hn r, hd r, if_neg (by omega : ¬ d r = 0)]
    by_cases hz : n r = 0
    · rw [if_pos hz]
      refine ⟨none, rfl, le_refl _, hav, fun s _ => natRatio_nonneg _ _, Or.inr ⟨r, by simp, ?_⟩⟩
      rw [hz]; simp
    · rw [if_neg hz]
      have hq := natRatio_nonneg (n r) (d r)
      obtain ⟨o, h1, h0, h2, h3, h4⟩ := ih (min av ((n r : Rat) / d r)) (fun s hs => hds s (by simp [hs]))
        (le_min hav hq)
      refine ⟨o, ?_, h0, h2.trans (min_le_left _ _), ?_, ?_⟩
      · dsimp only
        rw [pyDiv_ok hdr'.ne']
        exact h1
      · intro s hs
        rcases List.mem_cons.1 hs with rfl | hs
        · exact h2.trans (min_le_right _ _)
        · exact h3 s hs
      · rcases h4 with h4 | ⟨s, hs, h4⟩
        · rcases min_choice av ((n r : Rat) / d r) with e | e
          · exact Or.inl (h4.trans e)
          · exact Or.inr ⟨r, by simp, h4.trans e⟩
        · exact Or.inr ⟨s, by simp [hs], h4⟩

/-! ### Push and pop -/

theorem regsMatch_iff (a b : List Nat) : regsMatch a b = true ↔ Restores a b := by
  unfold regsMatch Restores regPC regLR regSP
  simp

theorem opProb_exact {prog : CProg} {isOp : Cand → Bool} {a : Int} {regs : List Nat} {p : Rat} {e : Bool}
    (h : opProb prog isOp a regs = .ok (p, e)) :
    (0 < p ↔ ∃ c ∈ definedAt prog a, isOp c = true) ∧ 0 ≤ p ∧ (¬ 0 < p → p = 0) ∧
    (e = true ↔ ∃ c ∈ definedAt prog a, isOp c = true ∧ Restores c.regsWritten regs) := by
  unfold opProb at h
  cases hg : dictGet prog a with
  | none => rw [hg] at h; simp at h
  | some insts =>
    rw [hg] at h
    simp only at h
    have hd : definedAt prog a = insts.filter fun i => !i.m.ignore := by
      unfold definedAt candsAt; rw [← dictGet_lookup, hg]; rfl
    rw [hd]
    generalize (insts.filter fun i => !i.m.ignore) = v at h
    unfold pyDiv at h
    by_cases hv : ((v.length : Nat) : Rat) = 0
    · rw [if_pos hv] at h; simp [bind, Except.bind] at h
    · rw [if_neg hv] at h
      simp only [bind, Except.bind, pure, Except.pure, Except.ok.injEq, Prod.mk.injEq] at h
      obtain ⟨rfl, rfl⟩ := h
      have hpos : (0 : Rat) < (v.length : Nat) := lt_of_le_of_ne (by positivity) (Ne.symm hv)
      have h0 : (0 : Rat) ≤ (v.countP isOp : Nat) / (v.length : Nat) := natRatio_nonneg _ _
      refine ⟨?_, h0, fun hn => le_antisymm (not_lt.1 hn) h0, ?_⟩
      · rw [div_pos_iff_of_pos_right hpos]
        rw [show ((0 : Rat) < (v.countP isOp : Nat)) ↔ 0 < v.countP isOp by exact_mod_cast Iff.rfl]
        rw [List.countP_pos_iff]
      · simp only [List.any_eq_true, Bool.and_eq_true, regsMatch_iff]

theorem popLoop_exact (prog : CProg) : ∀ (as : List Int) (cb cp tb : Nat) (v : Rat), cb ≤ tb → cp ≤ tb →
    popLoop prog as cb cp tb 0 = .ok v →
    0 ≤ v ∧ (0 < v ↔ ∃ k, k < as.length ∧
      (0 < cb ∨ ∃ j, j < k ∧ ∃ a, as[j]? = some a ∧ ∃ c ∈ definedAt prog a, c.isBranch = true) ∧
      (0 < cp ∨ ∃ j, j ≤ k ∧ ∃ a, as[j]? = some a ∧ ∃ c ∈ definedAt prog a, c.isPop = true)) := by
  intro as
  induction as with
  | nil =>
    intro cb cp tb v _ _ h
    simp only [popLoop, Except.ok.injEq] at h
    subst h
    simp
  | cons a as ih =>
    intro cb cp tb v hb hp h
    unfold popLoop at h
    cases hg : dictGet prog a with
    | none => rw [hg] at h; simp at h
    | some insts =>
      rw [hg] at h
      have hd : definedAt prog a = insts.filter fun i => !i.m.ignore := by
        unfold definedAt candsAt; rw [← dictGet_lookup, hg]; rfl
      simp only at h
      rw [← hd] at h
      generalize hw : definedAt prog a = w at h
      have hB : 0 < w.countP (·.isBranch) ↔ ∃ c ∈ w, c.isBranch = true := List.countP_pos_iff
      have hP : 0 < w.countP (·.isPop) ↔ ∃ c ∈ w, c.isPop = true := List.countP_pos_iff
      have lB := List.countP_le_length (p := (·.isBranch)) (l := w)
      have lP := List.countP_le_length (p := (·.isPop)) (l := w)
      -- the value at this address is positive exactly when both have been seen
      have hval : ∀ q : Rat, q = (if tb > 0 ∧ tb + w.length > 0 then
          (((cp + w.countP (·.isPop) : Nat) : Rat) / ((tb + w.length : Nat) : Rat) * (cb : Nat)) / (tb : Nat)
          else 0) → 0 ≤ q ∧ (0 < q ↔ 0 < cb ∧ 0 < cp + w.countP (·.isPop)) := by
        rintro q rfl
        by_cases ht : tb > 0
        · rw [if_pos ⟨ht, by omega⟩]
          have t1 : (0 : Rat) < (tb : Nat) := by exact_mod_cast ht
          have t2 : (0 : Rat) < ((tb + w.length : Nat) : Rat) := by exact_mod_cast (by omega : 0 < tb + w.length)
          refine ⟨by positivity, ?_⟩
          rw [div_pos_iff_of_pos_right t1]
          constructor
          · intro hq
            rcases Nat.eq_zero_or_pos cb with e | e
            · rw [e] at hq; simp at hq
            · refine ⟨e, ?_⟩
              rcases Nat.eq_zero_or_pos (cp + w.countP (·.isPop)) with e' | e'
              · rw [e'] at hq; simp at hq
              · exact e'
          · rintro ⟨e, e'⟩
            have : (0 : Rat) < (cb : Nat) := by exact_mod_cast e
            have : (0 : Rat) < ((cp + w.countP (·.isPop) : Nat) : Rat) := by exact_mod_cast e'
            positivity
        · rw [if_neg (fun h => ht h.1)]
          refine ⟨le_refl _, ?_⟩
          constructor
          · intro h; exact absurd h (lt_irrefl _)
          · rintro ⟨h, _⟩; omega
      generalize hq : (if tb > 0 ∧ tb + w.length > 0 then
          (((cp + w.countP (·.isPop) : Nat) : Rat) / ((tb + w.length : Nat) : Rat) * (cb : Nat)) / (tb : Nat)
          else 0) = q at h
      obtain ⟨q0, q1⟩ := hval q hq.symm
      by_cases hqp : q > 0
      · rw [if_pos hqp] at h
        simp only [Except.ok.injEq] at h
        subst h
        refine ⟨q0, iff_of_true hqp ⟨0, by simp, ?_⟩⟩
        obtain ⟨x1, x2⟩ := q1.1 hqp
        refine ⟨Or.inl x1, ?_⟩
        rcases Nat.eq_zero_or_pos cp with e | e
        · exact Or.inr ⟨0, le_refl _, a, rfl, by rw [hw]; exact hP.1 (by omega)⟩
        · exact Or.inl e
      · rw [if_neg hqp] at h
        have hz : q = 0 := le_antisymm (not_lt.1 hqp) q0
        rw [hz] at h
        obtain ⟨v0, v1⟩ := ih _ _ _ v (by omega) (by omega) h
        refine ⟨v0, v1.trans ?_⟩
        constructor
        · rintro ⟨k, hk, hb', hp'⟩
          refine ⟨k + 1, by simpa using hk, ?_, ?_⟩
          · rcases hb' with hb' | ⟨j, hj, b, hjb, hc⟩
            · rcases Nat.eq_zero_or_pos cb with e | e
              · exact Or.inr ⟨0, by omega, a, rfl, by rw [hw]; exact hB.1 (by omega)⟩
              · exact Or.inl e
            · exact Or.inr ⟨j + 1, by omega, b, by simpa using hjb, hc⟩
          · rcases hp' with hp' | ⟨j, hj, b, hjb, hc⟩
            · rcases Nat.eq_zero_or_pos cp with e | e
              · exact Or.inr ⟨0, by omega, a, rfl, by rw [hw]; exact hP.1 (by omega)⟩
              · exact Or.inl e
            · exact Or.inr ⟨j + 1, by omega, b, by simpa using hjb, hc⟩
        · rintro ⟨k, hk, hb', hp'⟩
          cases k with
          | zero =>
            exfalso
            apply hqp
            rw [gt_iff_lt, q1]
            constructor
            · rcases hb' with hb' | ⟨j, hj, _⟩
              · exact hb'
              · omega
            · rcases hp' with hp' | ⟨j, hj, b, hjb, hc⟩
              · omega
              · obtain rfl : j = 0 := by omega
                simp only [List.getElem?_cons_zero, Option.some.injEq] at hjb
                subst hjb
                rw [hw] at hc
                have := hP.2 hc
                omega
          | succ k =>
            refine ⟨k, by simpa using hk, ?_, ?_⟩
            · rcases hb' with hb' | ⟨j, hj, b, hjb, hc⟩
              · exact Or.inl (by omega)
              · cases j with
                | zero =>
                  simp only [List.getElem?_cons_zero, Option.some.injEq] at hjb
                  subst hjb
                  rw [hw] at hc
                  have := hB.2 hc
                  exact Or.inl (by omega)
                | succ j => exact Or.inr ⟨j, by omega, b, by simpa using hjb, hc⟩
            · rcases hp' with hp' | ⟨j, hj, b, hjb, hc⟩
              · exact Or.inl (by omega)
              · cases j with
                | zero =>
                  simp only [List.getElem?_cons_zero, Option.some.injEq] at hjb
                  subst hjb
                  rw [hw] at hc
                  have := hP.2 hc
                  exact Or.inl (by omega)
                | succ j => exact Or.inr ⟨j, by omega, b, by simpa using hjb, hc⟩

theorem downRange_get (last a : Int) (j : Nat) (b : Int) :
    (downRange last a)[j]? = some b ↔ b = last - 4 * j ∧ a < last - 4 * j := by
  unfold downRange
  rw [List.getElem?_map]
  by_cases h : j < ((last - a + 3) / 4).toNat
  · rw [List.getElem?_range h]
    simp only [Option.map_some, Option.some.injEq]
    constructor
    · rintro rfl; exact ⟨rfl, by omega⟩
    · rintro ⟨rfl, _⟩; rfl
  · rw [List.getElem?_eq_none (by simpa using h)]
    simp only [Option.map_none, reduceCtorEq, false_iff, not_and]
    intro _; omega

theorem popBefore_iff (prog : CProg) (a last : Int) (v : Rat)
    (h : popLoop prog (downRange last a) 0 0 0 0 = .ok v) :
    0 ≤ v ∧ (0 < v ↔ PopBefore prog a last) := by
  obtain ⟨h0, h1⟩ := popLoop_exact prog _ 0 0 0 v (le_refl _) (le_refl _) h
  refine ⟨h0, h1.trans ?_⟩
  have hlen : ∀ k, k < (downRange last a).length ↔ a < last - 4 * (k : Int) := by
    intro k
    unfold downRange
    simp only [List.length_map, List.length_range]
    omega
  simp only [lt_irrefl, false_or, downRange_get]
  unfold PopBefore
  constructor
  · rintro ⟨k, hk, ⟨j, hj, b, ⟨rfl, hb⟩, c, hc⟩, i, hi, b', ⟨rfl, hb'⟩, c', hc'⟩
    rw [hlen] at hk
    exact ⟨⟨j, by push_cast; omega, c, hc⟩, ⟨i, hb', c', hc'⟩⟩
  · rintro ⟨⟨j, hj, c, hc⟩, i, hi, c', hc'⟩
    refine ⟨max (j + 1) i, ?_, ⟨j, by omega, _, ⟨rfl, by push_cast at hj; omega⟩, c, hc⟩,
      ⟨i, by omega, _, ⟨rfl, hi⟩, c', hc'⟩⟩
    rw [hlen]
    rcases max_choice (j + 1) i with e | e <;> rw [e]
    · exact hj
    · exact hi

theorem pushPopValue_exact {n : Nat} {p1 p2 : Rat} {e : Bool} {v : Rat} {atEnd middle equal : Prop}
    (h : pushPopValue n p1 p2 e = .ok v) (h1 : 0 < p1 ↔ atEnd) (h1' : 0 ≤ p1) (h2 : 0 < p2 ↔ middle)
    (h2' : 0 ≤ p2) (h3 : e = true ↔ equal) : Best n atEnd middle equal v := by
  unfold pushPopValue pyDiv at h
  by_cases hn : ((n : Nat) : Rat) = 0
  · rw [if_pos hn] at h; simp [bind, Except.bind] at h
  · rw [if_neg hn] at h
    simp only [bind, Except.bind, pure, Except.pure, Except.ok.injEq] at h
    have hpos : (0 : Rat) < 1 / n := by
      have : (0 : Rat) < n := lt_of_le_of_ne (by positivity) (Ne.symm hn)
      positivity
    generalize hr : (1 : Rat) / n = r at h hpos
    unfold Best
    rw [← h1, ← h2, ← h3, hr]
    have z1 : ¬ 0 < p1 → p1 = 0 := fun h => le_antisymm (not_lt.1 h) h1'
    have z2 : ¬ 0 < p2 → p2 = 0 := fun h => le_antisymm (not_lt.1 h) h2'
    have key : ∀ (x y z : Rat), max (max x y) z = v → x ≤ v ∧ y ≤ v ∧ z ≤ v ∧ (v = x ∨ v = y ∨ v = z) := by
      rintro x y z rfl
      refine ⟨(le_max_left _ _).trans (le_max_left _ _), (le_max_right _ _).trans (le_max_left _ _),
        le_max_right _ _, ?_⟩
      rcases max_choice (max x y) z with h | h
      · rcases max_choice x y with h' | h'
        · exact Or.inl (h.trans h')
        · exact Or.inr (Or.inl (h.trans h'))
      · exact Or.inr (Or.inr h)
    obtain ⟨k1, k2, k3, k4⟩ := key _ _ _ h
    refine ⟨?_, ?_, ?_, ?_, ?_⟩
    · rintro rfl; simpa using k3
    · intro hne; rw [if_neg (by simpa using hne)] at k3; exact k3
    · intro hp; rw [if_pos hp] at k1; exact k1
    · intro hp; rw [if_pos hp] at k2; exact k2
    · have vpos : 0 < v := by
        refine lt_of_lt_of_le ?_ k3
        split
        · norm_num
        · exact hpos
      rcases k4 with k | k | k
      · by_cases hp : 0 < p1
        · rw [if_pos hp] at k; exact Or.inr (Or.inr (Or.inl ⟨hp, k⟩))
        · rw [if_neg hp, z1 hp] at k; exact absurd k vpos.ne'
      · by_cases hp : 0 < p2
        · rw [if_pos hp] at k; exact Or.inr (Or.inr (Or.inr ⟨hp, k⟩))
        · rw [if_neg hp, z2 hp] at k; exact absurd k vpos.ne'
      · by_cases he : e = true
        · rw [if_pos he] at k; exact Or.inl ⟨he, k⟩
        · rw [if_neg he] at k; exact Or.inr (Or.inl ⟨he, k⟩)

/-! ### Branches -/

theorem computeBranch_exact {fns : Fns} {x : Cand} {cur low high : Int} {o : Option Rat}
    (hi : x.m.ignore = false) (h : computeBranch fns x cur low high = .ok o) :
    o = if x.isBranch then some (jumpEvidence fns cur low high x.jump) else none := by
  have hel : ∀ j, computeBranch.elsewhere fns low high j =
      if j ∈ fns.map (·.1) then 7 / 10 else if j < low ∨ high < j then 1 / 1000 else 2 / 1000 := by
    intro j
    unfold computeBranch.elsewhere
    simp only [dictGet_isSome]
    congr 1
    simp only [or_comm]
  unfold computeBranch at h
  rw [hi] at h
  cases hb : x.isBranch with
  | false => rw [hb] at h; simp at h; simp [h]
  | true =>
    rw [hb] at h
    simp only [Bool.not_true, Bool.or_false, Bool.false_eq_true, if_false] at h
    rw [if_pos rfl]
    cases hj : x.jump with
    | none => rw [hj] at h; simp at h; simp [jumpEvidence, h]
    | some j =>
      rw [hj] at h
      simp only at h
      have yes : (cur ≤ j ∧ ∃ p ∈ fns.lookup cur, j ≤ p.2) → jumpEvidence fns cur low high (some j) = 67 / 100 :=
        fun h => by simp only [jumpEvidence, if_pos h]
      have no : ¬ (cur ≤ j ∧ ∃ p ∈ fns.lookup cur, j ≤ p.2) → jumpEvidence fns cur low high (some j) =
          if j ∈ fns.map (·.1) then 7 / 10 else if j < low ∨ high < j then 1 / 1000 else 2 / 1000 :=
        fun h => by simp only [jumpEvidence, if_neg h]
      by_cases hc : cur ≤ j
      · rw [if_pos hc] at h
        cases hf : dictGet fns cur with
        | none => rw [hf] at h; simp at h
        | some p =>
          obtain ⟨st, last⟩ := p
          rw [hf] at h
          rw [dictGet_lookup] at hf
          simp only at h
          by_cases hl : j ≤ last
          · rw [if_pos hl] at h
            rw [yes ⟨hc, (st, last), hf, hl⟩]
            cases h; rfl
          · rw [if_neg hl, hel] at h
            rw [no (by rintro ⟨_, p, hp, hle⟩; rw [hf] at hp; cases hp; exact hl hle)]
            cases h; rfl
      · rw [if_neg hc, hel] at h
        rw [no (fun h => hc h.1)]
        cases h; rfl

/-! ### The distance -/

theorem distLoop_step (prog : CProg) (r : Nat) (a : Int) (as : List Int) (p : Rat) :
    distLoop prog r (a :: as) p =
      match writeShare prog r a with
      | none => distLoop prog r as p
      | some w => if p * (1 - w) = 1 then p * (1 - w) else distLoop prog r as (p * (1 - w)) := by
  rw [distLoop]
  unfold writeShare
  cases hg : dictGet prog a with
  | none =>
    have hd : definedAt prog a = [] := by
      unfold definedAt candsAt; rw [← dictGet_lookup, hg]; rfl
    rw [if_pos hd]
  | some insts =>
    have hd : definedAt prog a = insts.filter fun i => !i.m.ignore := by
      unfold definedAt candsAt; rw [← dictGet_lookup, hg]; rfl
    simp only
    rw [← hd]
    by_cases hv : definedAt prog a = []
    · rw [if_pos hv, if_neg (by rw [hv]; simp)]
    · rw [if_neg hv, if_pos (List.length_pos_iff.2 hv)]
      rfl

theorem writeShare_in {prog : CProg} {r : Nat} {a : Int} {w : Rat} (h : writeShare prog r a = some w) :
    0 ≤ w ∧ w ≤ 1 := by
  unfold writeShare at h
  split at h
  · cases h
  · cases h
    exact ⟨natRatio_nonneg _ _, natRatio_le_one List.countP_le_length⟩

theorem distLoop_prod (prog : CProg) (r : Nat) : ∀ (as : List Int) (p : Rat), 0 ≤ p → p < 1 →
    distLoop prog r as p = p * ((as.filterMap (writeShare prog r)).map fun w => 1 - w).prod := by
  intro as
  induction as with
  | nil => intro p _ _; simp [distLoop]
  | cons a as ih =>
    intro p h0 h1
    rw [distLoop_step, List.filterMap_cons]
    cases hw : writeShare prog r a with
    | none => exact ih p h0 h1
    | some w =>
      obtain ⟨hs0, hs⟩ := writeShare_in hw
      have hlt : p * (1 - w) < 1 := by
        have : p * (1 - w) ≤ p := mul_le_of_le_one_right h0 (by linarith)
        linarith
      simp only
      rw [if_neg hlt.ne, ih _ (mul_nonneg h0 (by linarith)) hlt]
      simp only [List.map_cons, List.prod_cons]
      ring

theorem distLoop_exact (prog : CProg) (r : Nat) : ∀ (as : List Int),
    distLoop prog r as 1 =
      if (as.filterMap (writeShare prog r)).headD 0 = 0 then 1
      else ((as.filterMap (writeShare prog r)).map fun w => 1 - w).prod := by
  intro as
  induction as with
  | nil => simp [distLoop]
  | cons a as ih =>
    rw [distLoop_step]
    cases hw : writeShare prog r a with
    | none => rw [List.filterMap_cons_none hw]; exact ih
    | some w =>
      obtain ⟨hs0, hs⟩ := writeShare_in hw
      rw [List.filterMap_cons_some hw, List.headD_cons]
      show (if 1 * (1 - w) = 1 then 1 * (1 - w) else distLoop prog r as (1 * (1 - w))) = _
      rw [one_mul]
      by_cases hw : w = 0
      · rw [if_pos hw, hw]; simp
      · have hlt : 1 - w < 1 := by
          have := lt_of_le_of_ne hs0 (Ne.symm hw)
          linarith
        rw [if_neg hw, if_neg hlt.ne, distLoop_prod prog r as _ (by linarith) hlt]
        simp only [List.map_cons, List.prod_cons]

theorem distBounds_exact (orig : List MInst) (r : Nat) :
    distBounds (collectMeta {} orig) r = reach orig r := by
  unfold distBounds reach
  by_cases h : r < 20
  · obtain ⟨h1, h2, _⟩ := C36_distances orig r h
    rw [h1, h2, if_pos h]
    rfl
  · obtain ⟨h1, h2⟩ := C36_untracked orig r (by omega)
    rw [h1, h2, if_neg h]

theorem unwritten_exact (orig : List MInst) (prog : CProg) (addr : Int) (r : Nat) :
    distLoop prog r (distRange addr (distBounds (collectMeta {} orig) r).1
      (distBounds (collectMeta {} orig) r).2) 1 = unwritten orig prog addr r := by
  rw [distLoop_exact, distBounds_exact]
  unfold unwritten writeShares distRange
  rw [List.filterMap_map]
  rfl

theorem readLoop_exact (orig : List MInst) (prog : CProg) (addr : Int) : ∀ (rs : List Nat) (m : Rat), m < 1 →
    readLoop (collectMeta {} orig) prog addr rs m ≤ m ∧
    (∀ r ∈ rs, readLoop (collectMeta {} orig) prog addr rs m ≤ unwritten orig prog addr r) ∧
    (readLoop (collectMeta {} orig) prog addr rs m = m ∨
      ∃ r ∈ rs, readLoop (collectMeta {} orig) prog addr rs m = unwritten orig prog addr r) := by
  intro rs
  induction rs with
  | nil => intro m _; simp [readLoop]
  | cons r rs ih =>
    intro m hm
    unfold readLoop
    simp only
    rw [unwritten_exact]
    have hlt : min (unwritten orig prog addr r) m < 1 := lt_of_le_of_lt (min_le_right _ _) hm
    rw [if_neg (not_le.2 hlt)]
    obtain ⟨i1, i2, i3⟩ := ih _ hlt
    refine ⟨i1.trans (min_le_right _ _), ?_, ?_⟩
    · intro s hs
      rcases List.mem_cons.1 hs with rfl | hs
      · exact i1.trans (min_le_left _ _)
      · exact i2 s hs
    · rcases i3 with e | ⟨s, hs, e⟩
      · rcases min_choice (unwritten orig prog addr r) m with e' | e'
        · exact Or.inr ⟨r, by simp, e.trans e'⟩
        · exact Or.inl (e.trans e')
      · exact Or.inr ⟨s, by simp [hs], e⟩

theorem unwritten_le (orig : List MInst) (prog : CProg) (addr : Int) (r : Nat) :
    0 ≤ unwritten orig prog addr r ∧ unwritten orig prog addr r ≤ 1 := by
  rw [← unwritten_exact]
  exact distLoop_in prog r _ 1 (by constructor <;> norm_num)

theorem computeDistance_exact (orig : List MInst) (prog : CProg) (x : Cand) (addr : Int)
    (h1 : x.isBranch = false) (h2 : x.isPush = false) (h3 : x.isPop = false) :
    ∃ v, computeDistance (collectMeta {} orig) prog x addr = some v ∧
    ((∀ r ∈ x.m.read.head?, unwritten orig prog addr r = 1) → v = 1 / 1000) ∧
    ((∃ r ∈ x.m.read.head?, unwritten orig prog addr r ≠ 1) →
      (∀ r ∈ x.m.read, 1 - unwritten orig prog addr r ≤ v) ∧
      ∃ r ∈ x.m.read, v = 1 - unwritten orig prog addr r) := by
  unfold computeDistance Cand.isPushPop
  rw [h1, h2, h3]
  simp only [Bool.or_self, Bool.false_eq_true, if_false]
  refine ⟨_, rfl, ?_, ?_⟩
  · intro h
    cases hr : x.m.read with
    | nil => simp [readLoop]
    | cons r rs =>
      rw [hr] at h
      have := h r (by simp)
      unfold readLoop
      simp only
      rw [unwritten_exact, this]
      norm_num
  · rintro ⟨r, hr, hne⟩
    cases hrd : x.m.read with
    | nil => rw [hrd] at hr; simp at hr
    | cons r' rs =>
      rw [hrd] at hr
      simp only [List.head?_cons, Option.mem_def, Option.some.injEq] at hr
      subst hr
      have hlt : unwritten orig prog addr r' < 1 := lt_of_le_of_ne (unwritten_le _ _ _ _).2 hne
      unfold readLoop
      simp only
      rw [unwritten_exact, min_eq_left hlt.le, if_neg (not_le.2 hlt)]
      obtain ⟨i1, i2, i3⟩ := readLoop_exact orig prog addr rs _ hlt
      rw [if_neg (by linarith)]
      refine ⟨?_, ?_⟩
      · intro s hs
        rcases List.mem_cons.1 hs with rfl | hs
        · linarith
        · have := i2 s hs; linarith
      · rcases i3 with e | ⟨s, hs, e⟩
        · exact ⟨r', by simp, by rw [e]⟩
        · exact ⟨s, by simp [hs], by rw [e]⟩

/-! ### The neighbours -/

theorem countP_either {α : Type} (p q : α → Bool) (l : List α) :
    (l.countP (fun x => p x || q x) : Rat) = (l.countP p : Rat) + l.countP q - l.countP (fun x => p x && q x) := by
  have : l.countP (fun x => p x || q x) + l.countP (fun x => p x && q x) = l.countP p + l.countP q := by
    induction l with
    | nil => simp
    | cons a l ih =>
      simp only [List.countP_cons]
      cases p a <;> cases q a <;> simp <;> omega
  have h : ((l.countP (fun x => p x || q x) + l.countP (fun x => p x && q x) : Nat) : Rat) =
      ((l.countP p + l.countP q : Nat) : Rat) := by rw [this]
  push_cast at h
  linarith

theorem cfgValue_exact (always : Bool) (same flag both after lnPrev lnPost lenPrev : Nat) (p q : Rat)
    (hs : same ≤ lnPrev) (hf : flag ≤ lnPrev) (ha : after ≤ lnPost) (hl : lnPrev ≤ lenPrev)
    (hbs : both ≤ same) (hbf : both ≤ flag)
    (h : cfgValue always same flag both after lnPrev lnPost lenPrev = .ok p) (hq : cfgClamp p = .ok q) :
    q = neighbours always ((same : Rat) / lnPrev) ((flag : Rat) / lnPrev)
      (((same : Rat) + flag - both) / lnPrev) ((after : Rat) / lnPost) ((same : Rat) / lenPrev) := by
  have clamp : ∀ z : Rat, 0 < z → p = z → q = z := by
    rintro z hz rfl
    unfold cfgClamp at hq
    rw [if_neg hz.ne'] at hq
    split at hq
    · cases hq
    · cases hq; rfl
  have clamp0 : p = 0 → q = 1 / 1000 := by
    rintro rfl
    unfold cfgClamp at hq
    rw [if_pos rfl] at hq
    cases hq; rfl
  have pd : ∀ a b : Rat, b ≠ 0 → pyDiv a b = .ok (a / b) := fun a b h => pyDiv_ok h
  have sPos : decide (0 < (same : Rat) / lnPrev) = decide (0 < same) := by
    congr 1
    rcases Nat.eq_zero_or_pos same with e | e
    · rw [e]; simp
    · have : 0 < lnPrev := by omega
      simp only [e, eq_iff_iff, iff_true]
      exact natRatio_pos e this
  have fPos : decide (0 < (flag : Rat) / lnPrev) = decide (0 < flag) := by
    congr 1
    rcases Nat.eq_zero_or_pos flag with e | e
    · rw [e]; simp
    · have : 0 < lnPrev := by omega
      simp only [e, eq_iff_iff, iff_true]
      exact natRatio_pos e this
  have aPos : 0 < (after : Rat) / lnPost ↔ 0 < after := by
    rcases Nat.eq_zero_or_pos after with e | e
    · rw [e]; simp
    · have : 0 < lnPost := by omega
      simp only [e, iff_true]
      exact natRatio_pos e this
  have a0 : (0 : Rat) ≤ (after : Rat) / lnPost := natRatio_nonneg _ _
  -- the two shapes of `maxIf`
  have two : ∀ (n : Rat) (k1 k2 : Rat) (m : Rat), 0 < n → 0 < m → 0 < lnPrev → 0 < k1 → 0 < k2 → 
      ∀ d : Nat, 0 < d → maxIf after (scaled k1 (pyDiv (n * after) ((lnPrev : Rat) * lnPost)))
        (scaled k2 (pyDiv m d)) = .ok p →
      q = max (k1 * (n / lnPrev * ((after : Rat) / lnPost))) (k2 * (m / d)) := by
    intro n k1 k2 m hn hm hln hk1 hk2 d hd h
    have d0 : (0 : Rat) < d := by exact_mod_cast hd
    have l0 : (0 : Rat) < lnPrev := by exact_mod_cast hln
    have e2 : scaled k2 (pyDiv m d) = .ok (m / d * k2) := by
      unfold scaled; rw [pd _ _ d0.ne']; rfl
    have hpos : 0 < k2 * (m / d) := by positivity
    apply clamp _ (lt_of_lt_of_le hpos (le_max_right _ _))
    unfold maxIf at h
    rw [e2] at h
    by_cases hz : after > 0
    · rw [if_pos hz] at h
      have p0 : (0 : Rat) < lnPost := by exact_mod_cast (by omega : 0 < lnPost)
      have e1 : scaled k1 (pyDiv (n * after) ((lnPrev : Rat) * lnPost)) =
          .ok (n * after / ((lnPrev : Rat) * lnPost) * k1) := by
        unfold scaled; rw [pd _ _ (mul_pos l0 p0).ne']; rfl
      rw [e1] at h
      simp only [bind, Except.bind, pure, Except.pure, Except.ok.injEq] at h
      rw [← h]
      congr 1
      · field_simp
      · ring
    · have : after = 0 := by omega
      subst this
      rw [if_neg hz] at h
      simp only [bind, Except.bind, pure, Except.pure, Except.ok.injEq] at h
      rw [← h]
      congr 1
      · simp
      · ring
  have one : ∀ (k : Rat) (m : Nat) (d : Nat), 0 < k → 0 < m → 0 < d →
      scaled k (pyDiv m d) = .ok p → q = k * ((m : Rat) / d) := by
    intro k m d hk hm hd h
    have d0 : (0 : Rat) < d := by exact_mod_cast hd
    have m0 : (0 : Rat) < m := by exact_mod_cast hm
    apply clamp _ (by positivity)
    unfold scaled at h
    rw [pd _ _ d0.ne'] at h
    simp only [bind, Except.bind, pure, Except.pure, Except.ok.injEq] at h
    rw [← h]; ring
  unfold neighbours
  rw [sPos, fPos]
  unfold cfgValue at h
  rcases Nat.eq_zero_or_pos same with es | es <;> rcases Nat.eq_zero_or_pos flag with ef | ef <;>
    cases always
  · subst es ef
    simp only [Bool.not_false, if_true, gt_iff_lt, lt_irrefl, if_false, false_and, Except.ok.injEq] at h
    simp only [lt_irrefl, decide_false]
    exact clamp0 h.symm
  · subst es ef
    simp only [Bool.not_true, Bool.false_eq_true, if_false, lt_irrefl, gt_iff_lt] at h
    simp only [lt_irrefl, decide_false]
    by_cases hz : 0 < after
    · rw [if_pos hz] at h
      rw [if_pos (aPos.2 hz)]
      exact one _ _ _ (by norm_num) hz (by omega) h
    · rw [if_neg hz] at h
      rw [if_neg (fun h => hz (aPos.1 h))]
      exact clamp0 (by simpa using h.symm)
  · subst es
    simp only [Bool.not_false, if_true, gt_iff_lt, lt_irrefl, ef, if_false, false_and] at h
    simp only [lt_irrefl, decide_false, ef, decide_true]
    have f0 : (0 : Rat) < flag := by exact_mod_cast ef
    exact two flag _ _ flag f0 f0 (by omega) (by norm_num) (by norm_num) lnPrev (by omega) h
  · subst es
    simp only [Bool.not_true, Bool.false_eq_true, if_false, gt_iff_lt, ef, if_true] at h
    simp only [lt_irrefl, decide_false, ef, decide_true]
    have := one _ _ _ (by norm_num) ef (by omega) h
    rw [this]; norm_num
  · subst ef
    simp only [Bool.not_false, if_true, gt_iff_lt, lt_irrefl, es, if_false, and_false] at h
    simp only [lt_irrefl, decide_false, es, decide_true]
    have s0 : (0 : Rat) < same := by exact_mod_cast es
    exact two same _ _ same s0 s0 (by omega) (by norm_num) (by norm_num) lenPrev (by omega) h
  · subst ef
    simp only [Bool.not_true, Bool.false_eq_true, if_false, gt_iff_lt, lt_irrefl, es, if_true] at h
    simp only [lt_irrefl, decide_false, es, decide_true]
    have s0 : (0 : Rat) < same := by exact_mod_cast es
    exact two same _ _ same s0 s0 (by omega) (by norm_num) (by norm_num) lenPrev (by omega) h
  · simp only [Bool.not_false, if_true, gt_iff_lt, es, ef, and_self] at h
    simp only [es, ef, decide_true]
    have s0 : (0 : Rat) < (same : Rat) + flag - both := by
      have : (0 : Rat) < flag := by exact_mod_cast ef
      have : (both : Rat) ≤ same := by exact_mod_cast hbs
      linarith
    exact two _ _ _ _ s0 s0 (by omega) (by norm_num) (by norm_num) lnPrev (by omega) h
  · simp only [Bool.not_true, Bool.false_eq_true, if_false, gt_iff_lt, ef, if_true] at h
    simp only [es, ef, decide_true]
    have := one _ _ _ (by norm_num) ef (by omega) h
    rw [this]; norm_num

theorem computeCfg_exact {prog : CProg} {x : Cand} {a : Int} {q : Rat} (h : computeCfg prog x a = .ok q) :
    q = neighbours (decide (x.m.cond = 14))
    (share (definedAt prog (a - 4)) fun c => decide (c.m.cond = x.m.cond))
    (share (definedAt prog (a - 4)) fun c => decide (17 ∈ c.regsWritten))
    (share (definedAt prog (a - 4)) fun c => decide (c.m.cond = x.m.cond) || decide (17 ∈ c.regsWritten))
    (share (definedAt prog (a + 4)) fun c => decide (c.m.cond = x.m.cond))
    (((definedAt prog (a - 4)).countP fun c => decide (c.m.cond = x.m.cond) : Nat) /
      ((candsAt prog (a - 4)).length : Rat)) := by
  unfold computeCfg at h
  simp only [validAt_eq, allAt_eq] at h
  have hb : (fun i : Cand => decide (i.m.cond = x.m.cond ∧ regCPSR ∈ i.regsWritten)) =
      fun i => decide (i.m.cond = x.m.cond) && decide (17 ∈ i.regsWritten) := by
    funext i; unfold regCPSR; exact Bool.decide_and _ _
  rw [hb] at h
  unfold regCPSR at h
  cases hv : cfgValue (decide (x.m.cond = 14))
      ((definedAt prog (a - 4)).countP fun i => decide (i.m.cond = x.m.cond))
      ((definedAt prog (a - 4)).countP fun i => decide (17 ∈ i.regsWritten))
      ((definedAt prog (a - 4)).countP fun i => decide (i.m.cond = x.m.cond) && decide (17 ∈ i.regsWritten))
      ((definedAt prog (a + 4)).countP fun i => decide (i.m.cond = x.m.cond))
      (definedAt prog (a - 4)).length (definedAt prog (a + 4)).length (candsAt prog (a - 4)).length with
  | error e => rw [hv] at h; simp [bind, Except.bind] at h
  | ok p =>
    rw [hv] at h
    simp only [bind, Except.bind] at h
    have c1 := countP_and_le (fun i : Cand => decide (i.m.cond = x.m.cond)) (fun i => decide (17 ∈ i.regsWritten))
      (definedAt prog (a - 4))
    rw [cfgValue_exact _ _ _ _ _ _ _ _ p q List.countP_le_length List.countP_le_length List.countP_le_length
      (List.length_filter_le _ _) c1.1 c1.2 hv h]
    unfold share
    rw [countP_either]
    rfl

end Verif
