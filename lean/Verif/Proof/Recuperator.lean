import Verif.Model.Recuperator
import Verif.Proof.Recovery
import Verif.Props.Metadata
import Mathlib.Tactic.Linarith
import Mathlib.Tactic.Positivity
import Mathlib.Tactic.FieldSimp
import Mathlib.Tactic.NormNum
import Mathlib.Tactic.Ring

/-! # Helper lemmas for the recuperator -/

namespace Verif
open Spec

/-! ### Counting -/

theorem countP_union {α : Type} (p q : α → Bool) (l : List α) :
    l.countP p + l.countP q ≤ l.length + l.countP (fun x => p x && q x) := by
  induction l with
  | nil => simp
  | cons a l ih =>
    simp only [List.countP_cons, List.length_cons]
    cases p a <;> cases q a <;> simp <;> omega

theorem countP_and_le {α : Type} (p q : α → Bool) (l : List α) :
    l.countP (fun x => p x && q x) ≤ l.countP p ∧ l.countP (fun x => p x && q x) ≤ l.countP q := by
  constructor <;> apply List.countP_mono_left <;> intro x _ h <;> simp_all

/-! ### `pyDiv` -/

theorem pyDiv_ok {a b : Rat} (h : b ≠ 0) : pyDiv a b = .ok (a / b) := if_neg h

theorem natRatio_le_one {a b : Nat} (h : a ≤ b) : (a : Rat) / b ≤ 1 := by
  rcases Nat.eq_zero_or_pos b with rfl | hb
  · simp
  · rw [div_le_one (by exact_mod_cast hb)]
    exact_mod_cast h

theorem natRatio_nonneg (a b : Nat) : (0 : Rat) ≤ (a : Rat) / b := by positivity

theorem natRatio_pos {a b : Nat} (ha : 0 < a) (hb : 0 < b) : (0 : Rat) < (a : Rat) / b := by
  have : (0 : Rat) < a := by exact_mod_cast ha
  have : (0 : Rat) < b := by exact_mod_cast hb
  positivity

/-! ### `_compute_proper_cfg` -/

/-- A value in [0,1]. -/
def In01 (p : Rat) : Prop := 0 ≤ p ∧ p ≤ 1

/-- A value in (0,1]. -/
def Pos01 (p : Rat) : Prop := 0 < p ∧ p ≤ 1

theorem scaled_ok {k : Rat} {p : Py Rat} (hk : In01 k) (h : ∃ v, p = .ok v ∧ In01 v) :
    ∃ v, scaled k p = .ok v ∧ In01 v := by
  obtain ⟨v, rfl, h0, h1⟩ := h
  exact ⟨v * k, rfl, mul_nonneg h0 hk.1, mul_le_one₀ h1 hk.1 hk.2⟩

theorem maxIf_ok {n : Nat} {p q : Py Rat} (hp : 0 < n → ∃ v, p = .ok v ∧ In01 v)
    (hq : ∃ v, q = .ok v ∧ In01 v) : ∃ v, maxIf n p q = .ok v ∧ In01 v := by
  obtain ⟨w, rfl, w0, w1⟩ := hq
  unfold maxIf
  by_cases hn : n > 0
  · obtain ⟨v, rfl, v0, v1⟩ := hp hn
    rw [if_pos hn]
    exact ⟨max v w, rfl, le_max_of_le_left v0, max_le v1 w1⟩
  · rw [if_neg hn]
    exact ⟨max 0 w, rfl, le_max_left _ _, max_le (by norm_num) w1⟩

theorem ratio2_ok (a b c d : Nat) (hab : a ≤ b) (hcd : c ≤ d) (hb : 0 < b) (hd : 0 < d) :
    ∃ v, pyDiv ((a : Rat) * c) ((b : Rat) * d) = .ok v ∧ In01 v := by
  have h : ((b : Rat) * d) ≠ 0 := by
    have : (0 : Rat) < b := by exact_mod_cast hb
    have : (0 : Rat) < d := by exact_mod_cast hd
    positivity
  refine ⟨_, pyDiv_ok h, by positivity, ?_⟩
  rw [mul_div_mul_comm]
  exact mul_le_one₀ (natRatio_le_one hab) (natRatio_nonneg c d) (natRatio_le_one hcd)

theorem ratio1_ok (a b : Nat) (hab : a ≤ b) (hb : 0 < b) :
    ∃ v, pyDiv (a : Rat) (b : Rat) = .ok v ∧ In01 v :=
  ⟨_, pyDiv_ok (by positivity), natRatio_nonneg a b, natRatio_le_one hab⟩

theorem cfgValue_ok (always : Bool) (same flag both after lnPrev lnPost lenPrev : Nat)
    (h1 : both ≤ same) (h3 : same + flag ≤ lnPrev + both) (h2 : both ≤ flag)
    (h4 : lnPrev ≤ lenPrev) (h5 : after ≤ lnPost) :
    ∃ v, cfgValue always same flag both after lnPrev lnPost lenPrev = .ok v ∧ In01 v := by
  have hcast : (same : Rat) + flag - both = ((same + flag - both : Nat) : Rat) := by
    rw [Nat.cast_sub (by omega)]; push_cast; rfl
  have k1 : In01 (85 / 100) := by constructor <;> norm_num
  have k2 : In01 (65 / 100) := by constructor <;> norm_num
  have k3 : In01 (7 / 10) := by constructor <;> norm_num
  have k4 : In01 (76 / 100) := by constructor <;> norm_num
  have k5 : In01 (6 / 10) := by constructor <;> norm_num
  have k6 : In01 (1 - 6 / 10) := by constructor <;> norm_num
  unfold cfgValue
  rw [hcast]
  split
  · split
    · refine maxIf_ok (fun ha => scaled_ok k1 (ratio2_ok _ _ _ _ (by omega) h5 (by omega) (by omega)))
        (scaled_ok k2 (ratio1_ok _ _ (by omega) (by omega)))
    · split
      · refine maxIf_ok (fun ha => scaled_ok k3 (ratio2_ok _ _ _ _ (by omega) h5 (by omega) (by omega)))
          (scaled_ok k2 (ratio1_ok _ _ (by omega) (by omega)))
      · split
        · refine maxIf_ok (fun ha => scaled_ok k4 (ratio2_ok _ _ _ _ (by omega) h5 (by omega) (by omega)))
            (scaled_ok k5 (ratio1_ok _ _ (by omega) (by omega)))
        · exact ⟨0, rfl, by constructor <;> norm_num⟩
  · split
    · exact scaled_ok k6 (ratio1_ok _ _ (by omega) (by omega))
    · split
      · refine maxIf_ok (fun ha => scaled_ok k3 (ratio2_ok _ _ _ _ (by omega) h5 (by omega) (by omega)))
          (scaled_ok k2 (ratio1_ok _ _ (by omega) (by omega)))
      · split
        · exact scaled_ok k2 (ratio1_ok _ _ h5 (by omega))
        · exact ⟨0, rfl, by constructor <;> norm_num⟩

theorem computeCfg_ok (prog : CProg) (x : Cand) (addr : Int) :
    ∃ v, computeCfg prog x addr = .ok v ∧ Pos01 v := by
  unfold computeCfg
  have hu := countP_union (fun i : Cand => decide (i.m.cond = x.m.cond))
    (fun i => decide (regCPSR ∈ i.regsWritten)) (validAt prog (addr - 4))
  have hb := countP_and_le (fun i : Cand => decide (i.m.cond = x.m.cond))
    (fun i => decide (regCPSR ∈ i.regsWritten)) (validAt prog (addr - 4))
  have he : (fun i : Cand => decide (i.m.cond = x.m.cond ∧ regCPSR ∈ i.regsWritten)) =
      fun i => decide (i.m.cond = x.m.cond) && decide (regCPSR ∈ i.regsWritten) := by
    funext i; simp
  obtain ⟨v, hv, h0, h1⟩ := cfgValue_ok (decide (x.m.cond = 14))
    ((validAt prog (addr - 4)).countP fun i => decide (i.m.cond = x.m.cond))
    ((validAt prog (addr - 4)).countP fun i => decide (regCPSR ∈ i.regsWritten))
    ((validAt prog (addr - 4)).countP fun i => decide (i.m.cond = x.m.cond ∧ regCPSR ∈ i.regsWritten))
    ((validAt prog (addr + 4)).countP fun i => decide (i.m.cond = x.m.cond))
    (validAt prog (addr - 4)).length (validAt prog (addr + 4)).length (allAt prog (addr - 4)).length
    (by rw [he]; exact hb.1) (by rw [he]; exact hu) (by rw [he]; exact hb.2)
    (List.length_filter_le _ _) List.countP_le_length
  refine ⟨if v = 0 then 1 / 1000 else v, ?_, ?_⟩
  · show (Except.bind (cfgValue _ _ _ _ _ _ _ _) _) = _
    rw [hv]
    show cfgClamp v = _
    unfold cfgClamp
    split
    · rfl
    · rw [if_neg (by linarith)]
  · split
    · constructor <;> norm_num
    · rename_i hne
      exact ⟨lt_of_le_of_ne h0 (Ne.symm hne), h1⟩

/-! ### `_compute_register_distance` -/

theorem distLoop_in (prog : CProg) (r : Nat) : ∀ (as : List Int) (p : Rat), In01 p →
    In01 (distLoop prog r as p) := by
  intro as
  induction as with
  | nil => intro p hp; exact hp
  | cons a as ih =>
    intro p hp
    unfold distLoop
    split
    · exact ih p hp
    · rename_i insts _
      dsimp only
      split
      · have hf : In01 (1 - ((insts.filter fun i => !i.m.ignore).countP fun i => decide (r ∈ i.m.written) : Nat) /
            ((insts.filter fun i => !i.m.ignore).length : Rat)) := by
          have h1 := natRatio_le_one (List.countP_le_length (p := fun i : Cand => decide (r ∈ i.m.written))
            (l := insts.filter fun i => !i.m.ignore))
          have h2 := natRatio_nonneg ((insts.filter fun i => !i.m.ignore).countP fun i => decide (r ∈ i.m.written))
            (insts.filter fun i => !i.m.ignore).length
          constructor <;> linarith
        have hm : In01 (p * (1 - ((insts.filter fun i => !i.m.ignore).countP fun i => decide (r ∈ i.m.written) : Nat) /
            ((insts.filter fun i => !i.m.ignore).length : Rat))) :=
          ⟨mul_nonneg hp.1 hf.1, mul_le_one₀ hp.2 hf.1 hf.2⟩
        split
        · exact hm
        · exact ih _ hm
      · exact ih p hp

theorem readLoop_in (coll : Collector) (prog : CProg) (addr : Int) : ∀ (rs : List Nat) (p : Rat), In01 p →
    In01 (readLoop coll prog addr rs p) := by
  intro rs
  induction rs with
  | nil => intro p hp; exact hp
  | cons r rs ih =>
    intro p hp
    unfold readLoop
    have hd := distLoop_in prog r (distRange addr (distBounds coll r).1 (distBounds coll r).2) 1
      (by constructor <;> norm_num)
    dsimp only
    split
    · constructor <;> norm_num
    · exact ih _ ⟨le_min hd.1 hp.1, min_le_of_right_le hp.2⟩

theorem computeDistance_ok (coll : Collector) (prog : CProg) (x : Cand) (addr : Int) (v : Rat)
    (h : computeDistance coll prog x addr = some v) : Pos01 v := by
  unfold computeDistance at h
  split at h
  · simp at h
  · have hr := readLoop_in coll prog addr x.m.read 1 (by constructor <;> norm_num)
    simp only [Option.some.injEq] at h
    subst h
    split
    · constructor <;> norm_num
    · rename_i hn
      constructor <;> linarith [hr.1]

/-! ### `_compute_branch_address` -/

theorem computeBranch_ok (fns : Fns) (x : Cand) (cur low high : Int) (hf : (dictGet fns cur).isSome) :
    ∃ o, computeBranch fns x cur low high = .ok o ∧ ∀ v, o = some v → Pos01 v := by
  have he : ∀ j, Pos01 (computeBranch.elsewhere fns low high j) := by
    intro j
    unfold computeBranch.elsewhere
    split
    · constructor <;> norm_num
    · split <;> constructor <;> norm_num
  unfold computeBranch
  split
  · exact ⟨none, rfl, by simp⟩
  · split
    · refine ⟨_, rfl, ?_⟩
      intro v hv
      simp only [Option.some.injEq] at hv
      subst hv
      constructor <;> norm_num
    · rename_i j _
      split
      · obtain ⟨⟨s, l⟩, hl⟩ := Option.isSome_iff_exists.1 hf
        rw [hl]
        dsimp only
        split
        · refine ⟨_, rfl, ?_⟩
          intro v hv
          simp only [Option.some.injEq] at hv
          subst hv
          constructor <;> norm_num
        · refine ⟨_, rfl, ?_⟩
          intro v hv
          simp only [Option.some.injEq] at hv
          subst hv
          exact he j
      · refine ⟨_, rfl, ?_⟩
        intro v hv
        simp only [Option.some.injEq] at hv
        subst hv
        exact he j

/-! ### `_compute_push_pop` -/

/-- The address has a candidate that is not ignored. -/
def HasValid (prog : CProg) (a : Int) : Prop :=
  ∃ v, dictGet prog a = some v ∧ ∃ x ∈ v, x.m.ignore = false

theorem opProb_ok (prog : CProg) (isOp : Cand → Bool) (a : Int) (regs : List Nat) (h : HasValid prog a) :
    ∃ p e, opProb prog isOp a regs = .ok (p, e) ∧ In01 p := by
  obtain ⟨v, hv, x, hx, hi⟩ := h
  have hpos : 0 < (v.filter fun i => !i.m.ignore).length :=
    List.length_pos_of_mem (List.mem_filter.2 ⟨hx, by simp [hi]⟩)
  unfold opProb
  rw [hv]
  obtain ⟨p, hp, h01⟩ := ratio1_ok ((v.filter fun i => !i.m.ignore).countP isOp)
    (v.filter fun i => !i.m.ignore).length List.countP_le_length hpos
  refine ⟨p, (v.filter fun i => !i.m.ignore).any fun i => isOp i && regsMatch i.regsWritten regs, ?_, h01⟩
  show (Except.bind (pyDiv _ _) _) = _
  rw [hp]
  rfl

theorem popLoop_ok (prog : CProg) : ∀ (as : List Int) (cb cp tb : Nat) (p : Rat),
    (∀ a ∈ as, (dictGet prog a).isSome) → 0 ≤ p → ∃ v, popLoop prog as cb cp tb p = .ok v ∧ 0 ≤ v := by
  intro as
  induction as with
  | nil => intro cb cp tb p _ hp; exact ⟨p, rfl, hp⟩
  | cons a as ih =>
    intro cb cp tb p h hp
    obtain ⟨insts, hi⟩ := Option.isSome_iff_exists.1 (h a (by simp))
    unfold popLoop
    rw [hi]
    dsimp only
    have hq : ∀ q : Rat, 0 ≤ q → ∃ v, (if q > 0 then Except.ok q else
        popLoop prog as (cb + (insts.filter fun i => !i.m.ignore).countP (·.isBranch))
          (cp + (insts.filter fun i => !i.m.ignore).countP (·.isPop))
          (tb + (insts.filter fun i => !i.m.ignore).length) q : Py Rat) = .ok v ∧ 0 ≤ v := by
      intro q hq
      split
      · exact ⟨q, rfl, hq⟩
      · exact ih _ _ _ _ (fun b hb => h b (by simp [hb])) hq
    apply hq
    split
    · positivity
    · exact hp

theorem pushPopValue_ok (n : Nat) (hn : 0 < n) (p1 p2 : Rat) (e : Bool) (h1 : In01 p1) (h2 : 0 ≤ p2) :
    ∃ v, pushPopValue n p1 p2 e = .ok v ∧ Pos01 v := by
  unfold pushPopValue
  obtain ⟨q, hq, h01⟩ := ratio1_ok 1 n hn hn
  have hq' : pyDiv 1 (n : Rat) = .ok q := by simpa using hq
  have hqpos : 0 < q := by
    have : q = 1 / (n : Rat) := by
      rw [pyDiv_ok (by positivity)] at hq'
      simpa using hq'.symm
    rw [this]
    positivity
  refine ⟨_, by
    show (Except.bind (pyDiv 1 (n : Rat)) _) = _
    rw [hq']
    rfl, ?_, ?_⟩
  · apply lt_max_of_lt_right
    split
    · norm_num
    · exact hqpos
  · apply max_le (max_le ?_ ?_) ?_
    · split
      · norm_num
      · exact h1.2
    · split
      · norm_num
      · linarith
    · split
      · norm_num
      · exact h01.2

/-! ### Counting the originals -/

/-- The originals are at different addresses, and every defined one is among the
candidates of its address. -/
structure Covers (orig : List (Int × MInst)) (prog : CProg) : Prop where
  nodup : (orig.map (·.1)).Nodup
  present : ∀ q ∈ orig, q.2.ignore = false → ∃ v, (q.1, v) ∈ prog ∧ ∃ x ∈ v, x.m = q.2

/-- The collectors' view of a program. -/
def views (prog : CProg) : List (Int × List MInst) := prog.map fun q => (q.1, q.2.map (·.m))

theorem cover_count {orig : List (Int × MInst)} {prog : CProg} (h : Covers orig prog) (f : MInst → Bool) :
    (defined (orig.map (·.2))).countP f ≤ addressesWith (views prog) f ∧
    (addressesWith (views prog) f ≤ (defined (orig.map (·.2))).countP f →
      ∀ q ∈ prog, ∀ x ∈ q.2, x.m.ignore = false → f x.m = true →
        ∃ o, (q.1, o) ∈ orig ∧ o.ignore = false ∧ f o = true) := by
  let g : Int × MInst → Bool := fun q => !q.2.ignore && f q.2
  let k : Int × List Cand → Bool := fun q => q.2.any fun x => !x.m.ignore && f x.m
  have e1 : (defined (orig.map (·.2))).countP f = ((orig.filter g).map (·.1)).length := by
    rw [List.length_map, ← List.countP_eq_length_filter, defined, List.countP_filter, List.countP_map]
    apply List.countP_congr
    intro q _
    simp [g, and_comm]
  have e2 : addressesWith (views prog) f = ((prog.filter k).map (·.1)).length := by
    rw [List.length_map, ← List.countP_eq_length_filter, addressesWith, views, List.countP_map]
    apply List.countP_congr
    intro q _
    simp [k]
  have hn : ((orig.filter g).map (·.1)).Nodup :=
    h.nodup.sublist (List.filter_sublist.map _)
  have hs : ((orig.filter g).map (·.1)) ⊆ ((prog.filter k).map (·.1)) := by
    intro a ha
    obtain ⟨q, hq, rfl⟩ := List.mem_map.1 ha
    obtain ⟨hq, hg⟩ := List.mem_filter.1 hq
    simp only [g, Bool.and_eq_true, Bool.not_eq_true'] at hg
    obtain ⟨v, hv, x, hx, hm⟩ := h.present q hq hg.1
    refine List.mem_map.2 ⟨(q.1, v), List.mem_filter.2 ⟨hv, ?_⟩, rfl⟩
    simp only [k, List.any_eq_true]
    exact ⟨x, hx, by rw [hm, hg.1, hg.2]; rfl⟩
  have hsub := hn.subperm hs
  rw [e1, e2]
  refine ⟨hsub.length_le, ?_⟩
  intro hle q hq x hx hi hf
  have hp := hsub.perm_of_length_le hle
  have : q.1 ∈ (prog.filter k).map (·.1) := by
    refine List.mem_map.2 ⟨q, List.mem_filter.2 ⟨hq, ?_⟩, rfl⟩
    simp only [k, List.any_eq_true]
    exact ⟨x, hx, by rw [hi, hf]; rfl⟩
  rw [← hp.mem_iff] at this
  obtain ⟨o, ho, he⟩ := List.mem_map.1 this
  obtain ⟨ho, hg⟩ := List.mem_filter.1 ho
  simp only [g, Bool.and_eq_true, Bool.not_eq_true'] at hg
  refine ⟨o.2, ?_, hg.1, hg.2⟩
  rw [← he]
  exact ho

theorem sum_count_nodup (l : List MInst) (r : Nat) (h : ∀ x ∈ l, x.used.Nodup) :
    (l.map fun x => x.used.count r).sum = l.countP fun x => decide (r ∈ x.used) := by
  induction l with
  | nil => rfl
  | cons a l ih =>
    rw [List.map_cons, List.sum_cons, List.countP_cons, ih fun x hx => h x (by simp [hx]),
      count_of_nodup (h a (by simp)) r]
    by_cases hr : r ∈ a.used <;> simp [hr]; omega

theorem addressesWith_pos {prog : CProg} {q : Int × List Cand} {x : Cand} {f : MInst → Bool}
    (hq : q ∈ prog) (hx : x ∈ q.2) (hi : x.m.ignore = false) (hf : f x.m = true) :
    0 < addressesWith (views prog) f := by
  unfold addressesWith views
  rw [List.countP_map]
  refine List.countP_pos_iff.2 ⟨q, hq, ?_⟩
  simp only [Function.comp, List.any_map, List.any_eq_true]
  exact ⟨x, hx, by simp [hi, hf]⟩

/-! ### The ratios -/

/-- The count of a present key over the number of its addresses. -/
theorem ratio_spec {κ : Type} [DecidableEq κ] (num den : List (κ × Nat)) (k : κ) (n d : Nat)
    (hn : dictGet num k = if n = 0 then none else some n)
    (hd : dictGet den k = if d = 0 then none else some d) (hdp : 0 < d) :
    ratioOr0 num den k = .ok ((n : Rat) / d) := by
  unfold ratioOr0
  rw [hn, hd, if_neg (show ¬ d = 0 by omega)]
  by_cases h : n = 0
  · rw [if_pos h, h]; simp
  · rw [if_neg h]
    exact pyDiv_ok (by positivity)

theorem regMin_spec (num den : List (Nat × Nat)) (n d : Nat → Nat)
    (hn : ∀ k, dictGet num k = if n k = 0 then none else some (n k))
    (hd : ∀ k, dictGet den k = if d k = 0 then none else some (d k)) :
    ∀ (rs : List Nat) (av : Rat), (∀ r ∈ rs, 0 < d r) → Pos01 av →
      ∃ o, regMin num den rs av = .ok o ∧ In01 (o.getD 0) ∧
        ((∀ r ∈ rs, 0 < n r) ↔ 0 < o.getD 0) ∧
        (o.getD 0 = 1 ↔ av = 1 ∧ ∀ r ∈ rs, d r ≤ n r) := by
  intro rs
  induction rs with
  | nil =>
    intro av _ hav
    exact ⟨some av, rfl, ⟨hav.1.le, hav.2⟩, ⟨fun _ => hav.1, fun _ => by simp⟩, by simp⟩
  | cons r rs ih =>
    intro av hds hav
    have hdr := hds r (by simp)
    have hdr' : (0 : Rat) < d r := by exact_mod_cast hdr
    unfold regMin
    rw [hn r, hd r, if_neg (by omega : ¬ d r = 0)]
    by_cases hz : n r = 0
    · rw [if_pos hz]
      refine ⟨none, rfl, by constructor <;> norm_num, ?_, ?_⟩
      · constructor
        · intro h; have := h r (by simp); omega
        · intro h; simp at h
      · simp only [Option.getD_none]
        constructor
        · intro h; norm_num at h
        · rintro ⟨_, h⟩; have := h r (by simp); omega
    · rw [if_neg hz]
      have hnr : (0 : Rat) < n r := by exact_mod_cast Nat.pos_of_ne_zero hz
      have hq : 0 < (n r : Rat) / d r := by positivity
      obtain ⟨o, h1, h2, h3, h4⟩ := ih (min av ((n r : Rat) / d r)) (fun s hs => hds s (by simp [hs]))
        ⟨lt_min hav.1 hq, min_le_of_left_le hav.2⟩
      refine ⟨o, ?_, h2, ⟨fun h => h3.1 fun s hs => h s (by simp [hs]), fun h s hs => ?_⟩, ?_⟩
      · dsimp only
        rw [pyDiv_ok hdr'.ne']
        exact h1
      · rcases List.mem_cons.1 hs with rfl | hs
        · exact Nat.pos_of_ne_zero hz
        · exact h3.2 h s hs
      · rw [h4]
        have hiff : min av ((n r : Rat) / d r) = 1 ↔ av = 1 ∧ d r ≤ n r := by
          have hle : (1 : Rat) ≤ (n r : Rat) / d r ↔ d r ≤ n r := by
            rw [one_le_div hdr']
            exact_mod_cast Iff.rfl
          rw [← hle]
          constructor
          · intro h
            have h1 : 1 ≤ av := h ▸ min_le_left _ _
            have h2 : 1 ≤ (n r : Rat) / d r := h ▸ min_le_right _ _
            exact ⟨le_antisymm hav.2 h1, h2⟩
          · rintro ⟨rfl, h⟩
            exact min_eq_left h
        rw [hiff]
        simp only [List.mem_cons, forall_eq_or_imp]
        tauto

/-! ### Evidence of one candidate -/

theorem dictSet_mem {κ β : Type} [DecidableEq κ] {d : List (κ × β)} {k : κ} {v : β} {p : κ × β}
    (h : p ∈ dictSet d k v) : p = (k, v) ∨ p ∈ d := by
  induction d with
  | nil => simpa [dictSet] using h
  | cons a d ih =>
    unfold dictSet at h
    split at h
    · rcases List.mem_cons.1 h with h | h
      · exact Or.inl h
      · exact Or.inr (by simp [h])
    · rcases List.mem_cons.1 h with h | h
      · exact Or.inr (by simp [h])
      · rcases ih h with h | h
        · exact Or.inl h
        · exact Or.inr (by simp [h])

/-- What is known of stored evidence. -/
structure EvOk (c : Cand) (s : List (Evid × Rat)) : Prop where
  range : ∀ p ∈ s, In01 p.2
  zero : ∀ p ∈ s, p.2 = 0 → p.1 = .pc ∨ p.1 = .po ∨ p.1 = .pr
  nodup : (s.map (·.1)).Nodup
  pr : (c.isBranch || c.isPushPop) = true → dictGet s .pr = none
  pupo : dictGet s .pupo = none

theorem evOk_set {c : Cand} {s : List (Evid × Rat)} (h : EvOk c s) (k : Evid) (v : Rat) (hv : In01 v)
    (hz : v = 0 → k = .pc ∨ k = .po ∨ k = .pr)
    (hp : k = .pr → ¬ (c.isBranch || c.isPushPop) = true) (hu : k ≠ .pupo) :
    EvOk c (dictSet s k v) where
  range := by
    intro p hp
    rcases dictSet_mem hp with rfl | hp
    · exact hv
    · exact h.range p hp
  zero := by
    intro p hp h0
    rcases dictSet_mem hp with rfl | hp
    · exact hz h0
    · exact h.zero p hp h0
  nodup := keys_dictSet_nodup _ _ _ h.nodup
  pr := by
    intro hc
    rw [dictGet_dictSet]
    rw [if_neg (fun he => hp he hc)]
    exact h.pr hc
  pupo := by
    rw [dictGet_dictSet, if_neg hu]
    exact h.pupo

/-- Number of defined originals with a property. -/
def origWith (orig : List (Int × MInst)) (f : MInst → Bool) : Nat := (defined (orig.map (·.2))).countP f

/-- The place is inside the program: its function starts at a valid address of the
program and is known, and a function starting here lies inside the program. -/
structure PlaceOk (fns : Fns) (prog : CProg) (pl : Place) (v : List Cand) : Prop where
  here : dictGet prog pl.addr = some v
  cur : HasValid prog pl.currentFn
  curFn : (dictGet fns pl.currentFn).isSome
  fn : ∀ st last, dictGet fns pl.addr = some (st, last) →
    HasValid prog last ∧ ∀ b ∈ downRange last pl.addr, (dictGet prog b).isSome

theorem computePushPop_ok {fns : Fns} {prog : CProg} {pl : Place} {v : List Cand}
    (h : PlaceOk fns prog pl v) (x : Cand) (hx : x ∈ v) :
    ∃ o, computePushPop prog fns x pl.addr pl.currentFn = .ok o ∧ ∀ w, o = some w → Pos01 w := by
  have hl : 0 < v.length := List.length_pos_of_mem hx
  unfold computePushPop
  rw [h.here]
  dsimp only
  split
  · split
    · rename_i st last hf
      obtain ⟨h1, h2⟩ := h.fn _ last hf
      obtain ⟨p, e, hp, hp01⟩ := opProb_ok prog (·.isPop) last x.regsRead h1
      obtain ⟨w, hw, hw0⟩ := popLoop_ok prog (downRange last pl.addr) 0 0 0 0 h2 (le_refl _)
      obtain ⟨u, hu, hu01⟩ := pushPopValue_ok v.length hl p w e hp01 hw0
      refine ⟨some u, ?_, by rintro _ ⟨⟩; exact hu01⟩
      show (Except.bind (opProb prog (·.isPop) last x.regsRead) _) = _
      rw [hp]
      show (Except.bind (popLoop prog (downRange last pl.addr) 0 0 0 0) _) = _
      rw [hw]
      show (Except.map some (pushPopValue v.length p w e)) = _
      rw [hu]
      rfl
    · obtain ⟨u, hu, hu01⟩ := pushPopValue_ok v.length hl 0 0 false (by constructor <;> norm_num) (le_refl _)
      refine ⟨some u, ?_, by rintro _ ⟨⟩; exact hu01⟩
      show (Except.map some (pushPopValue v.length 0 0 false)) = _
      rw [hu]
      rfl
  · split
    · obtain ⟨p, e, hp, hp01⟩ := opProb_ok prog (·.isPush) pl.currentFn x.regsWritten h.cur
      obtain ⟨u, hu, hu01⟩ := pushPopValue_ok v.length hl p 0 e hp01 (le_refl _)
      refine ⟨some u, ?_, by rintro _ ⟨⟩; exact hu01⟩
      show (Except.bind (opProb prog (·.isPush) pl.currentFn x.regsWritten) _) = _
      rw [hp]
      show (Except.map some (pushPopValue v.length p 0 e)) = _
      rw [hu]
      rfl
    · exact ⟨none, rfl, by simp⟩

/-- The evidence found for a candidate. -/
structure EvAfter (orig : List (Int × MInst)) (prog : CProg) (x : Cand) (s : List (Evid × Rat)) : Prop where
  ok : EvOk x s
  pc : dictGet s .pc = some (((origWith orig fun i => decide (i.cond = x.m.cond) : Nat) : Rat) /
    ((addressesWith (views prog) fun i => decide (i.cond = x.m.cond) : Nat) : Rat))
  po : dictGet s .po = some (((origWith orig fun i => decide (i.opcode = x.m.opcode) : Nat) : Rat) /
    ((addressesWith (views prog) fun i => decide (i.opcode = x.m.opcode) : Nat) : Rat))
  pr : (x.isBranch || x.isPushPop) = false → ∃ v, dictGet s .pr = some v ∧
    ((∀ r ∈ x.m.used, 0 < origWith orig fun i => decide (r ∈ i.used)) ↔ 0 < v) ∧
    (v = 1 ↔ ∀ r ∈ x.m.used, (addressesWith (views prog) fun i => decide (r ∈ i.used)) ≤
      origWith orig fun i => decide (r ∈ i.used))

theorem setEvid_ok {c : Cand} {s : List (Evid × Rat)} (h : EvOk c s) (k : Evid) (o : Option Rat)
    (ho : ∀ v, o = some v → Pos01 v) (hp : k ≠ .pr) (hu : k ≠ .pupo) : EvOk c (setEvid s k o) := by
  cases o with
  | none => exact h
  | some v =>
    have := ho v rfl
    exact evOk_set h k v ⟨this.1.le, this.2⟩ (fun h0 => absurd h0 this.1.ne') (fun h => absurd h hp) hu

theorem setEvid_get {s : List (Evid × Rat)} {k k' : Evid} {o : Option Rat} (h : k ≠ k') :
    dictGet (setEvid s k o) k' = dictGet s k' := by
  cases o with
  | none => rfl
  | some v => rw [setEvid, dictGet_dictSet, if_neg h]

/-- Scoring a candidate never raises and yields evidence in [0,1]. -/
theorem scoreCand_ok {orig : List (Int × MInst)} {fns : Fns} {prog : CProg} {pl : Place} {v : List Cand}
    (hc : Covers orig prog) (hu : ∀ q ∈ orig, q.2.ignore = false → q.2.used.Nodup)
    (h : PlaceOk fns prog pl v) (x : Scored) (hx : x.c ∈ v) (hi : x.c.m.ignore = false)
    (he : EvOk x.c x.scores) :
    ∃ s, scoreCand (collectMeta {} (orig.map (·.2))) fns prog (counters prog) pl x = .ok ⟨x.c, s, true⟩ ∧
      EvAfter orig prog x.c s := by
  obtain ⟨c1, c2, c3, _⟩ := C35_counts (orig.map (·.2))
  obtain ⟨d1, d2, d3⟩ := C37_addresses (views prog)
  have hmem : (pl.addr, v) ∈ prog := dictGet_mem h.here
  have a1 : 0 < addressesWith (views prog) fun i => decide (i.cond = x.c.m.cond) :=
    addressesWith_pos hmem hx hi (by simp)
  have a2 : 0 < addressesWith (views prog) fun i => decide (i.opcode = x.c.m.opcode) :=
    addressesWith_pos hmem hx hi (by simp)
  have a3 : ∀ r ∈ x.c.m.used, 0 < addressesWith (views prog) fun i => decide (r ∈ i.used) :=
    fun r hr => addressesWith_pos hmem hx hi (by simpa using hr)
  have r1 := ratio_spec (collectMeta {} (orig.map (·.2))).conditionCnt (counters prog).1 x.c.m.cond _ _
    (c1 _) (d1 _) a1
  have r2 := ratio_spec (collectMeta {} (orig.map (·.2))).instructionCnt (counters prog).2.1 x.c.m.opcode _ _
    (c2 _) (d2 _) a2
  have c3' : ∀ k, dictGet (collectMeta {} (orig.map (·.2))).storageCnt k =
      if (origWith orig fun i => decide (k ∈ i.used)) = 0 then none
      else some (origWith orig fun i => decide (k ∈ i.used)) := by
    intro k
    rw [c3 k, sum_count_nodup]
    · rfl
    · intro y hy
      obtain ⟨hy, hyi⟩ := List.mem_filter.1 hy
      obtain ⟨q, hq, rfl⟩ := List.mem_map.1 hy
      exact hu q hq (by simpa using hyi)
  obtain ⟨o, r3, o1, o2, o3⟩ := regMin_spec (collectMeta {} (orig.map (·.2))).storageCnt (counters prog).2.2
    _ _ c3' d3 x.c.m.used 1 a3 (by constructor <;> norm_num)
  obtain ⟨pp, p1, p2⟩ := computePushPop_ok h x.c hx
  obtain ⟨pb, b1, b2⟩ := computeBranch_ok fns x.c pl.currentFn pl.low pl.high h.curFn
  obtain ⟨pg, g1, g2⟩ := computeCfg_ok prog x.c pl.addr
  have i1 : In01 ((origWith orig fun i => decide (i.cond = x.c.m.cond) : Nat) /
      (addressesWith (views prog) fun i => decide (i.cond = x.c.m.cond) : Nat)) :=
    ⟨natRatio_nonneg _ _, natRatio_le_one (cover_count hc _).1⟩
  have i2 : In01 ((origWith orig fun i => decide (i.opcode = x.c.m.opcode) : Nat) /
      (addressesWith (views prog) fun i => decide (i.opcode = x.c.m.opcode) : Nat)) :=
    ⟨natRatio_nonneg _ _, natRatio_le_one (cover_count hc _).1⟩
  generalize hpc : ((origWith orig fun i => decide (i.cond = x.c.m.cond) : Nat) /
      (addressesWith (views prog) fun i => decide (i.cond = x.c.m.cond) : Nat) : Rat) = pc at i1
  generalize hpo : ((origWith orig fun i => decide (i.opcode = x.c.m.opcode) : Nat) /
      (addressesWith (views prog) fun i => decide (i.opcode = x.c.m.opcode) : Nat) : Rat) = po at i2
  have e1 : EvOk x.c (dictSet x.scores .pc pc) :=
    evOk_set he .pc pc i1 (fun _ => by simp) (fun h => by simp at h) (by simp)
  have e2 : EvOk x.c (dictSet (dictSet x.scores .pc pc) .po po) :=
    evOk_set e1 .po po i2 (fun _ => by simp) (fun h => by simp at h) (by simp)
  -- the register evidence
  obtain ⟨pr, q1, e3, q3⟩ : ∃ pr, computeRegisters (collectMeta {} (orig.map (·.2))) (counters prog) x.c = .ok pr ∧
      EvOk x.c (setEvid (dictSet (dictSet x.scores .pc pc) .po po) .pr pr) ∧
      ((x.c.isBranch || x.c.isPushPop) = false → pr = some (o.getD 0)) := by
    unfold computeRegisters
    cases hb : (x.c.isBranch || x.c.isPushPop) with
    | true => exact ⟨none, by simp, e2, by simp⟩
    | false =>
      refine ⟨some (o.getD 0), ?_, ?_, fun _ => rfl⟩
      · simp only [Bool.false_eq_true, if_false]
        rw [r3]
        rfl
      · exact evOk_set e2 .pr _ o1 (fun _ => by simp) (fun _ => by simp [hb]) (by simp)
  have e4 := setEvid_ok e3 .popu pp p2 (by simp) (by simp)
  have e5 := setEvid_ok e4 .pbd pb b2 (by simp) (by simp)
  have e6 := setEvid_ok e5 .prd (computeDistance (collectMeta {} (orig.map (·.2))) prog x.c pl.addr)
    (computeDistance_ok _ _ _ _) (by simp) (by simp)
  have e7 := setEvid_ok e6 .pcfg (some pg) (by rintro _ ⟨⟩; exact g2) (by simp) (by simp)
  have l1 : ∀ k, k = Evid.pc ∨ k = .po ∨ k = .pr → dictGet (setEvid (setEvid (setEvid
      (dictSet (dictSet x.scores .pc pc) .po po) .pr pr) .popu pp) .pbd pb) k =
      dictGet (setEvid (dictSet (dictSet x.scores .pc pc) .po po) .pr pr) k := by
    intro k hk
    rw [setEvid_get (by rcases hk with rfl | rfl | rfl <;> simp),
      setEvid_get (by rcases hk with rfl | rfl | rfl <;> simp)]
  have l2 : ∀ k, k = Evid.pc ∨ k = .po ∨ k = .pr → dictGet (setEvid (setEvid (setEvid (setEvid (setEvid
      (dictSet (dictSet x.scores .pc pc) .po po) .pr pr) .popu pp) .pbd pb) .prd
      (computeDistance (collectMeta {} (orig.map (·.2))) prog x.c pl.addr)) .pcfg (some pg)) k =
      dictGet (setEvid (dictSet (dictSet x.scores .pc pc) .po po) .pr pr) k := by
    intro k hk
    rw [setEvid_get (by rcases hk with rfl | rfl | rfl <;> simp),
      setEvid_get (by rcases hk with rfl | rfl | rfl <;> simp), l1 k hk]
  have m1 : dictGet (setEvid (dictSet (dictSet x.scores .pc pc) .po po) .pr pr) .pc = some pc := by
    rw [setEvid_get (by simp), dictGet_dictSet, if_neg (by simp), dictGet_dictSet, if_pos rfl]
  have m2 : dictGet (setEvid (dictSet (dictSet x.scores .pc pc) .po po) .pr pr) .po = some po := by
    rw [setEvid_get (by simp), dictGet_dictSet, if_pos rfl]
  have m3 : (x.c.isBranch || x.c.isPushPop) = false →
      dictGet (setEvid (dictSet (dictSet x.scores .pc pc) .po po) .pr pr) .pr = some (o.getD 0) := by
    intro hb
    rw [q3 hb, setEvid, dictGet_dictSet, if_pos rfl]
  have fin : ∀ s, EvOk x.c s → (∀ k, k = Evid.pc ∨ k = .po ∨ k = .pr → dictGet s k =
      dictGet (setEvid (dictSet (dictSet x.scores .pc pc) .po po) .pr pr) k) → EvAfter orig prog x.c s := by
    intro s hs hk
    refine ⟨hs, ?_, ?_, ?_⟩
    · rw [hk _ (by simp), m1, hpc]
    · rw [hk _ (by simp), m2, hpo]
    · intro hb
      refine ⟨o.getD 0, by rw [hk _ (by simp), m3 hb], o2, ?_⟩
      rw [o3]; simp
  have r1' : ratioOr0 (collectMeta {} (orig.map (·.2))).conditionCnt (counters prog).1 x.c.m.cond = .ok pc := by
    rw [← hpc]; exact r1
  have r2' : ratioOr0 (collectMeta {} (orig.map (·.2))).instructionCnt (counters prog).2.1 x.c.m.opcode =
      .ok po := by
    rw [← hpo]; exact r2
  unfold scoreCand
  rw [hi, r1', r2', q1, p1, b1, g1]
  simp only [Bool.false_eq_true, if_false]
  cases hfirst : pl.first with
  | true =>
    refine ⟨_, ?_, fin _ e5 l1⟩
    rfl
  | false =>
    refine ⟨_, ?_, fin _ e7 l2⟩
    rfl

/-! ### Scores -/

theorem lo_fold : ∀ (s : List (Evid × Rat)) (a : Rat), 0 < a → (∀ p ∈ s, 0 ≤ p.2) →
    (s.foldl (fun lo p => if p.2 < lo then p.2 else lo) a = 0 ↔ ∃ p ∈ s, p.2 = 0) := by
  intro s
  have zero : ∀ (s : List (Evid × Rat)), (∀ p ∈ s, 0 ≤ p.2) →
      s.foldl (fun lo p => if p.2 < lo then p.2 else lo) 0 = 0 := by
    intro s
    induction s with
    | nil => intro _; rfl
    | cons q s ih =>
      intro h
      rw [List.foldl_cons, if_neg (not_lt.2 (h q (by simp)))]
      exact ih fun p hp => h p (by simp [hp])
  induction s with
  | nil => intro a ha _; simp [ha.ne']
  | cons q s ih =>
    intro a ha h
    rw [List.foldl_cons]
    have hq := h q (by simp)
    have hs : ∀ p ∈ s, 0 ≤ p.2 := fun p hp => h p (by simp [hp])
    by_cases hz : q.2 = 0
    · rw [if_pos (by rw [hz]; exact ha), hz, zero s hs]
      simp only [List.mem_cons, true_iff]
      exact ⟨q, Or.inl rfl, hz⟩
    · rw [ih _ (by split; exacts [lt_of_le_of_ne hq (Ne.symm hz), ha]) hs]
      simp [hz]

theorem evid_in {c : Cand} {s : List (Evid × Rat)} (h : EvOk c s) (k : Evid) (d : Rat) (hd : In01 d) :
    In01 (evid s k d) := by
  unfold evid
  cases hg : dictGet s k with
  | none => exact hd
  | some v => exact h.range _ (dictGet_mem hg)

theorem evid_ne {c : Cand} {s : List (Evid × Rat)} (_h : EvOk c s) (hz : ∀ p ∈ s, p.2 ≠ 0) (k : Evid) (d : Rat)
    (hd : d ≠ 0) : evid s k d ≠ 0 := by
  unfold evid
  cases hg : dictGet s k with
  | none => exact hd
  | some v => exact hz _ (dictGet_mem hg)

theorem in01_mul {a b : Rat} (ha : In01 a) (hb : In01 b) : In01 (a * b) :=
  ⟨mul_nonneg ha.1 hb.1, mul_le_one₀ ha.2 hb.1 hb.2⟩

theorem lastFactor_in {c : Cand} {s : List (Evid × Rat)} (h : EvOk c s) (d : Rat) (hd : In01 d) :
    In01 (lastFactor c s d) := by
  have one : In01 1 := by constructor <;> norm_num
  unfold lastFactor
  split
  · exact evid_in h _ _ one
  · split
    · exact in01_mul (evid_in h _ _ hd) (evid_in h _ _ one)
    · exact in01_mul (evid_in h _ _ hd) (evid_in h _ _ one)

theorem checkScore_ok {v : Rat} (h : In01 v) : checkScore v = .ok v := by
  unfold checkScore
  rw [if_neg]
  rintro (h1 | h1)
  · exact absurd h.2 (not_le.2 h1)
  · exact absurd h.1 (not_le.2 h1)

/-- The score that counts for pruning. -/
def stepValue (s : List (Evid × Rat)) (x : Cand) : Rat :=
  if (evid s .pc 1 = 1 ∨ evid s .po 1 = 1 ∨ evid s .pr 0 = 1) ∧ (∀ p ∈ s, p.2 ≠ 0) then 1
  else if (∃ p ∈ s, p.2 = 0) ∨ x.m.ignore then 0
  else evid s .pc 1 * evid s .po 1 * evid s .pcfg 1 * lastFactor x s 0

theorem removeStep_eq {c : Cand} {s : List (Evid × Rat)} (h : EvOk c s) :
    removeStep s c = .ok (stepValue s c) ∧ In01 (stepValue s c) := by
  have one : In01 1 := by constructor <;> norm_num
  have zero : In01 0 := by constructor <;> norm_num
  have hpc := evid_in h .pc 1 one
  have hpo := evid_in h .po 1 one
  have hpr := evid_in h .pr 0 zero
  have hin : In01 (stepValue s c) := by
    unfold stepValue
    split
    · exact one
    · split
      · exact zero
      · exact in01_mul (in01_mul (in01_mul hpc hpo) (evid_in h .pcfg 1 one)) (lastFactor_in h 0 zero)
  refine ⟨?_, hin⟩
  have hlo := lo_fold s 2 (by norm_num) fun p hp => (h.range p hp).1
  have hhi : max (max (evid s .pc 1) (evid s .po 1)) (evid s .pr 0) = 1 ↔
      (evid s .pc 1 = 1 ∨ evid s .po 1 = 1 ∨ evid s .pr 0 = 1) := by
    constructor
    · intro h1
      by_contra hn
      push Not at hn
      have := lt_of_le_of_ne hpc.2 hn.1
      have := lt_of_le_of_ne hpo.2 hn.2.1
      have := lt_of_le_of_ne hpr.2 hn.2.2
      have : max (max (evid s .pc 1) (evid s .po 1)) (evid s .pr 0) < 1 := by
        simp only [max_lt_iff]; tauto
      exact this.ne h1
    · intro h1
      apply le_antisymm (max_le (max_le hpc.2 hpo.2) hpr.2)
      rcases h1 with h1 | h1 | h1 <;> rw [h1] <;> simp
  have hne : ¬ (∃ p ∈ s, p.2 = 0) ↔ ∀ p ∈ s, p.2 ≠ 0 := by push Not; rfl
  have : (if max (max (evid s .pc 1) (evid s .po 1)) (evid s .pr 0) = 1 ∧
        s.foldl (fun lo p => if p.2 < lo then p.2 else lo) 2 ≠ 0 then 1
      else if s.foldl (fun lo p => if p.2 < lo then p.2 else lo) 2 = 0 ∨ c.m.ignore then 0
      else evid s .pc 1 * evid s .po 1 * evid s .pcfg 1 * lastFactor c s 0) = stepValue s c := by
    unfold stepValue
    simp only [hhi, ne_eq, hlo, hne]
  unfold removeStep
  dsimp only
  rw [this]
  exact checkScore_ok hin

/-- A score of one needs certain evidence. -/
theorem stepValue_one {c : Cand} {s : List (Evid × Rat)} (h : EvOk c s) (h1 : stepValue s c = 1) :
    evid s .pc 1 = 1 ∨ evid s .po 1 = 1 ∨ evid s .pr 0 = 1 := by
  have one : In01 1 := by constructor <;> norm_num
  have zero : In01 0 := by constructor <;> norm_num
  unfold stepValue at h1
  split at h1
  · rename_i h2; exact h2.1
  · split at h1
    · norm_num at h1
    · left
      have hpc := evid_in h .pc 1 one
      have hr := in01_mul (in01_mul (evid_in h .po 1 one) (evid_in h .pcfg 1 one)) (lastFactor_in h 0 zero)
      apply le_antisymm hpc.2
      calc (1 : Rat) = evid s .pc 1 * (evid s .po 1 * evid s .pcfg 1 * lastFactor c s 0) := by
            have h2 := h1.symm
            rw [mul_assoc, mul_assoc, ← mul_assoc (evid s .po 1)] at h2
            exact h2
        _ ≤ evid s .pc 1 * 1 := mul_le_mul_of_nonneg_left hr.2 hpc.1
        _ = evid s .pc 1 := mul_one _

/-- Evidence without zero and certainty gives score one. -/
theorem stepValue_certain {c : Cand} {s : List (Evid × Rat)} (hz : ∀ p ∈ s, p.2 ≠ 0)
    (h1 : evid s .pc 1 = 1 ∨ evid s .po 1 = 1 ∨ evid s .pr 0 = 1) : stepValue s c = 1 :=
  if_pos ⟨h1, hz⟩

/-- Evidence without zero gives a score that is not zero, except for push and pop. -/
theorem stepValue_ne {orig : List (Int × MInst)} {prog : CProg} {c : Cand} {s : List (Evid × Rat)}
    (h : EvAfter orig prog c s) (hi : c.m.ignore = false) (hz : ∀ p ∈ s, p.2 ≠ 0)
    (hp : c.isBranch = true ∨ c.isPushPop = false) : stepValue s c ≠ 0 := by
  unfold stepValue
  split
  · norm_num
  · rw [if_neg (by
      rintro (⟨p, hp, h0⟩ | h0)
      · exact hz p hp h0
      · rw [hi] at h0; simp at h0)]
    have h1 : (1 : Rat) ≠ 0 := by norm_num
    refine mul_ne_zero (mul_ne_zero (mul_ne_zero (evid_ne h.ok hz _ _ h1) (evid_ne h.ok hz _ _ h1))
      (evid_ne h.ok hz _ _ h1)) ?_
    unfold lastFactor
    split
    · exact evid_ne h.ok hz _ _ h1
    · rename_i hb
      have hb' : c.isBranch = false := by simpa using hb
      have hpp : c.isPushPop = false := by
        rcases hp with hp | hp
        · rw [hb'] at hp; simp at hp
        · exact hp
      rw [if_neg (by simp [hpp])]
      obtain ⟨v, hv, _⟩ := h.pr (by rw [hb', hpp]; rfl)
      refine mul_ne_zero ?_ (evid_ne h.ok hz _ _ h1)
      unfold evid
      rw [hv]
      exact hz _ (dictGet_mem hv)

/-- A push or pop that is no branch scores zero unless some evidence is certain. -/
theorem stepValue_pushpop {orig : List (Int × MInst)} {prog : CProg} {c : Cand} {s : List (Evid × Rat)}
    (h : EvAfter orig prog c s) (hb : c.isBranch = false) (hp : c.isPushPop = true)
    (h1 : evid s .pc 1 ≠ 1) (h2 : evid s .po 1 ≠ 1) : stepValue s c = 0 := by
  have hpr : evid s .pr 0 = 0 := by
    unfold evid
    rw [h.ok.pr (by rw [hb, hp]; rfl)]
    rfl
  unfold stepValue
  rw [if_neg (by
    rintro ⟨h | h | h, _⟩
    · exact h1 h
    · exact h2 h
    · rw [hpr] at h; norm_num at h)]
  split
  · rfl
  · unfold lastFactor
    rw [hb, if_neg (by simp), if_pos hp, hpr]
    ring

/-- All evidence of an original is positive. -/
theorem original_positive {orig : List (Int × MInst)} {prog : CProg} {c : Cand} {s : List (Evid × Rat)}
    (h : EvAfter orig prog c s) {a : Int} (ho : (a, c.m) ∈ orig) (hi : c.m.ignore = false)
    (hc : Covers orig prog) : ∀ p ∈ s, p.2 ≠ 0 := by
  have hpos : ∀ f : MInst → Bool, f c.m = true → 0 < origWith orig f := by
    intro f hf
    refine List.countP_pos_iff.2 ⟨c.m, List.mem_filter.2 ⟨List.mem_map.2 ⟨_, ho, rfl⟩, by simp [hi]⟩, hf⟩
  intro p hp h0
  have hg := dictGet_of_mem h.ok.nodup hp
  rcases h.ok.zero p hp h0 with hk | hk | hk
  · rw [hk, h.pc] at hg
    simp only [Option.some.injEq] at hg
    have a := hpos (fun i => decide (i.cond = c.m.cond)) (by simp)
    have := natRatio_pos a (lt_of_lt_of_le a (cover_count hc _).1)
    rw [hg, h0] at this
    exact lt_irrefl _ this
  · rw [hk, h.po] at hg
    simp only [Option.some.injEq] at hg
    have a := hpos (fun i => decide (i.opcode = c.m.opcode)) (by simp)
    have := natRatio_pos a (lt_of_lt_of_le a (cover_count hc _).1)
    rw [hg, h0] at this
    exact lt_irrefl _ this
  · cases hb : (c.isBranch || c.isPushPop) with
    | true =>
      have := h.ok.pr hb
      rw [hk, this] at hg
      simp at hg
    | false =>
      obtain ⟨v, hv, hv1, _⟩ := h.pr hb
      rw [hk, hv] at hg
      simp only [Option.some.injEq] at hg
      have := hv1.1 fun r hr => hpos (fun i => decide (r ∈ i.used)) (by simpa using hr)
      rw [hg, h0] at this
      exact lt_irrefl _ this

/-! ### The loop over the program -/

theorem mapM_ok {α β : Type} {R : α → β → Prop} (f : α → Py β) : ∀ l : List α,
    (∀ x ∈ l, ∃ y, f x = .ok y ∧ R x y) → ∃ l', l.mapM f = .ok l' ∧ List.Forall₂ R l l' := by
  intro l
  induction l with
  | nil => intro _; exact ⟨[], rfl, List.Forall₂.nil⟩
  | cons x l ih =>
    intro h
    obtain ⟨y, hy, hr⟩ := h x (by simp)
    obtain ⟨l', hl', hf⟩ := ih fun z hz => h z (by simp [hz])
    refine ⟨y :: l', ?_, List.Forall₂.cons hr hf⟩
    rw [List.mapM_cons, hy]
    show (Except.bind (l.mapM f) _) = _
    rw [hl']
    rfl

/-- Stored evidence of a candidate: nothing for an ignored one. -/
structure Stored (x : Scored) : Prop where
  ok : EvOk x.c x.scores
  ignored : x.c.m.ignore = true → x.scores = [] ∧ x.scored = false

/-- A candidate before and after scoring. -/
structure ScoredTo (orig : List (Int × MInst)) (prog : CProg) (x y : RInst Scored) : Prop where
  enc : y.enc = x.enc
  str : y.str = x.str
  c : y.data.c = x.data.c
  stored : Stored y.data
  value : scoreOf y.data = .ok y.score
  ignored : x.data.c.m.ignore = true → y.score = 0
  after : x.data.c.m.ignore = false →
    EvAfter orig prog x.data.c y.data.scores ∧ y.score = stepValue y.data.scores x.data.c

theorem ScoredTo.range {orig : List (Int × MInst)} {prog : CProg} {x y : RInst Scored}
    (h : ScoredTo orig prog x y) : In01 y.score := by
  cases hi : x.data.c.m.ignore with
  | true => rw [h.ignored hi]; constructor <;> norm_num
  | false =>
    obtain ⟨h1, h2⟩ := h.after hi
    rw [h2]
    exact (removeStep_eq h1.ok).2

theorem scoreOne_ok {orig : List (Int × MInst)} {fns : Fns} {prog : CProg} {pl : Place} {v : List Cand}
    (hc : Covers orig prog) (hu : ∀ q ∈ orig, q.2.ignore = false → q.2.used.Nodup)
    (h : PlaceOk fns prog pl v) (x : RInst Scored) (hx : x.data.c ∈ v) (hs : Stored x.data) :
    ∃ y, scoreOne (collectMeta {} (orig.map (·.2))) fns prog (counters prog) pl x = .ok y ∧
      ScoredTo orig prog x y := by
  cases hi : x.data.c.m.ignore with
  | true =>
    obtain ⟨h1, h2⟩ := hs.ignored hi
    refine ⟨{ x with score := 0 }, ?_, ⟨rfl, rfl, rfl, hs, by
      unfold scoreOf; rw [h2, h1]; rfl, fun _ => rfl, fun h => by rw [hi] at h; simp at h⟩⟩
    unfold scoreOne scoreCand
    rw [if_pos hi]
    show (Except.bind (scoreOf x.data) _) = _
    unfold scoreOf
    rw [h2, h1]
    rfl
  | false =>
    obtain ⟨s, h1, h2⟩ := scoreCand_ok hc hu h x.data hx hi hs.ok
    have hr := removeStep_eq h2.ok
    refine ⟨{ x with data := ⟨x.data.c, s, true⟩, score := stepValue s x.data.c }, ?_,
      ⟨rfl, rfl, rfl, ⟨h2.ok, fun h => by rw [hi] at h; simp at h⟩, hr.1, fun h => by rw [hi] at h; simp at h,
        fun _ => ⟨h2, rfl⟩⟩⟩
    unfold scoreOne
    rw [h1]
    show (Except.bind (scoreOf ⟨x.data.c, s, true⟩) _) = _
    unfold scoreOf
    rw [if_pos rfl, hr.1]
    rfl

/-- The recuperator is used on a whole program: every address has a candidate that
is not ignored, the lowest address starts a function, and functions lie inside the
program. -/
structure Whole (fns : Fns) (addrs : List Int) (prog : List (List (RInst Scored))) : Prop where
  nodup : addrs.Nodup
  length : addrs.length = prog.length
  nonempty : addrs ≠ []
  low : ∀ a, addrs.head? = some a → (dictGet fns a).isSome
  fn : ∀ a ∈ addrs, ∀ st last, dictGet fns a = some (st, last) →
    last ∈ addrs ∧ ∀ b ∈ downRange last a, b ∈ addrs
  valid : ∀ v ∈ prog, ∃ x ∈ v, x.data.c.m.ignore = false
  stored : ∀ v ∈ prog, ∀ x ∈ v, Stored x.data

theorem bare_keys {addrs : List Int} {prog : List (List (RInst Scored))} (h : addrs.length = prog.length) :
    (bare addrs prog).map (·.1) = addrs := by
  unfold bare
  rw [List.map_fst_zip]
  simp [h]

theorem bare_get {addrs : List Int} {prog : List (List (RInst Scored))} (hn : addrs.Nodup)
    (hl : addrs.length = prog.length) {a : Int} {v : List (RInst Scored)} (h : (a, v) ∈ addrs.zip prog) :
    dictGet (bare addrs prog) a = some (v.map (·.data.c)) := by
  apply dictGet_of_mem
  · rw [bare_keys hl]; exact hn
  · unfold bare
    rw [List.zip_map_right]
    exact List.mem_map.2 ⟨(a, v), h, rfl⟩

theorem whole_valid {fns : Fns} {addrs : List Int} {prog : List (List (RInst Scored))}
    (h : Whole fns addrs prog) {a : Int} (ha : a ∈ addrs) :
    ∃ v, (a, v) ∈ addrs.zip prog ∧ HasValid (bare addrs prog) a := by
  obtain ⟨i, hi, rfl⟩ := List.mem_iff_getElem.1 ha
  have hi' : i < prog.length := h.length ▸ hi
  have hm : (addrs[i], prog[i]) ∈ addrs.zip prog := by
    rw [List.mem_iff_getElem]
    exact ⟨i, by simp [hi, hi'], by simp⟩
  refine ⟨prog[i], hm, _, bare_get h.nodup h.length hm, ?_⟩
  obtain ⟨x, hx, hxi⟩ := h.valid prog[i] (List.getElem_mem _)
  exact ⟨x.data.c, List.mem_map.2 ⟨x, hx, rfl⟩, hxi⟩

theorem scoreLoop_ok {orig : List (Int × MInst)} {fns : Fns} {addrs : List Int}
    {prog : List (List (RInst Scored))} (hw : Whole fns addrs prog) (hc : Covers orig (bare addrs prog))
    (hu : ∀ q ∈ orig, q.2.ignore = false → q.2.used.Nodup) (low high : Int) :
    ∀ (qs : List (Int × List (RInst Scored))) (first : Bool) (cur : Int),
      (∀ q ∈ qs, q ∈ addrs.zip prog) → cur ∈ addrs → (dictGet fns cur).isSome →
      ∃ r, scoreLoop (collectMeta {} (orig.map (·.2))) fns (bare addrs prog) (counters (bare addrs prog)) low high
          first cur qs = .ok r ∧
        List.Forall₂ (List.Forall₂ (ScoredTo orig (bare addrs prog))) (qs.map (·.2)) r := by
  intro qs
  induction qs with
  | nil => intro first cur _ _ _; exact ⟨[], rfl, List.Forall₂.nil⟩
  | cons q qs ih =>
    intro first cur hq hcur hfn
    have hqm := hq q (by simp)
    obtain ⟨ha, hv⟩ := List.of_mem_zip (a := q.1) (b := q.2) hqm
    have hcur' : (if (dictGet fns q.1).isSome then q.1 else cur) ∈ addrs := by
      split
      · exact ha
      · exact hcur
    have hfn' : (dictGet fns (if (dictGet fns q.1).isSome then q.1 else cur)).isSome := by
      split
      · assumption
      · exact hfn
    have hpl : PlaceOk fns (bare addrs prog)
        ⟨q.1, if (dictGet fns q.1).isSome then q.1 else cur, low, high, first⟩ (q.2.map (·.data.c)) := by
      refine ⟨bare_get hw.nodup hw.length hqm, (whole_valid hw hcur').choose_spec.2, hfn', ?_⟩
      intro st last hf
      obtain ⟨h1, h2⟩ := hw.fn q.1 ha st last hf
      refine ⟨(whole_valid hw h1).choose_spec.2, ?_⟩
      intro b hb
      obtain ⟨v, hv, _⟩ := whole_valid hw (h2 b hb)
      rw [bare_get hw.nodup hw.length hv]
      rfl
    obtain ⟨l, hl, hl2⟩ := mapM_ok (R := ScoredTo orig (bare addrs prog))
      (scoreOne (collectMeta {} (orig.map (·.2))) fns (bare addrs prog) (counters (bare addrs prog))
        ⟨q.1, if (dictGet fns q.1).isSome then q.1 else cur, low, high, first⟩) q.2
      (fun x hx => scoreOne_ok hc hu hpl x (List.mem_map.2 ⟨x, hx, rfl⟩) (hw.stored q.2 hv x hx))
    obtain ⟨r, hr, hr2⟩ := ih false (if (dictGet fns q.1).isSome then q.1 else cur)
      (fun p hp => hq p (by simp [hp])) hcur' hfn'
    refine ⟨l :: r, ?_, List.Forall₂.cons hl2 hr2⟩
    unfold scoreLoop
    show (Except.bind (q.2.mapM _) _) = _
    rw [hl]
    show (Except.bind (scoreLoop _ _ _ _ _ _ _ _ _) _) = _
    rw [hr]
    rfl

/-- Scoring a whole program that contains its originals. -/
theorem recuperate_ok {orig : List (Int × MInst)} {fns : Fns} {addrs : List Int}
    {prog : List (List (RInst Scored))} (hw : Whole fns addrs prog) (hc : Covers orig (bare addrs prog))
    (hu : ∀ q ∈ orig, q.2.ignore = false → q.2.used.Nodup) :
    ∃ r, recuperate (collectMeta {} (orig.map (·.2))) fns addrs prog = .ok r ∧
      List.Forall₂ (List.Forall₂ (ScoredTo orig (bare addrs prog))) prog r := by
  cases haddrs : addrs with
  | nil => exact absurd haddrs hw.nonempty
  | cons a as =>
    obtain ⟨z, hz⟩ : ∃ z, addrs.getLast? = some z := by
      rw [haddrs]; exact ⟨_, List.getLast?_eq_some_getLast (by simp)⟩
    obtain ⟨r, h1, h2⟩ := scoreLoop_ok hw hc hu a z (addrs.zip prog) true a (fun _ h => h)
      (by rw [haddrs]; simp) (hw.low a (by rw [haddrs]; rfl))
    refine ⟨r, ?_, ?_⟩
    · rw [← haddrs]
      unfold recuperate
      rw [hz]
      have : ∀ (b : List Int), b = a :: as → (match b, some z with
          | a :: _, some z => scoreLoop (collectMeta {} (orig.map (·.2))) fns (bare addrs prog)
              (counters (bare addrs prog)) a z true a (addrs.zip prog)
          | _, _ => .error .index) = Except.ok r := by
        rintro _ rfl
        exact h1
      exact this addrs haddrs
    · rw [List.map_snd_zip (by rw [hw.length])] at h2
      rw [← haddrs]
      exact h2

end Verif
