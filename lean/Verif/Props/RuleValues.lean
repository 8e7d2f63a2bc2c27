import Verif.Props.OldRecuperator

/-! # C91: the scores the deprecated rules give -/

namespace Verif
namespace Spec

/-- The candidates that are not excluded. -/
def live (l : List RuleInst) : List RuleInst := l.filter fun i => !i.c.m.ignore

/-- The candidates at an address of the program; none when there is no such address. -/
def at_ (prog : RuleProg) (a : Int) : List RuleInst := ((dictGet prog a).getD []).map (·.a)

/-- What a neighbouring address contributes to a condition: a share of the candidates
there with that condition. -/
def shareOf (l : List RuleInst) (cond : Int) : Rat :=
  if (live l).length = 0 then 0
  else 7 / 10 * (ruleEps + ((live l).countP fun i => decide (i.c.m.cond = cond) : Nat)) / (live l).length

/-- What setting the flags takes from a candidate that is always executed. -/
def flagShare (l : List RuleInst) : Rat :=
  6 / 10 * ((live l).countP (fun i => i.flags) : Nat) / (live l).length

open Classical in
/-- The score of the control-flow rule. -/
noncomputable def cfgScore (prog : RuleProg) (position : Int) (i : RuleInst) : Rat :=
  if i.c.m.ignore then 0
  else ruleEps
    - (if i.c.m.cond = 14 ∧ (live (at_ prog (position - 4))).length ≠ 0 then flagShare (at_ prog (position - 4)) else 0)
    + shareOf (at_ prog (position - 4)) i.c.m.cond + shareOf (at_ prog (position + 4)) i.c.m.cond
    + (if i.c.isBranch = true ∧ ∃ j l, i.c.jump = some j ∧ (j, l) ∈ prog then 1 / 1000 else 0)

/-- Every candidate that is not excluded has one of the sixteen conditions. -/
def Conditions (l : List RuleInst) : Prop := ∀ i ∈ live l, 0 ≤ i.c.m.cond ∧ i.c.m.cond < 16

end Spec

open Spec

/-- The counts of an address. -/
structure Counted (l : List RuleInst) (s : CfgCounts) : Prop where
  t : s.t = (live l).length
  flags : s.flagMod = (live l).countP fun i => i.flags
  len : s.conds.length = 16
  conds : ∀ j : Nat, j < 16 → s.conds[j]? = some (ruleEps + ((live l).countP fun i => decide (i.c.m.cond = (j : Int)) : Nat))

theorem pyGet_of {α : Type} {l : List α} {i : Int} {n : Nat} {x : α} (hi : i = n) (h : l[n]? = some x) :
    pyGet l i = .ok x := by
  subst hi
  unfold pyGet
  rw [if_neg (by omega), if_neg (by omega), Int.toNat_natCast, h]

theorem pySet_of {α : Type} {l : List α} {i : Int} {n : Nat} (hi : i = n) (h : n < l.length) (x : α) :
    pySet l i x = .ok (l.set n x) := by
  subst hi
  unfold pySet
  rw [if_neg (by omega), if_neg (by omega), Int.toNat_natCast]

theorem cfgCount_counted (l : List RuleInst) (h : Conditions l) : ∃ s, cfgCount l = .ok s ∧ Counted l s := by
  unfold cfgCount
  induction l using List.reverseRecOn with
  | nil =>
    refine ⟨{}, rfl, rfl, rfl, by simp, ?_⟩
    intro j hj
    rw [show (({} : CfgCounts).conds) = List.replicate 16 ruleEps from rfl, List.getElem?_replicate, if_pos hj]
    simp [live]
  | append_singleton l x ih =>
    obtain ⟨s, h1, h2⟩ := ih (fun i hi => h i (by unfold live at hi ⊢; rw [List.filter_append]; exact List.mem_append_left _ hi))
    rw [List.foldlM_append, h1]
    simp only [List.foldlM_cons, List.foldlM_nil, bind, Except.bind]
    by_cases hx : x.c.m.ignore = true
    · have e : live (l ++ [x]) = live l := by unfold live; rw [List.filter_append]; simp [hx]
      rw [if_pos hx]
      refine ⟨s, rfl, ?_⟩
      exact ⟨by rw [e]; exact h2.t, by rw [e]; exact h2.flags, h2.len, by rw [e]; exact h2.conds⟩
    · have e : live (l ++ [x]) = live l ++ [x] := by unfold live; rw [List.filter_append]; simp [hx]
      obtain ⟨k1, k2⟩ := h x (by rw [e]; simp)
      obtain ⟨n, hn⟩ : ∃ n : Nat, x.c.m.cond = n := ⟨x.c.m.cond.toNat, by omega⟩
      have hn16 : n < 16 := by omega
      rw [if_neg hx, pyGet_of hn (h2.conds n hn16)]
      simp only
      rw [pySet_of hn (by rw [h2.len]; exact hn16)]
      refine ⟨_, rfl, ?_, ?_, ?_, ?_⟩
      · rw [e, h2.t]; simp
      · rw [e, h2.flags, List.countP_append]; simp
      · simp [h2.len]
      · intro j hj
        rw [e, List.getElem?_set, List.countP_append]
        by_cases hjn : n = j
        · subst hjn
          rw [if_pos rfl, if_pos (by rw [h2.len]; exact hj)]
          simp [hn]
          ring
        · rw [if_neg hjn, h2.conds j hj]
          have : ¬ x.c.m.cond = j := by rw [hn]; simpa using hjn
          simp [this]

theorem cfgCondScores_get {p q : List RuleInst} {s t : CfgCounts} (hs : Counted p s) (ht : Counted q t) (j : Nat)
    (hj : j < 16) :
    (cfgCondScores s t)[j]? = some (ruleEps
      - (if j = 14 ∧ (live p).length ≠ 0 then flagShare p else 0) + shareOf p j + shareOf q j) := by
  have hp : ∀ {l : List RuleInst} {u : CfgCounts} (r : List Rat) (v : Rat), Counted l u → r[j]? = some v →
      (if u.t > 0 then List.zipWith (fun s n : Rat => s + 7 / 10 * n / u.t) r u.conds else r)[j]? =
        some (v + shareOf l j) := by
    intro l u r v hu hr
    unfold shareOf
    by_cases hl : (live l).length = 0
    · rw [if_neg (by rw [hu.t]; omega), if_pos hl, hr, add_zero]
    · rw [if_pos (by rw [hu.t]; omega), if_neg hl, List.getElem?_zipWith, hr, hu.conds j hj, hu.t]
  unfold cfgCondScores
  simp only
  apply hp _ _ ht
  by_cases hl : (live p).length = 0
  · rw [if_neg (by rw [hs.t]; omega)]
    unfold shareOf
    rw [if_pos hl, if_neg (by simp [hl])]
    rw [List.getElem?_replicate, if_pos hj]
    simp
  · rw [if_pos (by rw [hs.t]; omega)]
    have := hp (l := p) (u := s) ((List.replicate 16 ruleEps).set 14 (ruleEps - 6 / 10 * s.flagMod / s.t))
      (ruleEps - (if j = 14 ∧ (live p).length ≠ 0 then flagShare p else 0)) hs (by
        rw [List.getElem?_set]
        by_cases h14 : 14 = j
        · subst h14
          rw [if_pos rfl, if_pos (by simp), if_pos ⟨rfl, hl⟩, hs.flags, hs.t]
          rfl
        · rw [if_neg h14, if_neg (fun e => h14 e.1.symm)]
          rw [List.getElem?_replicate, if_pos hj]
          simp)
    rw [if_pos (by rw [hs.t]; omega)] at this
    exact this

theorem answers_get (prog : RuleProg) (a : Int) : (dictGet (answers prog) a).getD [] = at_ prog a := by
  unfold answers at_
  rw [dictGet_map_snd]
  cases dictGet prog a <;> rfl

theorem updateScores_all (k : String) : ∀ (l : List RuleCand) (f : RuleInst → Rat),
    ∃ l' u, updateScores k (l.map fun x => f x.a) l = .ok (l', u) ∧
      l' = l.map fun x => (updateCandidate k x (f x.a)).1 := by
  intro l f
  induction l with
  | nil => exact ⟨[], false, rfl, rfl⟩
  | cons x l ih =>
    obtain ⟨l', u, h1, h2⟩ := ih
    refine ⟨(updateCandidate k x (f x.a)).1 :: l', (updateCandidate k x (f x.a)).2 || u,
      by rw [List.map_cons, updateScores, h1]; rfl, ?_⟩
    simp only [List.map_cons, h2]

theorem mapM_answers (g : RuleInst → Py Rat) (f : RuleCand → Rat) :
    ∀ l : List RuleCand, (∀ x ∈ l, g x.a = .ok (f x)) → (l.map (·.a)).mapM g = .ok (l.map f)
  | [], _ => rfl
  | x :: l, h => by
    rw [List.map_cons, List.mapM_cons, mapM_answers g f l (fun y hy => h y (List.mem_cons_of_mem _ hy)),
      h x List.mem_cons_self]
    rfl

/-- **C91 for the control-flow rule**: on an address of a program whose neighbours have
conditions from 0 to 15 it does not fail, and gives every candidate this score: nothing
if it is excluded; otherwise the sum of its shares, less the part of the previous
candidates that set the flags if it is always executed, more for a branch to an
address of the program. -/
theorem C91_control_flow (pass position : Int) (prog : RuleProg) (l : List RuleCand)
    (hl : dictGet prog position = some l) (h0 : Conditions (l.map (·.a)))
    (h1 : Conditions (at_ prog (position - 4))) (h2 : Conditions (at_ prog (position + 4))) :
    ∃ prog' u, cfgRecover pass prog position = .ok (prog', u) ∧
      ∀ i x, l[i]? = some x → scoreAt ("CFG" ++ toString pass) prog' position i = some (cfgScore prog position x.a) := by
  obtain ⟨s, s1, s2⟩ := cfgCount_counted _ h1
  obtain ⟨t, t1, t2⟩ := cfgCount_counted _ h2
  have hsc : cfgRuleScores (answers prog) position = .ok (l.map fun x => cfgScore prog position x.a) := by
    unfold cfgRuleScores
    rw [answers_get, answers_get, s1, t1]
    simp only [bind, Except.bind]
    have : dictGet (answers prog) position = some (l.map (·.a)) := by
      unfold answers; rw [dictGet_map_snd, hl]; rfl
    rw [this]
    simp only
    apply mapM_answers
    intro x hxl
    unfold cfgScore
    by_cases hi : x.a.c.m.ignore = true
    · rw [if_pos hi, if_pos hi]
    · rw [if_neg hi, if_neg hi]
      obtain ⟨k1, k2⟩ := h0 x.a (by
        unfold live
        rw [List.mem_filter]
        exact ⟨List.mem_map.2 ⟨x, hxl, rfl⟩, by simpa using hi⟩)
      obtain ⟨n, hn⟩ : ∃ n : Nat, x.a.c.m.cond = n := ⟨x.a.c.m.cond.toNat, by omega⟩
      rw [pyGet_of hn (cfgCondScores_get s2 t2 n (by omega))]
      simp only
      have hb : (x.a.c.isBranch = true ∧ (x.a.c.jump.any fun j => (dictGet (answers prog) j).isSome) = true) ↔
          (x.a.c.isBranch = true ∧ ∃ j l, x.a.c.jump = some j ∧ (j, l) ∈ prog) := by
        apply and_congr_right
        intro _
        cases hj : x.a.c.jump with
        | none => simp
        | some j =>
          simp only [Option.any_some, dictGet_isSome, Option.some.injEq]
          unfold answers
          rw [List.map_map]
          constructor
          · intro hm
            obtain ⟨q, hq, rfl⟩ := List.mem_map.1 hm
            exact ⟨_, q.2, rfl, hq⟩
          · rintro ⟨j', l', rfl, hm⟩
            exact List.mem_map.2 ⟨_, hm, rfl⟩
      have h14 : (if (n : Int) = 14 ∧ (live (at_ prog (position - 4))).length ≠ 0 then
            flagShare (at_ prog (position - 4)) else 0) =
          (if n = 14 ∧ (live (at_ prog (position - 4))).length ≠ 0 then
            flagShare (at_ prog (position - 4)) else 0) := by
        by_cases h : n = 14
        · subst h; simp
        · rw [if_neg (fun e => h (by omega)), if_neg (fun e => h e.1)]
      rw [hn, h14]
      by_cases hc : (x.a.c.isBranch = true ∧ ∃ j l, x.a.c.jump = some j ∧ (j, l) ∈ prog)
      · rw [if_pos (hb.2 hc), if_pos hc]; rfl
      · rw [if_neg (fun e => hc (hb.1 e)), if_neg hc, add_zero]; rfl
  obtain ⟨l', u, k1, k2⟩ := updateScores_all ("CFG" ++ toString pass) l (cfgScore prog position)
  refine ⟨dictSet prog position l', u, ?_, ?_⟩
  · unfold cfgRecover
    simp only [hsc, bind, Except.bind, hl, k1]
    rfl
  · intro i x hx
    rw [scoreAt_dictSet, if_pos rfl, k2]
    unfold sc
    rw [List.getElem?_map, hx]
    simp only [Option.map_some, Option.bind_some]
    rw [updateCandidate_get, if_pos rfl]


namespace Spec

/-- The first candidates of the addresses with exactly one candidate that is not
excluded, if it is the first. -/
def settled (prog : RuleProg) : List RuleInst :=
  prog.flatMap fun q =>
    if (live (q.2.map (·.a))).length = 1 then live ((q.2.map (·.a)).take 1) else []

/-- The candidates of the other addresses that are not excluded. -/
def open_ (prog : RuleProg) : List RuleInst :=
  prog.flatMap fun q => if (live (q.2.map (·.a))).length = 1 then [] else live (q.2.map (·.a))

/-- How often a value occurs in the field of instructions. -/
def timesIn {κ : Type} [DecidableEq κ] (field : RuleInst → List κ) (l : List RuleInst) (v : κ) : Nat :=
  (l.flatMap field).count v

/-- The score of a value: how many of the originals having it are not settled yet, for
each of the candidates having it; zero when it is not counted or no candidate has it. -/
def valueScore {κ : Type} [DecidableEq κ] (field : RuleInst → List κ) (counts : List (κ × Nat)) (prog : RuleProg)
    (v : κ) : Rat :=
  match dictGet counts v with
  | none => 0
  | some n =>
      if timesIn field (open_ prog) v = 0 then 0
      else ((n : Rat) - timesIn field (settled prog) v) / timesIn field (open_ prog) v

/-- The score of a candidate: the mean over the values of its field, and the extra. -/
def fieldScore {κ : Type} [DecidableEq κ] (field : RuleInst → List κ) (extra : RuleInst → Rat)
    (counts : List (κ × Nat)) (prog : RuleProg) (i : RuleInst) : Rat :=
  extra i + ((field i).map fun v => valueScore field counts prog v / (field i).length).sum

/-- The values a rule has kept are those for a program. -/
def Kept {κ : Type} [DecidableEq κ] (field : RuleInst → List κ) (counts : List (κ × Nat)) (prog : RuleProg)
    (cache : List (κ × Rat)) : Prop :=
  ∀ v, dictGet cache v = if (dictGet counts v).isSome then some (valueScore field counts prog v) else none

end Spec

section Counting

variable {κ : Type} [DecidableEq κ]

theorem ruleDecKey_all : ∀ (vs : List κ) (d : List (κ × Int)), (∀ v ∈ vs, v ∈ d.map (·.1)) →
    ∃ d', vs.foldlM ruleDecKey d = .ok d' ∧ d'.map (·.1) = d.map (·.1) ∧
      ∀ v, dictGet d' v = (dictGet d v).map (· - (vs.count v : Int))
  | [], d, _ => ⟨d, rfl, rfl, fun v => by cases dictGet d v <;> simp⟩
  | w :: vs, d, h => by
    have hw := h w List.mem_cons_self
    obtain ⟨n, hn⟩ := Option.isSome_iff_exists.1 ((dictGet_isSome d w).2 hw)
    have hk : (dictSet d w (n - 1)).map (·.1) = d.map (·.1) := by rw [keys_dictSet, if_pos hw]
    obtain ⟨d', h1, h2, h3⟩ := ruleDecKey_all vs (dictSet d w (n - 1))
      (fun v hv => by rw [hk]; exact h v (List.mem_cons_of_mem _ hv))
    refine ⟨d', ?_, by rw [h2, hk], ?_⟩
    · rw [List.foldlM_cons, ruleDecKey, hn]; exact h1
    · intro v
      rw [h3, dictGet_dictSet, List.count_cons]
      by_cases hv : w = v
      · subst hv
        rw [if_pos rfl, hn]
        simp; ring
      · rw [if_neg hv]
        simp [hv]

theorem ruleDecKey_missing : ∀ (vs : List κ) (d : List (κ × Int)), (∃ v ∈ vs, v ∉ d.map (·.1)) →
    vs.foldlM ruleDecKey d = .error .key
  | [], _, h => by obtain ⟨v, hv, _⟩ := h; simp at hv
  | w :: vs, d, h => by
    rw [List.foldlM_cons]
    unfold ruleDecKey
    cases hn : dictGet d w with
    | none => rfl
    | some n =>
      have hw : w ∈ d.map (·.1) := List.mem_map.2 ⟨_, dictGet_mem hn, rfl⟩
      obtain ⟨v, hv, hv'⟩ := h
      have hk : (dictSet d w (n - 1)).map (·.1) = d.map (·.1) := by rw [keys_dictSet, if_pos hw]
      rcases List.mem_cons.1 hv with rfl | hv
      · exact absurd hw hv'
      · exact ruleDecKey_missing vs (dictSet d w (n - 1)) ⟨v, hv, by rw [hk]; exact hv'⟩

/-- The first loop of the computation. -/
def remStep (r : CountRule κ) (s : List (κ × Int) × List (κ × Nat)) (q : Int × List RuleInst) :
    Py (List (κ × Int) × List (κ × Nat)) :=
  if candidateCount q.2 = 1 then
    match q.2 with
    | [] => .error .index
    | i :: _ =>
        if i.c.m.ignore then .ok s
        else do
          let d ← (r.field i).foldlM ruleDecKey s.1
          pure (d, s.2)
  else .ok (s.1, incKeys s.2 ((q.2.filter fun i => !i.c.m.ignore).flatMap r.field))

/-- What the first loop has counted. -/
structure RemInv (r : CountRule κ) (counts : List (κ × Nat)) (prog : RuleProg)
    (s : List (κ × Int) × List (κ × Nat)) : Prop where
  keys : s.1.map (·.1) = counts.map (·.1)
  rem : ∀ v, dictGet s.1 v = (dictGet counts v).map fun n : Nat => (n : Int) - timesIn r.field (settled prog) v
  cands : ∀ v, dictGet s.2 v = plus none (timesIn r.field (open_ prog) v)

theorem candidateCount_live (l : List RuleInst) : candidateCount l = (live l).length := by
  unfold candidateCount live
  rw [List.countP_eq_length_filter]

theorem remLoop (r : CountRule κ) (counts : List (κ × Nat)) (prog : RuleProg)
    (h : ∀ i ∈ settled prog, ∀ v ∈ r.field i, v ∈ counts.map (·.1)) :
    ∃ s, (answers prog).foldlM (remStep r) (counts.map (fun p => (p.1, (p.2 : Int))), []) = .ok s ∧
      RemInv r counts prog s := by
  induction prog using List.reverseRecOn with
  | nil =>
    refine ⟨_, rfl, ?_, ?_, ?_⟩
    · simp
    · intro v
      rw [dictGet_map_snd]
      cases dictGet counts v <;> simp [settled, timesIn]
    · intro v; simp [open_, timesIn, plus, dictGet]
  | append_singleton prog q ih =>
    have hs : settled (prog ++ [q]) = settled prog ++
        (if (live (q.2.map (·.a))).length = 1 then live ((q.2.map (·.a)).take 1) else []) := by
      unfold settled; rw [List.flatMap_append]; simp
    have ho : open_ (prog ++ [q]) = open_ prog ++
        (if (live (q.2.map (·.a))).length = 1 then [] else live (q.2.map (·.a))) := by
      unfold open_; rw [List.flatMap_append]; simp
    obtain ⟨s, h1, h2⟩ := ih (fun i hi => h i (by rw [hs]; exact List.mem_append_left _ hi))
    have ha : answers (prog ++ [q]) = answers prog ++ [(q.1, q.2.map (·.a))] := by
      unfold answers; simp
    rw [ha, List.foldlM_append, h1]
    simp only [List.foldlM_cons, List.foldlM_nil, bind, Except.bind]
    unfold remStep
    rw [candidateCount_live]
    simp only
    have hocc : ∀ (a b : List RuleInst) (v : κ), timesIn r.field (a ++ b) v =
        timesIn r.field a v + timesIn r.field b v := by
      intro a b v; unfold timesIn; rw [List.flatMap_append, List.count_append]
    by_cases hc : (live (q.2.map (·.a))).length = 1
    · rw [if_pos hc] at hs ho ⊢
      rw [List.append_nil] at ho
      cases hq : q.2.map (·.a) with
      | nil => rw [hq] at hc; simp [live] at hc
      | cons i rest =>
        simp only
        rw [hq] at hs
        by_cases hi : i.c.m.ignore = true
        · have : live ((i :: rest).take 1) = [] := by simp [live, hi]
          rw [this, List.append_nil] at hs
          rw [if_pos hi]
          exact ⟨s, rfl, ⟨h2.keys, by rw [hs]; exact h2.rem, by rw [ho]; exact h2.cands⟩⟩
        · have : live ((i :: rest).take 1) = [i] := by simp [live, hi]
          rw [this] at hs
          rw [if_neg hi]
          obtain ⟨d', e1, e2, e3⟩ := ruleDecKey_all (r.field i) s.1 (fun v hv => by
            rw [h2.keys]
            exact h i (by rw [hs]; simp) v hv)
          rw [e1]
          refine ⟨_, rfl, by rw [e2]; exact h2.keys, ?_, by rw [ho]; exact h2.cands⟩
          intro v
          rw [e3, h2.rem, hs, hocc]
          cases dictGet counts v with
          | none => rfl
          | some n =>
            simp only [Option.map_some]
            unfold timesIn
            simp; ring
    · rw [if_neg hc] at hs ho ⊢
      rw [List.append_nil] at hs
      refine ⟨_, rfl, h2.keys, by rw [hs]; exact h2.rem, ?_⟩
      intro v
      rw [dictGet_incKeys, h2.cands, plus_plus, ho, hocc]
      rfl

theorem remFinish : ∀ (rem : List (κ × Int)) (cands : List (κ × Nat)) (acc : List (κ × Rat)),
    (rem.map (·.1)).Nodup → (∀ v, dictGet cands v ≠ some 0) →
    ∃ out, rem.foldlM (fun (scores : List (κ × Rat)) (p : κ × Int) =>
      match dictGet cands p.1 with
      | some n => do
          let q ← pyDiv p.2 n
          pure (dictSet scores p.1 q)
      | none => pure (dictSet scores p.1 0)) acc = .ok out ∧
      ∀ v, dictGet out v = match dictGet rem v with
        | some n => some (match dictGet cands v with | some m => (n : Rat) / m | none => 0)
        | none => dictGet acc v
  | [], cands, acc, _, _ => ⟨acc, rfl, fun v => rfl⟩
  | (w, n) :: rem, cands, acc, hn, hz => by
    rw [List.map_cons, List.nodup_cons] at hn
    rw [List.foldlM_cons]
    have hstep : ∃ x : Rat, (match dictGet cands w with
      | some m => do
          let q ← pyDiv (n : Rat) m
          pure (dictSet acc w q)
      | none => pure (dictSet acc w 0)) = Except.ok (ε := Err) (dictSet acc w x) ∧
        x = match dictGet cands w with | some m => (n : Rat) / m | none => 0 := by
      cases hc : dictGet cands w with
      | none => exact ⟨0, rfl, rfl⟩
      | some m =>
        have : m ≠ 0 := fun e => hz w (by rw [hc, e])
        refine ⟨(n : Rat) / m, ?_, rfl⟩
        simp only
        unfold pyDiv
        rw [if_neg (by exact_mod_cast this)]
        rfl
    obtain ⟨x, hx, hx'⟩ := hstep
    obtain ⟨out, h1, h2⟩ := remFinish rem cands (dictSet acc w x) hn.2 hz
    refine ⟨out, ?_, ?_⟩
    · simp only
      rw [hx]
      exact h1
    · intro v
      rw [h2, dictGet_cons]
      by_cases hv : w = v
      · subst hv
        have : dictGet rem w = none := by rw [dictGet_eq_none]; exact hn.1
        rw [this, if_pos rfl]
        simp only
        rw [dictGet_dictSet, if_pos rfl, hx']
      · rw [if_neg hv, dictGet_dictSet, if_neg hv]

theorem remainingScores_kept (r : CountRule κ) (counts : List (κ × Nat)) (hn : (counts.map (·.1)).Nodup)
    (prog : RuleProg) (h : ∀ i ∈ settled prog, ∀ v ∈ r.field i, v ∈ counts.map (·.1)) :
    ∃ cache, remainingScores r counts (answers prog) = .ok cache ∧ Kept r.field counts prog cache := by
  obtain ⟨s, h1, h2⟩ := remLoop r counts prog h
  obtain ⟨out, h3, h4⟩ := remFinish s.1 s.2 [] (by rw [h2.keys]; exact hn) (by
    intro v
    rw [h2.cands]
    unfold plus
    split
    · simp
    · simpa using by assumption)
  refine ⟨out, ?_, ?_⟩
  · have e : remainingScores r counts (answers prog) = (do
        let s ← (answers prog).foldlM (remStep r) (counts.map (fun p => (p.1, (p.2 : Int))), [])
        s.1.foldlM (fun (scores : List (κ × Rat)) (p : κ × Int) =>
          match dictGet s.2 p.1 with
          | some n => do
              let q ← pyDiv p.2 n
              pure (dictSet scores p.1 q)
          | none => pure (dictSet scores p.1 0)) []) := rfl
    rw [e, h1]
    exact h3
  · intro v
    rw [h4, h2.rem, h2.cands]
    unfold valueScore
    cases dictGet counts v with
    | none => rfl
    | some n =>
      simp only [Option.map_some, Option.isSome_some, if_true]
      unfold plus
      by_cases hz : timesIn r.field (open_ prog) v = 0
      · rw [if_pos hz, if_pos hz]
      · rw [if_neg hz, if_neg hz]
        simp

theorem countScore_of {r : CountRule κ} {counts : List (κ × Nat)} {prog : RuleProg} {cache : List (κ × Rat)}
    (h : Kept r.field counts prog cache) (i : RuleInst) :
    countScore r cache i = fieldScore r.field r.extra counts prog i := by
  unfold countScore fieldScore
  have : ∀ (vs : List κ) (n : Rat) (s : Rat), vs.foldl (fun s v => s + match dictGet cache v with
      | some x => x / n
      | none => 0) s = s + (vs.map fun v => valueScore r.field counts prog v / n).sum := by
    intro vs n
    induction vs with
    | nil => intro s; simp
    | cons w vs ih =>
      intro s
      rw [List.foldl_cons, ih, List.map_cons, List.sum_cons, h w]
      unfold valueScore
      cases dictGet counts w with
      | none => simp
      | some m => simp only [Option.isSome_some, if_true]; ring
  exact this _ _ _

theorem countUpdate_get (r : CountRule κ) (k : String) (cache : List (κ × Rat)) : ∀ (l : List RuleCand) (i : Nat)
    (x : RuleCand), l[i]? = some x →
    sc k (countUpdate r k cache l).1 i = if x.a.c.m.ignore then dictGet x.scores k else some (countScore r cache x.a)
  | [], i, x, h => by simp at h
  | y :: l, 0, x, h => by
    cases h
    rw [countUpdate]
    simp only
    split
    · rfl
    · rw [sc_zero, updateCandidate_get, if_pos rfl]
  | y :: l, i + 1, x, h => by
    have := countUpdate_get r k cache l i x (by simpa using h)
    rw [countUpdate]
    simp only
    split <;> exact this

/-- **C91 for the counting rules**: `prog₀` is the program when the rule was first asked
since it was made.  If every value of a settled candidate is counted, the rule does not
fail, keeps the values for `prog₀` and gives every candidate that is not excluded the
mean score of its values; excluded candidates keep the score they have. -/
theorem C91_counting (r : CountRule κ) (counts : List (κ × Nat)) (hn : (counts.map (·.1)).Nodup)
    (pass position : Int) (cache : List (κ × Rat)) (prog prog₀ : RuleProg) (l : List RuleCand)
    (hl : dictGet prog position = some l)
    (hs : ∀ i ∈ settled prog₀, ∀ v ∈ r.field i, v ∈ counts.map (·.1))
    (hc : if cache = [] then prog₀ = prog else Kept r.field counts prog₀ cache) :
    ∃ cache' prog' u, countRecover r counts pass cache prog position = .ok (cache', prog', u) ∧
      Kept r.field counts prog₀ cache' ∧
      ∀ i x, l[i]? = some x → scoreAt (r.name ++ toString pass) prog' position i =
        if x.a.c.m.ignore then dictGet x.scores (r.name ++ toString pass)
        else some (fieldScore r.field r.extra counts prog₀ x.a) := by
  obtain ⟨cache', k1, k2⟩ : ∃ cache', countCache r counts cache prog = .ok cache' ∧
      Kept r.field counts prog₀ cache' := by
    unfold countCache
    split at hc
    · next e =>
      subst e hc
      rw [if_pos (by simp)]
      exact remainingScores_kept r counts hn prog₀ hs
    · next e =>
      rw [if_neg (by simpa using e)]
      exact ⟨cache, rfl, hc⟩
  refine ⟨cache', dictSet prog position (countUpdate r (r.name ++ toString pass) cache' l).1,
    (countUpdate r (r.name ++ toString pass) cache' l).2, ?_, k2, ?_⟩
  · unfold countRecover
    simp only [k1, bind, Except.bind, hl]
  · intro i x hx
    rw [scoreAt_dictSet, if_pos rfl, countUpdate_get r _ _ _ _ _ hx, countScore_of k2]

theorem remLoop_missing (r : CountRule κ) (counts : List (κ × Nat)) : ∀ (prog : RuleProg)
    (s : List (κ × Int) × List (κ × Nat)), s.1.map (·.1) = counts.map (·.1) →
    (∃ i ∈ settled prog, ∃ v ∈ r.field i, v ∉ counts.map (·.1)) →
    (answers prog).foldlM (remStep r) s = .error .key
  | [], _, _, h => by obtain ⟨i, hi, _⟩ := h; simp [settled] at hi
  | q :: prog, s, hk, h => by
    have hs : settled (q :: prog) =
        (if (live (q.2.map (·.a))).length = 1 then live ((q.2.map (·.a)).take 1) else []) ++ settled prog := rfl
    have ha : answers (q :: prog) = (q.1, q.2.map (·.a)) :: answers prog := rfl
    rw [ha, List.foldlM_cons]
    obtain ⟨j, hj, v, hv, hv'⟩ := h
    rw [hs] at hj
    unfold remStep
    rw [candidateCount_live]
    simp only
    by_cases hc : (live (q.2.map (·.a))).length = 1
    · rw [if_pos hc] at hj ⊢
      cases hq : q.2.map (·.a) with
      | nil => rw [hq] at hc; simp [live] at hc
      | cons i rest =>
        simp only
        rw [hq] at hj
        by_cases hi : i.c.m.ignore = true
        · have : live ((i :: rest).take 1) = [] := by simp [live, hi]
          rw [this, List.nil_append] at hj
          rw [if_pos hi]
          exact remLoop_missing r counts prog s hk ⟨j, hj, v, hv, hv'⟩
        · have : live ((i :: rest).take 1) = [i] := by simp [live, hi]
          rw [this] at hj
          rw [if_neg hi]
          by_cases hm : ∀ w ∈ r.field i, w ∈ s.1.map (·.1)
          · obtain ⟨d', e1, e2, e3⟩ := ruleDecKey_all (r.field i) s.1 hm
            rw [e1]
            refine remLoop_missing r counts prog (d', s.2) (by rw [e2]; exact hk) ?_
            rcases List.mem_cons.1 hj with rfl | hj
            · exact absurd (hk ▸ hm v hv) hv'
            · exact ⟨j, hj, v, hv, hv'⟩
          · simp only [not_forall] at hm
            obtain ⟨w, hw, hw'⟩ := hm
            rw [ruleDecKey_missing (r.field i) s.1 ⟨w, hw, hw'⟩]
            rfl
    · rw [if_neg hc] at hj ⊢
      exact remLoop_missing r counts prog _ hk ⟨j, hj, v, hv, hv'⟩

/-- **C91 (KeyError)**: the first time a counting rule is asked, it fails if a settled
candidate has a value that is not counted. -/
theorem C91_counting_missing (r : CountRule κ) (counts : List (κ × Nat)) (pass position : Int) (prog : RuleProg)
    (hs : ∃ i ∈ settled prog, ∃ v ∈ r.field i, v ∉ counts.map (·.1)) :
    countRecover r counts pass [] prog position = .error .key := by
  have e : remainingScores r counts (answers prog) = (do
      let s ← (answers prog).foldlM (remStep r) (counts.map (fun p => (p.1, (p.2 : Int))), [])
      s.1.foldlM (fun (scores : List (κ × Rat)) (p : κ × Int) =>
        match dictGet s.2 p.1 with
        | some n => do
            let q ← pyDiv p.2 n
            pure (dictSet scores p.1 q)
        | none => pure (dictSet scores p.1 0)) []) := rfl
  unfold countRecover countCache
  rw [if_pos (by simp), e, remLoop_missing r counts prog _ (by simp) hs]
  rfl

end Counting

/-- The score the instruction counting rule gives to the first candidate at 8. -/
def countAtEight (l : List RuleCand) : Py (Option Rat) :=
  (countRecover instructionCount [(1, 2)] 1 [] [(4, l), (8, [ruleSample false [] [] [], ruleSample false [] [] []])] 8).map
    fun r => scoreAt "INST_COUNT1" r.2.1 8 0

/-- **A sole remaining candidate is not always settled**: of two originals one is found
at address 4, so the two candidates at 8 share the other; but if an excluded candidate
comes first at 4, they share both. -/
theorem C91_sole_not_settled :
    countAtEight [ruleSample false [] [] []] = .ok (some (1 / 2)) ∧
    countAtEight [ruleSample false [] [] [], ruleSample true [] [] []] = .ok (some (1 / 2)) ∧
    countAtEight [ruleSample true [] [] [], ruleSample false [] [] []] = .ok (some 1) := by decide +kernel

/-- The control-flow rule on an instruction that is always executed and follows one of
two that set the flags. -/
example : (cfgRecover 1 [(4, [condSample 0 true, condSample 14 false]), (8, [condSample 14 false, condSample 0 false])] 8).map
      (fun r => (scoreAt "CFG1" r.1 8 0, scoreAt "CFG1" r.1 8 1))
    = .ok (some (ruleEps - 6 / 10 / 2 + 7 / 10 * (ruleEps + 1) / 2), some (ruleEps + 7 / 10 * (ruleEps + 1) / 2)) := by
  decide +kernel

/-- The conditions of its candidates are among the sixteen. -/
example : Conditions ([condSample 0 true, condSample 14 false].map (·.a)) := by
  intro i hi
  have : i ∈ ([condSample 0 true, condSample 14 false].map (·.a)) := List.mem_of_mem_filter hi
  simp [condSample] at this
  rcases this with rfl | rfl <;> simp

/-- A value of a settled candidate that is not counted. -/
example : (countRecover instructionCount [(7, 2)] 1 [] [(4, [ruleSample false [] [] []])] 4).map (·.2.2) =
    .error .key := by decide +kernel

end Verif
