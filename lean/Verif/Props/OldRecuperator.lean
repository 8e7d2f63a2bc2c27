import Verif.Props.Rules

/-! # C89: what the deprecated recuperator excludes -/

namespace Verif
namespace Spec

/-- A candidate apart from being excluded. -/
def unmarked (x : RuleInst) : RuleInst := { x with c := { x.c with m := { x.c.m with ignore := false } } }

/-- Some score kept in the candidate is not positive. -/
def Rejected (x : RuleCand) : Prop := ∃ p ∈ x.scores, p.2 ≤ 0

/-- Candidates of an address before and after: they are the same ones in the same
order; excluded ones stay excluded; those excluded afterwards are those with a score
that is not positive. -/
structure Excluded (l l' : List RuleCand) : Prop where
  same : l'.map (fun x => unmarked x.a) = l.map fun x => unmarked x.a
  stays : ∀ (i : Nat) (x x' : RuleCand), l[i]? = some x → l'[i]? = some x' → x.a.c.m.ignore = true → x'.a.c.m.ignore = true
  exact : ∀ x' ∈ l', x'.a.c.m.ignore = true ↔ Rejected x'

end Spec

open Spec

/-- A rule has changed one address, and there only scores. -/
def OneAddress (position : Int) (prog prog' : RuleProg) : Prop :=
  ∃ l l', dictGet prog position = some l ∧ prog' = dictSet prog position l' ∧ l'.map (·.a) = l.map (·.a)

theorem cfgRecover_one {pass position : Int} {prog prog' : RuleProg} {u : Bool}
    (h : cfgRecover pass prog position = .ok (prog', u)) : OneAddress position prog prog' := by
  unfold cfgRecover at h
  simp only [bind, Except.bind] at h
  split at h
  · cases h
  split at h
  · cases h
  next insts hi =>
  split at h
  · cases h
  next r hr =>
  obtain ⟨l', w⟩ := r
  cases h
  exact ⟨insts, l', hi, rfl, (updateScores_upd _ _ _ _ _ hr).1.same⟩

theorem countRecover_one {κ : Type} [DecidableEq κ] {r : CountRule κ} {counts : List (κ × Nat)}
    {pass position : Int} {cache cache' : List (κ × Rat)} {prog prog' : RuleProg} {u : Bool}
    (h : countRecover r counts pass cache prog position = .ok (cache', prog', u)) :
    OneAddress position prog prog' := by
  unfold countRecover at h
  simp only [bind, Except.bind] at h
  split at h
  · cases h
  split at h
  · cases h
  next insts hi =>
  cases h
  exact ⟨insts, _, hi, rfl, (countUpdate_upd _ _ _ insts).1.same⟩

theorem distanceAll_ignored (coll : Collector) (prog : List (Int × List RuleInst)) (position : Int) :
    ∀ (is : List RuleInst) (w : Option Nat) (vss : List (List Rat)),
      distanceAll coll prog position w is = .ok vss → ∀ (i : Nat) (x : RuleInst), is[i]? = some x → x.c.m.ignore = true → vss[i]? = some [0] := by
  intro is
  induction is with
  | nil => intro w vss _ i x hx; simp at hx
  | cons j is ih =>
    intro w vss h i x hx hi
    simp only [distanceAll, bind, Except.bind] at h
    split at h
    · cases h
    next r hr =>
    split at h
    · cases h
    next hs =>
    cases h
    cases i with
    | zero =>
      cases hx
      unfold distanceScores at hr
      rw [if_pos hi] at hr
      cases hr
      rfl
    | succ i => exact ih _ _ hs i x hx hi

theorem distanceRecover_one {coll : Collector} {pass position : Int} {prog prog' : RuleProg} {u : Bool}
    (h : distanceRecover coll pass prog position = .ok (prog', u)) :
    OneAddress position prog prog' ∧ ∃ l', dictGet prog' position = some l' ∧
      ∀ x ∈ l', x.a.c.m.ignore = true → Rejected x := by
  unfold distanceRecover at h
  split at h
  · cases h
  next insts hi =>
  simp only [bind, Except.bind] at h
  split at h
  · cases h
  next vss hv =>
  cases h
  have hl : vss.length = insts.length := by
    simpa using distanceAll_length _ _ _ _ _ _ hv
  refine ⟨⟨insts, _, hi, rfl, (give_all _ insts vss hl).1⟩, _, by rw [dictGet_dictSet, if_pos rfl], ?_⟩
  intro x hx hig
  obtain ⟨y, hy, rfl⟩ := List.mem_map.1 hx
  obtain ⟨i, hi⟩ := List.mem_iff_getElem?.1 hy
  rw [List.getElem?_zipWith] at hi
  cases h1 : insts[i]? with
  | none => rw [h1] at hi; cases hi
  | some x =>
    cases h2 : vss[i]? with
    | none => rw [h1, h2] at hi; cases hi
    | some vs =>
      rw [h1, h2] at hi
      cases hi
      obtain ⟨g1, g2, _⟩ := giveScores_spec ("REG_DIST" ++ toString pass) x vs
      rw [g1] at hig
      have := distanceAll_ignored _ _ _ _ _ _ hv i x.a (by rw [List.getElem?_map, h1]; rfl) hig
      rw [h2] at this
      cases this
      refine ⟨("REG_DIST" ++ toString pass, 0), ?_, le_refl _⟩
      apply dictGet_mem
      rw [g2, if_pos rfl]
      rfl

theorem OneAddress.trans {position : Int} {a b c : RuleProg} (h : OneAddress position a b)
    (h' : OneAddress position b c) : OneAddress position a c := by
  obtain ⟨l, l1, h1, rfl, h2⟩ := h
  obtain ⟨l1', l2, g1, rfl, g2⟩ := h'
  rw [dictGet_dictSet, if_pos rfl] at g1
  cases g1
  exact ⟨l, l2, h1, dictSet_dictSet _ _ _ _, g2.trans h2⟩

theorem rulesAt_one {coll : Collector} {pass a : Int} {s s' : Caches × RuleProg}
    (h : rulesAt coll pass s a = .ok s') :
    OneAddress a s.2 s'.2 ∧ ∃ l', dictGet s'.2 a = some l' ∧ ∀ x ∈ l', x.a.c.m.ignore = true → Rejected x := by
  unfold rulesAt at h
  simp only [bind, Except.bind] at h
  split at h
  · cases h
  next r1 h1 =>
  split at h
  · cases h
  next r2 h2 =>
  split at h
  · cases h
  next r3 h3 =>
  split at h
  · cases h
  next r4 h4 =>
  split at h
  · cases h
  next r5 h5 =>
  cases h
  obtain ⟨k1, k2⟩ := distanceRecover_one h5
  exact ⟨(cfgRecover_one h1).trans ((countRecover_one h2).trans ((countRecover_one h3).trans
    ((countRecover_one h4).trans k1))), k2⟩

theorem markIgnored_spec (x : RuleCand) :
    unmarked (markIgnored x).a = unmarked x.a ∧ (markIgnored x).scores = x.scores ∧
    ((markIgnored x).a.c.m.ignore = true ↔ x.a.c.m.ignore = true ∨ Rejected x) := by
  unfold markIgnored Rejected
  by_cases h : (x.scores.any fun p => decide (p.2 ≤ 0)) = true
  · rw [if_pos h]
    refine ⟨rfl, rfl, ?_⟩
    simp only [true_iff]
    right
    simpa using h
  · rw [if_neg h]
    refine ⟨rfl, rfl, ?_⟩
    simp only [iff_self_or]
    intro h'
    exact absurd (by simpa using h') h

/-- What a turn does to the program. -/
structure Turned (a : Int) (prog prog' : RuleProg) : Prop where
  keys : prog'.map (·.1) = prog.map (·.1)
  others : ∀ b ≠ a, dictGet prog' b = dictGet prog b
  single : ∀ l, dictGet prog a = some l → l.length ≤ 1 → dictGet prog' a = some l
  several : ∀ l, dictGet prog a = some l → 1 < l.length → ∃ l', dictGet prog' a = some l' ∧ Excluded l l'

theorem keys_dictSet_of {β : Type} (d : List (Int × β)) (k : Int) (v w : β) (h : dictGet d k = some w) :
    (dictSet d k v).map (·.1) = d.map (·.1) := by
  rw [keys_dictSet, if_pos]
  exact List.mem_map.2 ⟨_, dictGet_mem h, rfl⟩

theorem oldTurn_turned {coll : Collector} {passes : Nat} {pass a : Int} {s s' : Caches × RuleProg}
    (hp : 1 < passes) (h : oldTurn coll passes pass s a = .ok s') : Turned a s.2 s'.2 := by
  unfold oldTurn at h
  split at h
  · cases h
  next l hl =>
  split at h
  · next hlen =>
    simp only [bind, Except.bind] at h
    split at h
    · cases h
    next s1 h1 =>
    obtain ⟨⟨l0, l1, k1, k2, k3⟩, l1', k4, k5⟩ := rulesAt_one h1
    rw [hl] at k1
    cases k1
    have e1 : l1' = l1 := by
      rw [k2, dictGet_dictSet, if_pos rfl] at k4
      cases k4
      rfl
    subst e1
    rw [k4] at h
    cases h
    rw [k2, dictSet_dictSet]
    refine ⟨keys_dictSet_of _ _ _ _ hl, ?_, ?_, ?_⟩
    · intro b hb
      rw [dictGet_dictSet, if_neg (Ne.symm hb)]
    · intro l' hl' h'
      rw [hl] at hl'
      cases hl'
      exact absurd hlen (by omega)
    · intro l' hl' _
      rw [hl] at hl'
      cases hl'
      refine ⟨_, by rw [dictGet_dictSet, if_pos rfl], ?_, ?_, ?_⟩
      · rw [List.map_map]
        have : ((fun x : RuleCand => unmarked x.a) ∘ markIgnored) = fun x => unmarked x.a := by
          funext x
          exact (markIgnored_spec x).1
        rw [this]
        have := congrArg (List.map unmarked) k3
        simpa [List.map_map, Function.comp_def] using this
      · intro i x x' hx hx' hi
        rw [List.getElem?_map] at hx'
        cases hy : l1'[i]? with
        | none => rw [hy] at hx'; cases hx'
        | some y =>
          rw [hy] at hx'
          cases hx'
          have := congrArg (fun z => z[i]?) k3
          simp only [List.getElem?_map, hy, hx, Option.map_some, Option.some.injEq] at this
          exact (markIgnored_spec y).2.2.2 (Or.inl (by rw [this]; exact hi))
      · intro x' hx'
        obtain ⟨y, hy, rfl⟩ := List.mem_map.1 hx'
        obtain ⟨m1, m2, m3⟩ := markIgnored_spec y
        rw [m3]
        have : Rejected (markIgnored y) ↔ Rejected y := by unfold Rejected; rw [m2]
        rw [this]
        exact ⟨fun e => e.elim (k5 y hy) id, Or.inr⟩
  · next hlen =>
    cases h
    refine ⟨rfl, fun _ _ => rfl, fun _ h _ => h, ?_⟩
    intro l' hl' h'
    rw [hl] at hl'
    cases hl'
    exact absurd h' hlen

/-- What turns at some addresses do. -/
structure Turneds (as : List Int) (prog prog' : RuleProg) : Prop where
  keys : prog'.map (·.1) = prog.map (·.1)
  others : ∀ b, b ∉ as → dictGet prog' b = dictGet prog b
  single : ∀ a l, dictGet prog a = some l → l.length ≤ 1 → dictGet prog' a = some l
  several : ∀ a l, a ∈ as → dictGet prog a = some l → 1 < l.length → ∃ l', dictGet prog' a = some l' ∧ Excluded l l'

theorem excluded_length {l l' : List RuleCand} (h : Excluded l l') : l'.length = l.length := by
  simpa using congrArg List.length h.same

theorem excluded_trans {l l' l'' : List RuleCand} (h : Excluded l l') (h' : Excluded l' l'') : Excluded l l'' := by
  refine ⟨h'.same.trans h.same, ?_, h'.exact⟩
  intro i x x'' hx hx'' hi
  have hlt := (List.getElem?_eq_some_iff.1 hx).1
  have : l'[i]? = some (l'[i]'(by rw [excluded_length h]; exact hlt)) := List.getElem?_eq_getElem _
  exact h'.stays i _ x'' this hx'' (h.stays i x _ hx this hi)

theorem oldTurns {coll : Collector} {passes : Nat} {pass : Int} (hp : 1 < passes) :
    ∀ (as : List Int) (s s' : Caches × RuleProg), as.Nodup → as.foldlM (oldTurn coll passes pass) s = .ok s' →
      Turneds as s.2 s'.2 := by
  intro as
  induction as with
  | nil =>
    intro s s' _ h
    cases h
    exact ⟨rfl, fun _ _ => rfl, fun _ _ h _ => h, by simp⟩
  | cons a as ih =>
    intro s s' hn h
    rw [List.nodup_cons] at hn
    simp only [List.foldlM_cons, bind, Except.bind] at h
    split at h
    · cases h
    next s1 h1 =>
    have t := oldTurn_turned hp h1
    have ts := ih s1 s' hn.2 h
    refine ⟨ts.keys.trans t.keys, ?_, ?_, ?_⟩
    · intro b hb
      rw [List.mem_cons, not_or] at hb
      rw [ts.others b hb.2, t.others b hb.1]
    · intro b l hl hle
      by_cases hb : b = a
      · subst hb
        exact ts.single _ _ (t.single l hl hle) hle
      · exact ts.single _ _ (by rw [t.others b hb]; exact hl) hle
    · intro b l hb hl hlt
      rcases List.mem_cons.1 hb with rfl | hb
      · obtain ⟨l', g1, g2⟩ := t.several l hl hlt
        exact ⟨l', by rw [ts.others _ hn.1]; exact g1, g2⟩
      · have hne : b ≠ a := fun e => hn.1 (e ▸ hb)
        exact ts.several b l hb (by rw [t.others b hne]; exact hl) hlt

/-- **C89.**  The deprecated recuperator with more than one pass keeps the addresses
and the candidates of the program; an address with at most one candidate is left
alone.  At every other address an excluded candidate stays excluded, and the
candidates excluded in the end are exactly those that have a score that is not
positive. -/
theorem C89_excluded (coll : Collector) (passes : Nat) (hp : 1 < passes) (prog prog' : RuleProg)
    (hk : (prog.map (·.1)).Nodup) (h : oldRecover coll passes prog = .ok prog') :
    prog'.map (·.1) = prog.map (·.1) ∧
    ∀ a l, dictGet prog a = some l →
      (l.length ≤ 1 → dictGet prog' a = some l) ∧
      (1 < l.length → ∃ l', dictGet prog' a = some l' ∧ Excluded l l') := by
  have key : ∀ (is : List Nat) (prog prog' : RuleProg), (prog.map (·.1)).Nodup →
      is.foldlM (fun (prog : RuleProg) (i : Nat) => do
        let s ← (prog.map (·.1)).foldlM (oldTurn coll passes (i : Int)) (({} : Caches), prog)
        pure s.2) prog = Except.ok (ε := Err) prog' →
      prog'.map (·.1) = prog.map (·.1) ∧ ∀ a l, dictGet prog a = some l →
      (l.length ≤ 1 → dictGet prog' a = some l) ∧
      (1 < l.length → (is = [] ∧ dictGet prog' a = some l) ∨ ∃ l', dictGet prog' a = some l' ∧ Excluded l l') := by
    intro is
    induction is with
    | nil =>
      intro prog prog' _ h
      cases h
      exact ⟨rfl, fun a l hl => ⟨fun _ => hl, fun _ => Or.inl ⟨rfl, hl⟩⟩⟩
    | cons i is ih =>
      intro prog prog' hk h
      simp only [List.foldlM_cons, bind, Except.bind] at h
      cases hs : (prog.map (·.1)).foldlM (oldTurn coll passes (i : Int)) (({} : Caches), prog) with
      | error e => rw [hs] at h; cases h
      | ok s =>
        rw [hs] at h
        simp only [pure, Except.pure] at h
        have ts := oldTurns hp _ _ _ hk hs
        obtain ⟨g1, g2⟩ := ih s.2 prog' (by rw [ts.keys]; exact hk) h
        refine ⟨g1.trans ts.keys, fun a l hl => ⟨fun hle => ?_, fun hlt => Or.inr ?_⟩⟩
        · exact (g2 a l (ts.single a l hl hle)).1 hle
        · obtain ⟨l', k1, k2⟩ := ts.several a l (List.mem_map.2 ⟨_, dictGet_mem hl, rfl⟩) hl hlt
          rcases (g2 a l' k1).2 (by rw [excluded_length k2]; exact hlt) with ⟨_, k3⟩ | ⟨l'', k3, k4⟩
          · exact ⟨l', k3, k2⟩
          · exact ⟨l'', k3, excluded_trans k2 k4⟩
  obtain ⟨g1, g2⟩ := key (List.range passes) prog prog' hk h
  refine ⟨g1, fun a l hl => ⟨(g2 a l hl).1, fun hlt => ?_⟩⟩
  rcases (g2 a l hl).2 hlt with ⟨e, _⟩ | h
  · rw [List.range_eq_nil] at e
    omega
  · exact h

/-- Candidates of a program with a conditional instruction that sets the flags, then
one that is always executed. -/
def condSample (cond : Int) (flags : Bool) : RuleCand :=
  { a := { c := { m := ⟨false, 0, cond, 1, [0], [0], [0]⟩, isBranch := false, isPush := false,
                  isPop := false, regsRead := [0], regsWritten := [0], jump := none },
           flags := flags, regsUsed := [0] } }

/-- The candidates excluded by two passes. -/
def excludedBy (passes : Nat) (prog : RuleProg) : Py (List (List Bool)) :=
  (oldRecover (collectMeta {} (prog.filterMap fun q => q.2.head?.map (·.a.c.m))) passes prog).map fun p =>
    p.map fun q => q.2.map (·.a.c.m.ignore)

/-- **The original can be excluded**: the first candidate of every address is the
original one and the metadata is that of the originals; an original that is always
executed and follows a conditional instruction setting the flags is excluded.  Here
the other candidate is excluded too and the address has none left. -/
theorem C89_original_excluded :
    excludedBy 2 [(0, [condSample 0 true]), (4, [condSample 14 false, condSample 0 false])] =
      .ok [[false], [true, true]] := by decide +kernel

/-- With one pass nothing is excluded. -/
example : excludedBy 1 [(0, [condSample 0 true]), (4, [condSample 14 false, condSample 0 false])] =
    .ok [[false], [false, false]] := by decide +kernel

end Verif
