import Verif.Proof.Cfg

/-! # The loop that builds the control flow graph -/

namespace Verif

theorem cfgDefined_ok {prog : List CfgInst} {P : Nat → Prop} {done order : List Nat} {s : CfgSt} (I : CInv prog P done order s)
    {i : Nat} (hdn : done.Nodup) (hlt : ∀ j ∈ done, j < i)
    (hP : ∀ d j, done = d ++ [j] → (prog[j]?.getD {}).branch = true → lastCondOf prog d ≠ some (prog[j]?.getD {}).cond →
      (prog[j]?.getD {}).cond = (prog[i]?.getD {}).cond → (prog[i]?.getD {}).branch = false → ¬ P j) :
    ∃ s' order', cfgDefined prog 2 s i (prog[i]?.getD {}) = .ok s' ∧ CInv prog P (done ++ [i]) order' s' ∧
      (∀ pre a x post d, done = pre ++ a :: x :: post → CfgLinked s.cfg a d → CfgLinked s'.cfg a d) ∧
      (s.lastCond ≠ some (prog[i]?.getD {}).cond → ∀ a, (s.cfg.insts s.cb).getLast? = some a → (prog[a]?.getD {}).branch = false →
        CfgLinked s'.cfg a i) := by
  have hid : i ∉ done := fun h => Nat.lt_irrefl _ (hlt i h)
  have hpi := I.pend i hid
  have hsub : ∀ k, k ∉ done ++ [i] → k ∉ done := fun k h h' => h (List.mem_append_left _ h')
  have hnd : (done ++ [i]).Nodup := by
    rw [List.nodup_append]
    exact ⟨hdn, by simp, fun a ha b hb => by rw [List.mem_singleton] at hb; rw [hb]; exact Nat.ne_of_lt (hlt a ha)⟩
  have hlastDone : s.lastCond ≠ none → ∀ d a, done = d ++ [a] → (s.cfg.insts s.cb).getLast? = some a := by
    intro h d a hda
    obtain ⟨o, ho⟩ := I.last h
    have hm := (I.g.ord s.cb).1 (by rw [ho]; simp)
    have hfl := I.g.flat
    rw [ho, List.flatMap_append, List.flatMap_singleton, hda] at hfl
    have := congrArg List.getLast? hfl
    rw [List.getLast?_append, List.getLast?_append] at this
    cases hg : (s.cfg.insts s.cb).getLast? with
    | none => exact absurd (List.getLast?_eq_none_iff.1 hg) (I.g.full _ hm.1 hm.2)
    | some x =>
      rw [hg] at this
      simpa using this
  -- a pair of consecutive instructions is an old one or ends with the new one
  have hpairs : ∀ pre a d post, done ++ [i] = pre ++ a :: d :: post → (∃ q, done = pre ++ a :: d :: q) ∨ (done = pre ++ [a] ∧ d = i) := by
    intro pre a d post h
    rcases List.eq_nil_or_concat post with rfl | ⟨q, y, rfl⟩
    · have h : done ++ [i] = (pre ++ [a]) ++ [d] := by rw [h]; simp
      exact Or.inr ⟨List.append_inj_left' h rfl, (List.cons.inj (List.append_inj_right' h rfl)).1.symm⟩
    · have h : done ++ [i] = (pre ++ a :: d :: q) ++ [y] := by rw [h]; simp
      exact Or.inl ⟨q, List.append_inj_left' h rfl⟩
  have hcondNe : ∀ d a, done = d ++ [a] → (prog[a]?.getD {}).branch = false → s.lastCond ≠ none := by
    intro d a hda hb
    rw [I.lc, hda, lastCondOf_snoc, if_neg (by rw [hb]; simp)]
    simp
  unfold cfgDefined
  by_cases hc : s.lastCond = some (prog[i]?.getD {}).cond
  · rw [if_pos hc]
    by_cases hbr : (prog[i]?.getD {}).branch = true
    · rw [if_pos hbr]
      have I1 := I.g.instr hlt (fun j hj => hj)
      have hb1 : s.cfg.lastIdx + 1 ∈ (s.cfg.withBlock .block [i]).nodes := by
        show _ ∈ s.cfg.nodes ++ [s.cfg.lastIdx + 1]
        simp
      have hk1 : ∀ n ∈ s.cfg.nodes, n ∈ (s.cfg.withBlock .block [i]).nodes := fun n hn => by
        show _ ∈ s.cfg.nodes ++ [s.cfg.lastIdx + 1]
        simp [hn]
      have hne1 : s.cfg.lastIdx + 1 ≠ 1 := (I.g.ne_new I.g.one.1).symm
      have hne2 : s.cfg.lastIdx + 1 ≠ 2 := (I.g.ne_new I.g.two.1).symm
      obtain ⟨e2, I2⟩ := I1.edge (hk1 _ I.cb.1) hb1 I.cb.2 hne1 (fun h => I.g.fresh (I.g.ends _ _ h).2)
      obtain ⟨c', order', o, e3, I3, k1, k2, k3⟩ := branchOut_ok (branch := s.cfg.lastIdx + 1) (i := i) I2 hb1 hne2
        (setAt_same _ _ _) (by
          intro v h
          rw [List.mem_append, List.mem_singleton, Prod.mk.injEq] at h
          rcases h with h | h
          · exact I.g.fresh (I.g.ends _ _ h).1
          · exact I.g.ne_new I.cb.1 h.1.symm)
        (by simp) (fun k hk => I.pend k (hsub k hk))
      refine ⟨{ s with cfg := c', cb := o.getD s.cb, lastCond := none }, order', ?_, ⟨I3, ?_, fun h => absurd rfl h, ?_, ?_, k2, ?_⟩,
        fun pre a x post d _ L => k1.linked a d (CfgLinked.edges I1 (fun e he => List.mem_append_left _ he) (L.withBlock I.g)),
        fun h => absurd hc h⟩
      · rw [addBlock_ok I.g (by simp)]
        show ((s.cfg.withBlock .block [i]).addEdge s.cb (s.cfg.lastIdx + 1) >>= _) = _
        rw [e2]
        show (Cfg.branchOut prog _ (s.cfg.lastIdx + 1) i 2 >>= _) = _
        rw [e3]
        rfl
      · cases o with
        | none => exact ⟨k1.nodes _ (hk1 _ I.cb.1), I.cb.2⟩
        | some n => exact k3 n rfl
      · rw [lastCondOf_snoc, ← I.lc, if_pos ⟨hc, hbr⟩]
      · intro l hl
        exact ⟨k1.nodes _ (hk1 _ (I.ln l hl).1), (I.ln l hl).2⟩
      · intro pre a d post h hb
        refine k1.linked a d ?_
        rcases hpairs pre a d post h with ⟨q, h1⟩ | ⟨h1, rfl⟩
        · exact CfgLinked.edges I1 (fun e he => List.mem_append_left _ he) ((I.fall pre a d q h1 hb).withBlock I.g)
        · refine Or.inr ⟨s.cb, hk1 _ I.cb.1, s.cfg.lastIdx + 1, hb1, ?_, ?_, Or.inl ?_⟩
          · show (setAt s.cfg.insts (s.cfg.lastIdx + 1) [d] s.cb).getLast? = some a
            rw [setAt_ne _ _ (I.g.ne_new I.cb.1)]
            exact hlastDone (hcondNe pre a h1 hb) pre a h1
          · show (setAt s.cfg.insts (s.cfg.lastIdx + 1) [d] (s.cfg.lastIdx + 1)).head? = some d
            rw [setAt_same]
            rfl
          · show (s.cb, s.cfg.lastIdx + 1) ∈ _ ++ [(s.cb, s.cfg.lastIdx + 1)]
            simp
    · rw [if_neg hbr, hpi]
      have hbr' : (prog[i]?.getD {}).branch = false := by simpa using hbr
      obtain ⟨o, rfl⟩ := I.last (by rw [hc]; simp)
      have hkeep : ∀ pre a d q k, done = pre ++ a :: d :: q → CfgLinked s.cfg a k →
          CfgLinked { s.cfg with insts := setAt s.cfg.insts s.cb (s.cfg.insts s.cb ++ [i]) } a k := by
        intro pre a d q k h1 L
        refine CfgLinked.append I.g ?_ L
        intro hla
        obtain ⟨ls, hls⟩ := List.getLast?_eq_some_iff.1 hla
        have hfl := I.g.flat
        rw [List.flatMap_append, List.flatMap_singleton, hls, h1, ← List.append_assoc] at hfl
        have hn := hdn
        rw [h1] at hn
        have e := congrArg List.getLast? hfl
        rw [List.getLast?_append, List.getLast?_append, List.getLast?_append] at e
        have hm : a ∈ d :: q := by
          have : (a :: d :: q).getLast? = (d :: q).getLast? := by simp [List.getLast?_cons_cons]
          rw [this] at e
          cases hg : (d :: q).getLast? with
          | none => simp at hg
          | some y =>
            rw [hg] at e
            have : a = y := by simpa using e
            rw [this]
            exact List.mem_of_getLast? hg
        rw [List.nodup_append, List.nodup_cons] at hn
        exact hn.2.1.1 hm
      refine ⟨_, o ++ [s.cb], rfl, ⟨?_, I.cb, fun _ => ⟨o, rfl⟩, ?_, I.ln, fun k hk => I.pend k (hsub k hk), ?_⟩,
        fun pre a x post d h L => hkeep pre a x post d h L, fun h => absurd hc h⟩
      · refine GInv.treat (i := i) (I.g.append hlt (fun j hj => hj) hbr' ?_) (fun h => absurd h hbr)
        intro j hj hjb
        have hfl := I.g.flat
        rw [List.flatMap_append, List.flatMap_singleton, hj] at hfl
        have hl := I.lc
        rw [← hfl, lastCondOf_snoc, hc] at hl
        split at hl
        · cases hl
        · rename_i hn
          exact hP _ j hfl.symm hjb (fun h => hn ⟨h, hjb⟩) (Option.some.inj hl).symm hbr'
      · show s.lastCond = _
        rw [lastCondOf_snoc, hc, if_neg (by rintro ⟨_, h⟩; exact hbr h)]
      · intro pre a d post h hb
        rcases hpairs pre a d post h with ⟨q, h1⟩ | ⟨h1, rfl⟩
        · exact hkeep pre a d q d h1 (I.fall pre a d q h1 hb)
        · obtain ⟨ls, hls⟩ := List.getLast?_eq_some_iff.1 (hlastDone (hcondNe pre a h1 hb) pre a h1)
          refine Or.inl ⟨s.cb, I.cb.1, ls, [], ?_⟩
          show setAt s.cfg.insts s.cb (s.cfg.insts s.cb ++ [d]) s.cb = _
          rw [setAt_same, hls]
          simp
  · rw [if_neg hc]
    obtain ⟨c1, b, o, e1, I1, k1, k2, k3, k4, k5, k6, k7, k8⟩ := branchConditional_ok I.g I.cb I.ln hlt hpi
    have hlc : some (prog[i]?.getD {}).cond = lastCondOf prog (done ++ [i]) := by
      rw [lastCondOf_snoc, ← I.lc, if_neg (by rintro ⟨h, _⟩; exact hc h)]
    have hfall : ∀ pre a d post, done ++ [i] = pre ++ a :: d :: post → (prog[a]?.getD {}).branch = false → CfgLinked c1 a d := by
      intro pre a d post h hb
      rcases hpairs pre a d post h with ⟨q, h1⟩ | ⟨h1, rfl⟩
      · exact k7 a d (I.fall pre a d q h1 hb)
      · exact k8 a (hlastDone (hcondNe pre a h1 hb) pre a h1) hb
    rw [e1]
    by_cases hbr : (prog[i]?.getD {}).branch = true
    · obtain ⟨c2, order2, q, e2, I2, j1, j2, j3⟩ := branchOut_ok (i := i) I1 k1 k2 k3 k4 (by simp)
        (fun k hk => by rw [k5]; exact I.pend k (hsub k hk))
      obtain ⟨o', ho'⟩ := j1.tail _ _ rfl
      refine ⟨{ cfg := c2, cb := b, lastCond := some (prog[i]?.getD {}).cond, lastNode := o }, order2, ?_, ⟨I2, ⟨j1.nodes _ k1, k2⟩, fun _ => ⟨o', ho'⟩, hlc,
        fun l hl => ⟨j1.nodes _ (k6 l hl).1, (k6 l hl).2⟩, j2,
        fun pre a d post h hb => j1.linked a d (hfall pre a d post h hb)⟩,
        fun pre a x post d _ L => j1.linked a d (k7 a d L), fun _ a ha hb => j1.linked a i (k8 a ha hb)⟩
      show (if (prog[i]?.getD {}).branch = true then _ else _) = _
      rw [if_pos hbr]
      show (Cfg.branchOut prog c1 b i 2 >>= _) = _
      rw [e2]
      rfl
    · refine ⟨{ cfg := c1, cb := b, lastCond := some (prog[i]?.getD {}).cond, lastNode := o }, order ++ [b], ?_,
        ⟨I1.treat (fun h => absurd h hbr), ⟨k1, k2⟩, fun _ => ⟨order, rfl⟩, hlc, k6,
          fun k hk => by show dictGet c1.pending k = none; rw [k5]; exact I.pend k (hsub k hk), hfall⟩,
        fun pre a x post d _ L => k7 a d L, fun _ a ha hb => k8 a ha hb⟩
      show (if (prog[i]?.getD {}).branch = true then _ else _) = _
      rw [if_neg hbr]

/-- The defined instructions among some positions. -/
def definedOf (prog : List CfgInst) (l : List Nat) : List Nat := l.filter fun i => !(prog[i]?.getD {}).undefined

theorem cfgLoop_ok {prog : List CfgInst} {P : Nat → Prop} (D : List Nat) (hD : D.Pairwise (· < ·))
    (hP : ∀ d j i r, D = d ++ j :: i :: r → (prog[j]?.getD {}).branch = true → lastCondOf prog d ≠ some (prog[j]?.getD {}).cond →
      (prog[j]?.getD {}).cond = (prog[i]?.getD {}).cond → (prog[i]?.getD {}).branch = false → ¬ P j) :
    ∀ (l done order : List Nat) (s : CfgSt), D = done ++ definedOf prog l → (∀ i ∈ l, i < prog.length) → CInv prog P done order s →
    ∃ s' order', l.foldlM (cfgStep prog 2) s = .ok s' ∧ CInv prog P D order' s' := by
  intro l
  induction l with
  | nil =>
    intro done order s h _ I
    refine ⟨s, order, rfl, ?_⟩
    rw [h]
    simpa [definedOf] using I
  | cons i l ih =>
    intro done order s h hl I
    have hi := hl i (by simp)
    have hget : prog[i]? = some (prog[i]?.getD {}) := by rw [List.getElem?_eq_getElem hi]; rfl
    rw [List.foldlM_cons]
    unfold cfgStep
    by_cases hu : (prog[i]?.getD {}).undefined = true
    · obtain ⟨s', order', e, J⟩ := ih done order s (by rw [h]; simp [definedOf, hu]) (fun j hj => hl j (List.mem_cons_of_mem _ hj)) I
      refine ⟨s', order', ?_, J⟩
      rw [hget]
      show (if (prog[i]?.getD {}).undefined = true then _ else _) >>= _ = _
      rw [if_pos hu]
      exact e
    · have hd : definedOf prog (i :: l) = i :: definedOf prog l := by simp [definedOf, hu]
      rw [hd] at h
      have hlt : ∀ j ∈ done, j < i := fun j hj => by
        rw [h, List.pairwise_append] at hD
        exact hD.2.2 j hj i (by simp)
      have hdn : done.Nodup := by
        have := hD.imp (fun h => Nat.ne_of_lt h)
        rw [h] at this
        exact (List.nodup_append.1 this).1
      obtain ⟨s1, order1, e1, I1, _, _⟩ := cfgDefined_ok I hdn hlt (fun d j hdj => hP d j i (definedOf prog l) (by rw [h, hdj]; simp))
      obtain ⟨s', order', e, J⟩ := ih (done ++ [i]) order1 s1 (by rw [h]; simp) (fun j hj => hl j (List.mem_cons_of_mem _ hj)) I1
      refine ⟨s', order', ?_, J⟩
      rw [hget]
      show (if (prog[i]?.getD {}).undefined = true then _ else _) >>= _ = _
      rw [if_neg hu, e1]
      exact e

/-- The graph with only a root and an end. -/
def cfgStart : Cfg :=
  { nodes := [1, 2], kind := setAt (setAt (fun _ => .block) 1 .root) 2 .fin, insts := setAt (setAt (fun _ => []) 1 []) 2 [],
    lastIdx := 2 }

theorem cfgStart_inv (prog : List CfgInst) (P : Nat → Prop) : CInv prog P [] [] { cfg := cfgStart, cb := 1 } := by
  have hi : ∀ n, cfgStart.insts n = [] := fun n => by
    unfold cfgStart setAt
    dsimp only
    split
    · rfl
    · split <;> rfl
  have h12 : ∀ n ∈ cfgStart.nodes, n = 1 ∨ n = 2 := fun n hn => by simpa [cfgStart] using hn
  have k1 : cfgStart.kind 1 = .root := by decide
  have k2 : cfgStart.kind 2 = .fin := by decide
  refine ⟨⟨?_, by decide, by decide, ?_, ⟨by decide, k1⟩, ⟨by decide, k2⟩, ?_, ?_, ?_, ?_, ?_, by simp, ?_, rfl, ?_, ?_, ?_⟩,
    ⟨by decide, by decide⟩, fun h => absurd rfl h, rfl, ?_, fun _ _ => rfl, ?_⟩
  · intro n hn
    rcases h12 n hn with rfl | rfl <;> decide
  · intro u v h; cases h
  · intro n hn
    rcases h12 n hn with rfl | rfl
    · exact ⟨fun _ => rfl, fun h => absurd (k1.symm.trans h) (by decide)⟩
    · exact ⟨fun h => absurd (k2.symm.trans h) (by decide), fun _ => rfl⟩
  · intro u h; cases h
  · intro u h; cases h
  · intro n _ _; exact hi n
  · intro n hn hk
    rcases h12 n hn with rfl | rfl
    · rw [k1] at hk; cases hk
    · rw [k2] at hk; cases hk
  · intro n
    constructor
    · intro h; cases h
    · rintro ⟨hn, hk⟩
      rcases h12 n hn with rfl | rfl
      · rw [k1] at hk; cases hk
      · rw [k2] at hk; cases hk
  · intro n _ i h
    rw [hi] at h
    cases h
  · intro i h; cases h
  · intro i h; cases h
  · intro l h; cases h
  · intro pre i j post h
    have := congrArg List.length h
    simp at this

theorem definedOf_sorted (prog : List CfgInst) (m : Nat) : (definedOf prog (List.range m)).Pairwise (· < ·) :=
  List.Pairwise.filter _ List.pairwise_lt_range

theorem buildCfg_ok {prog : List CfgInst} {P : Nat → Prop} (hne : prog ≠ []) (count : Int)
    (hm : (if count = -1 then prog.length else count.toNat) ≤ prog.length)
    (hP : ∀ d j i r, definedOf prog (List.range (if count = -1 then prog.length else count.toNat)) = d ++ j :: i :: r →
      (prog[j]?.getD {}).branch = true → lastCondOf prog d ≠ some (prog[j]?.getD {}).cond →
      (prog[j]?.getD {}).cond = (prog[i]?.getD {}).cond → (prog[i]?.getD {}).branch = false → ¬ P j) :
    ∃ c order, buildCfg prog count = .ok c ∧
      GInv prog P (definedOf prog (List.range (if count = -1 then prog.length else count.toNat))) order
        (definedOf prog (List.range (if count = -1 then prog.length else count.toNat))) c ∧
      ∀ pre i j post, definedOf prog (List.range (if count = -1 then prog.length else count.toNat)) = pre ++ i :: j :: post →
        (prog[i]?.getD {}).branch = false → CfgLinked c i j := by
  obtain ⟨s, order, e, I⟩ := cfgLoop_ok _ (definedOf_sorted prog _) hP
    (List.range (if count = -1 then prog.length else count.toNat)) [] [] _ rfl
    (fun i hi => by rw [List.mem_range] at hi; omega) (cfgStart_inv prog P)
  obtain ⟨es, e2, J, hsub⟩ := I.g.needEdge I.cb.1 I.g.two.1 I.cb.2 (by decide)
  refine ⟨_, order, ?_, J, fun pre i j post h hb => CfgLinked.edges I.g hsub (I.fall pre i j post h hb)⟩
  unfold buildCfg
  rw [if_neg hne]
  show ((List.range (if count = -1 then prog.length else count.toNat)).foldlM (cfgStep prog 2) { cfg := cfgStart, cb := 1 } >>= _) = _
  rw [e]
  exact e2

/-- Asking for more instructions than there are. -/
theorem buildCfg_over {prog : List CfgInst} (hne : prog ≠ []) (count : Int) (hc : count ≠ -1) (h : prog.length < count.toNat) :
    buildCfg prog count = .error .index := by
  have key : List.range count.toNat = List.range prog.length ++ prog.length :: (List.range' (prog.length + 1) (count.toNat - prog.length - 1)) := by
    rw [List.range_eq_range', List.range_eq_range', ← List.range'_succ]
    have h2 := List.range'_append_1 (s := 0) (m := prog.length) (n := count.toNat - prog.length - 1 + 1)
    rw [Nat.zero_add] at h2
    rw [h2]
    congr 1
    omega
  obtain ⟨s, order, e, I⟩ := cfgLoop_ok (P := fun _ => False) _ (definedOf_sorted prog prog.length) (fun _ _ _ _ _ _ _ _ _ h => h)
    (List.range prog.length) [] [] _ rfl (fun i hi => by rwa [List.mem_range] at hi) (cfgStart_inv prog _)
  unfold buildCfg
  rw [if_neg hne]
  show ((List.range (if count = -1 then prog.length else count.toNat)).foldlM (cfgStep prog 2) { cfg := cfgStart, cb := 1 } >>= _) = _
  rw [if_neg hc, key, List.foldlM_append, e]
  show ((prog.length :: _).foldlM (cfgStep prog 2) s >>= _) = _
  rw [List.foldlM_cons]
  have : cfgStep prog 2 s prog.length = .error .index := by
    unfold cfgStep
    rw [List.getElem?_eq_none (Nat.le_refl _)]
  rw [this]
  rfl

end Verif
