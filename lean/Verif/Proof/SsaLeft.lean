import Verif.Proof.SsaReads
import Verif.Spec.Ssa

/-! # The indices given along the walk, and those of the merge functions -/

namespace Verif

/-- The registers of the merge functions of a block. -/
def phiVars (s : SsaSt) (b : Nat) : List Nat := (s.phis b).map (·.1.1)

/-- The definitions of a register in some blocks: merge functions and writes. -/
def defCount (p : SsaProg) (s : SsaSt) (bs : List Nat) (x : Nat) : Nat :=
  (bs.flatMap fun b => phiVars s b ++ (p.insts b).flatMap fun i => (p.acc i).writes).count x

theorem defCount_cons (p : SsaProg) (s : SsaSt) (b : Nat) (bs : List Nat) (x : Nat) :
    defCount p s (b :: bs) x = (phiVars s b).count x + wcount p (p.insts b) x + defCount p s bs x := by
  unfold defCount wcount
  rw [List.flatMap_cons, List.count_append, List.count_append]

theorem defCount_congr {p : SsaProg} {s s' : SsaSt} (h : ∀ b, phiVars s' b = phiVars s b) (bs : List Nat) (x : Nat) :
    defCount p s' bs x = defCount p s bs x := by
  unfold defCount
  simp only [h]

theorem defCount_append (p : SsaProg) (s : SsaSt) (bs cs : List Nat) (x : Nat) :
    defCount p s (bs ++ cs) x = defCount p s bs x + defCount p s cs x := by
  unfold defCount
  rw [List.flatMap_append, List.count_append]

theorem renamePhis_vars {x k n : Nat} {s s' : SsaSt} (ht : TopIs x k s) (h : renamePhis s n = pure s') :
    TopIs x (k + (phiVars s n).count x) s' ∧ ∀ b, phiVars s' b = phiVars s b := by
  unfold renamePhis at h
  obtain ⟨acc, h1, h2⟩ := run_bind_inv h
  have := run_pure_inj h2
  subst this
  have I := run_fold_pre (fun done acc => NewDict s acc ∧ TopIs x (k + (done.map (·.1.1)).count x) acc.1 ∧
      acc.2.map (·.1.1) = done.map (·.1.1)) (s.phis n) [] (s, []) acc
      (by
        rintro pre e post a b ⟨I0, I1, I2⟩ he _
        refine ⟨renamePhi_new I0 he, ?_⟩
        unfold renamePhi at he
        obtain ⟨⟨nm, s1⟩, g1, g2⟩ := run_bind_inv he
        have := run_pure_inj g2
        subst this
        obtain ⟨_, rfl, rfl⟩ := newName_inv g1
        have hnew : (e.1.1, a.1.counter e.1.1 + 1) ∉ a.2.map (·.1) := by
          intro h
          have : a.1.counter e.1.1 + 1 ≤ a.1.counter e.1.1 := (I0.fresh _ h).2
          omega
        refine ⟨?_, ?_⟩
        · rw [List.map_append, List.count_append]
          by_cases he : e.1.1 = x
          · have : ([e].map (·.1.1)).count x = 1 := by simp [he]
            rw [this]
            refine ⟨?_, fun t l hl => ?_⟩
            · show put a.1.counter e.1.1 (a.1.counter e.1.1 + 1) x = _
              rw [he, put_same, I1.1]
              omega
            · have hl : put a.1.stack e.1.1 ((a.1.counter e.1.1 + 1) :: a.1.stack e.1.1) x = t :: l := hl
              rw [he, put_same, I1.1] at hl
              rw [← (List.cons.inj hl).1, Nat.add_assoc]
          · have : ([e].map (·.1.1)).count x = 0 := by simp [he]
            rw [this]
            obtain ⟨i1, i2⟩ := I1
            refine ⟨?_, fun t l hl => ?_⟩
            · show put a.1.counter e.1.1 (a.1.counter e.1.1 + 1) x = _
              rw [put_ne _ _ _ (Ne.symm he), i1]
              rfl
            · have hl : put a.1.stack e.1.1 ((a.1.counter e.1.1 + 1) :: a.1.stack e.1.1) x = t :: l := hl
              rw [put_ne _ _ _ (Ne.symm he)] at hl
              exact i2 t l hl
        · have hk := keys_dictSet a.2 (e.1.1, a.1.counter e.1.1 + 1) e.2
          rw [if_neg hnew] at hk
          have : ∀ d : List (Name × List Name), d.map (·.1.1) = (d.map (·.1)).map (·.1) := fun d => by simp
          show (dictSet a.2 (e.1.1, a.1.counter e.1.1 + 1) e.2).map (·.1.1) = _
          rw [this, hk, List.map_append, ← this, I2]
          simp)
      h1 ⟨⟨Grown.refl s, by simp, by simp⟩, by simpa using ht, rfl⟩
  rw [List.nil_append] at I
  obtain ⟨i0, i1, i2⟩ := I
  refine ⟨i1, fun b => ?_⟩
  unfold phiVars
  show (put acc.1.phis n acc.2 b).map (·.1.1) = _
  by_cases hb : b = n
  · subst hb
    rw [put_same, i2]
  · rw [put_ne _ _ _ hb, i0.grown.phis]

theorem phiVars_of_keys {s s' : SsaSt} (h : ∀ c, (s'.phis c).map (·.1) = (s.phis c).map (·.1)) (b : Nat) :
    phiVars s' b = phiVars s b := by
  have : ∀ d : List (Name × List Name), d.map (·.1.1) = (d.map (·.1)).map (·.1) := fun d => by simp
  unfold phiVars
  rw [this, h, ← this]

theorem renameInsts_phis {p : SsaProg} {L : List Nat} {s s' : SsaSt} (h : L.foldlM (renameInst p) s = pure s') :
    s'.phis = s.phis :=
  run_fold_inv (fun t => t.phis = s.phis) _ _ _ (fun i _ a b hI he => by
    unfold renameInst at he
    obtain ⟨c, g1, g2⟩ := run_bind_inv he
    obtain ⟨_, _, e3, _⟩ := renameReads_wr _ g1
    refine run_fold_inv (fun t => t.phis = s.phis) _ _ _ (fun w _ u v hI he => ?_) g2 (e3.trans hI)
    unfold renameWrite at he
    obtain ⟨⟨nm, t⟩, k1, k2⟩ := run_bind_inv he
    have := run_pure_inj k2
    subst this
    obtain ⟨_, rfl, rfl⟩ := newName_inv k1
    exact hI) h rfl

/-- Only the instructions of the list are touched. -/
theorem renameInsts_frame {p : SsaProg} {L : List Nat} {s1 s2 : SsaSt} (h2 : L.foldlM (renameInst p) s1 = pure s2)
    {j : Nat} (hj : j ∉ L) : s2.rd j = s1.rd j ∧ s2.wr j = s1.wr j :=
  run_fold_inv (fun t => t.rd j = s1.rd j ∧ t.wr j = s1.wr j) _ _ _ (fun i hi a b hI he => by
    have hij : j ≠ i := by
      rintro rfl
      exact hj hi
    unfold renameInst at he
    obtain ⟨c, g1, g2⟩ := run_bind_inv he
    have hc : c.rd j = a.rd j ∧ c.wr j = a.wr j :=
      run_fold_inv (fun t => t.rd j = a.rd j ∧ t.wr j = a.wr j) _ _ _ (fun r _ u v hI he => by
        unfold renameRead at he
        obtain ⟨t, k1, k2⟩ := run_bind_inv he
        have := run_pure_inj k2
        subst this
        split
        · exact hI
        · refine ⟨?_, hI.2⟩
          show put u.rd i _ j = _
          rw [put_ne _ _ _ hij, hI.1]) g1 ⟨rfl, rfl⟩
    have hb : b.rd j = c.rd j ∧ b.wr j = c.wr j :=
      run_fold_inv (fun t => t.rd j = c.rd j ∧ t.wr j = c.wr j) _ _ _ (fun r _ u v hI he => by
        unfold renameWrite at he
        obtain ⟨⟨nm, t⟩, k1, k2⟩ := run_bind_inv he
        have := run_pure_inj k2
        subst this
        obtain ⟨_, rfl, rfl⟩ := newName_inv k1
        refine ⟨hI.1, ?_⟩
        show put u.wr i _ j = _
        rw [put_ne _ _ _ hij, hI.2]) g2 ⟨rfl, rfl⟩
    exact ⟨hb.1.trans (hc.1.trans hI.1), hb.2.trans (hc.2.trans hI.2)⟩) h2 ⟨rfl, rfl⟩

/-- Only the instructions met are touched. -/
theorem renameNode_frame {p : SsaProg} (fuel : Nat) : ∀ (n : Nat) (s s' : SsaSt), renameNode p fuel s n = pure s' →
    ∀ j, j ∉ (preorder p.domSucc fuel n).flatMap p.insts → s'.rd j = s.rd j ∧ s'.wr j = s.wr j := by
  induction fuel with
  | zero => intro n s s' h; exact absurd h running_ne
  | succ fuel ih =>
    intro n s s' h j hj
    rw [preorder, List.flatMap_cons, List.mem_append, not_or] at hj
    obtain ⟨s1, s2, s3, s4, h1, h2, h3, h4, h5⟩ := renameNode_inv h
    obtain ⟨r1, w1⟩ := renamePhis_inv h1
    have I2 := renameInsts_frame h2 hj.1
    obtain ⟨c3, st3, r3, w3, k3⟩ := appends_inv h3
    have I4 : s4.rd j = s3.rd j ∧ s4.wr j = s3.wr j :=
      run_fold_inv (fun t => t.rd j = s3.rd j ∧ t.wr j = s3.wr j) _ _ _ (fun c hc a b hI he => by
        have := ih c a b he j fun hm => hj.2 (by
          rw [List.mem_flatMap] at hm ⊢
          obtain ⟨m, hm1, hm2⟩ := hm
          exact ⟨m, List.mem_flatMap.2 ⟨c, hc, hm1⟩, hm2⟩)
        exact ⟨this.1.trans hI.1, this.2.trans hI.2⟩) h4 ⟨rfl, rfl⟩
    obtain ⟨_, q5, r5, w5⟩ := roll_inv h5
    rw [r5, w5, I4.1, I4.2, r3, w3, I2.1, I2.2, r1, w1]
    exact ⟨rfl, rfl⟩

/-- After a block and what it dominates have been renamed, the index on top, if there
is one, counts what has been defined. -/
theorem renameNode_top {p : SsaProg} {x : Nat} (fuel : Nat) : ∀ (n k : Nat) (s s' : SsaSt), TopIs x k s →
    renameNode p fuel s n = pure s' →
    TopIs x (k + defCount p s (preorder p.domSucc fuel n) x) s' ∧ ∀ b, phiVars s' b = phiVars s b := by
  induction fuel with
  | zero => intro n k s s' _ h; exact absurd h running_ne
  | succ fuel ih =>
    intro n k s s' ht h
    obtain ⟨s1, s2, s3, s4, h1, h2, h3, h4, h5⟩ := renameNode_inv h
    obtain ⟨t1, v1⟩ := renamePhis_vars ht h1
    obtain ⟨t2, _, q2⟩ := renameInsts_named _ t1 h2
    obtain ⟨c3, st3, _, _, k3⟩ := appends_inv h3
    have t3 : TopIs x (k + (phiVars s n).count x + wcount p (p.insts n) x) s3 := ⟨c3 ▸ t2.1, st3 ▸ t2.2⟩
    have v3 : ∀ b, phiVars s3 b = phiVars s b := fun b => by
      rw [phiVars_of_keys k3, phiVars_of_keys (s := s1) (fun c => by rw [q2]), v1]
    obtain ⟨_, q5, _, _⟩ := roll_inv h5
    have I4 := run_fold_pre (fun done t => TopIs x (k + (phiVars s n).count x + wcount p (p.insts n) x +
        defCount p s (done.flatMap (preorder p.domSucc fuel)) x) t ∧ ∀ b, phiVars t b = phiVars s b)
      (p.domSucc n) [] s3 s4 (by
        rintro pre c post a b ⟨I0, I1⟩ he _
        obtain ⟨g1, g2⟩ := ih c _ a b I0 he
        refine ⟨?_, fun d => (g2 d).trans (I1 d)⟩
        rw [defCount_congr I1] at g1
        rw [List.flatMap_append, List.flatMap_singleton, defCount_append, ← Nat.add_assoc]
        exact g1) h4 ⟨by simpa [defCount] using t3, v3⟩
    rw [List.nil_append] at I4
    refine ⟨?_, fun b => by rw [← I4.2 b]; unfold phiVars; rw [q5]⟩
    have := roll_top I4.1 h5
    rw [preorder, defCount_cons]
    have e : k + ((phiVars s n).count x + wcount p (p.insts n) x +
        defCount p s ((p.domSucc n).flatMap (preorder p.domSucc fuel)) x) =
      k + (phiVars s n).count x + wcount p (p.insts n) x +
        defCount p s ((p.domSucc n).flatMap (preorder p.domSucc fuel)) x := by omega
    rw [e]
    exact this

/-- The merge functions of a block met have positive indices. -/
theorem renameNode_pos {p : SsaProg} (fuel : Nat) : ∀ (n : Nat) (s s' : SsaSt), renameNode p fuel s n = pure s' →
    ∀ b, (b ∈ preorder p.domSucc fuel n ∨ ∀ e ∈ s.phis b, e.1.2 ≠ 0) → ∀ e ∈ s'.phis b, e.1.2 ≠ 0 := by
  have keys : ∀ (s s' : SsaSt), (∀ c, (s'.phis c).map (·.1) = (s.phis c).map (·.1)) → ∀ b,
      (∀ e ∈ s.phis b, e.1.2 ≠ 0) → ∀ e ∈ s'.phis b, e.1.2 ≠ 0 := by
    intro s s' h b hs e he
    have h1 : e.1 ∈ (s'.phis b).map (·.1) := List.mem_map_of_mem he
    rw [h] at h1
    obtain ⟨e', h2, h3⟩ := List.mem_map.1 h1
    rw [← h3]
    exact hs e' h2
  induction fuel with
  | zero => intro n s s' h; exact absurd h running_ne
  | succ fuel ih =>
    intro n s s' h b hb
    obtain ⟨s1, s2, s3, s4, h1, h2, h3, h4, h5⟩ := renameNode_inv h
    have p1 : (b = n ∨ ∀ e ∈ s.phis b, e.1.2 ≠ 0) → ∀ e ∈ s1.phis b, e.1.2 ≠ 0 := by
      intro hb
      unfold renamePhis at h1
      obtain ⟨acc, g1, g2⟩ := run_bind_inv h1
      have := run_pure_inj g2
      subst this
      have I : NewDict s acc := run_fold_inv (NewDict s) _ _ _ (fun e _ a b hI he => renamePhi_new hI he) g1
        ⟨Grown.refl s, by simp, by simp⟩
      show ∀ e ∈ put acc.1.phis n acc.2 b, e.1.2 ≠ 0
      by_cases hbn : b = n
      · subst hbn
        rw [put_same]
        intro e he
        have := (I.fresh e.1 (List.mem_map_of_mem he)).1
        omega
      · rw [put_ne _ _ _ hbn, I.grown.phis]
        exact hb.resolve_left hbn
    have q2 := renameInsts_phis h2
    obtain ⟨c3, st3, r3, w3, k3⟩ := appends_inv h3
    have p3 : (b = n ∨ ∀ e ∈ s.phis b, e.1.2 ≠ 0) → ∀ e ∈ s3.phis b, e.1.2 ≠ 0 := by
      intro hb
      exact keys s1 s3 (fun c => by rw [k3, q2]) b (p1 hb)
    have p4 : ∀ e ∈ s4.phis b, e.1.2 ≠ 0 := by
      have I := run_fold_pre (fun done t => ((b = n ∨ ∀ e ∈ s.phis b, e.1.2 ≠ 0) ∨
          b ∈ done.flatMap (preorder p.domSucc fuel)) → ∀ e ∈ t.phis b, e.1.2 ≠ 0) (p.domSucc n) [] s3 s4 (by
        rintro pre c post a t I0 he _ hb
        refine ih c a t he b ?_
        rcases hb with hb | hb
        · exact Or.inr (I0 (Or.inl hb))
        · rw [List.flatMap_append, List.mem_append] at hb
          rcases hb with hb | hb
          · exact Or.inr (I0 (Or.inr hb))
          · rw [List.flatMap_singleton] at hb
            exact Or.inl hb) h4 (by
          rintro (hb | hb)
          · exact p3 hb
          · simp at hb)
      rw [List.nil_append] at I
      refine I ?_
      rcases hb with hb | hb
      · rcases List.mem_cons.1 hb with hb | hb
        · exact Or.inl (Or.inl hb)
        · exact Or.inr hb
      · exact Or.inl (Or.inr hb)
    obtain ⟨_, q5, r5, w5⟩ := roll_inv h5
    rw [q5]
    exact p4

/-! ### Merge functions -/

theorem renamePhis_names {x k n : Nat} {s s' : SsaSt} (ht : TopIs x k s) (h : renamePhis s n = pure s') :
    ∀ m, m < (phiVars s n).count x → (x, k + m + 1) ∈ (s'.phis n).map (·.1) := by
  unfold renamePhis at h
  obtain ⟨acc, h1, h2⟩ := run_bind_inv h
  have := run_pure_inj h2
  subst this
  have I := run_fold_pre (fun done acc => acc.1.counter x = k + (done.map (·.1.1)).count x ∧
      ∀ m, m < (done.map (·.1.1)).count x → (x, k + m + 1) ∈ acc.2.map (·.1)) (s.phis n) [] (s, []) acc
      (by
        rintro pre e post a b ⟨I1, I2⟩ he _
        unfold renamePhi at he
        obtain ⟨⟨nm, s1⟩, g1, g2⟩ := run_bind_inv he
        have := run_pure_inj g2
        subst this
        obtain ⟨_, rfl, rfl⟩ := newName_inv g1
        have hmem : ∀ nm, nm ∈ (dictSet a.2 (e.1.1, a.1.counter e.1.1 + 1) e.2).map (·.1) ↔
            nm ∈ a.2.map (·.1) ∨ nm = (e.1.1, a.1.counter e.1.1 + 1) := by
          intro nm
          rw [keys_dictSet]
          split
          · rename_i hin
            constructor
            · exact Or.inl
            · rintro (h | rfl)
              · exact h
              · exact hin
          · rw [List.mem_append, List.mem_singleton]
        show put a.1.counter e.1.1 (a.1.counter e.1.1 + 1) x = _ ∧
          ∀ m, _ → (x, k + m + 1) ∈ (dictSet a.2 (e.1.1, a.1.counter e.1.1 + 1) e.2).map (·.1)
        rw [List.map_append, List.count_append]
        by_cases he : e.1.1 = x
        · have hc : ([e].map (·.1.1)).count x = 1 := by simp [he]
          rw [hc, he, put_same, I1]
          refine ⟨by omega, fun m hm => ?_⟩
          rw [← I1]
          by_cases hm' : m < (pre.map (·.1.1)).count x
          · have := (hmem _).2 (Or.inl (I2 m hm'))
            rw [he] at this
            exact this
          · have hme : m = (pre.map (·.1.1)).count x := by omega
            have := (hmem (e.1.1, a.1.counter e.1.1 + 1)).2 (Or.inr rfl)
            rw [he] at this
            rw [hme, ← I1]
            exact this
        · have hc : ([e].map (·.1.1)).count x = 0 := by simp [he]
          rw [hc, put_ne _ _ _ (Ne.symm he), I1]
          refine ⟨by omega, fun m hm => (hmem _).2 (Or.inl (I2 m (by omega)))⟩)
      h1 ⟨by simpa using ht.1, by simp⟩
  rw [List.nil_append] at I
  intro m hm
  show _ ∈ (put acc.1.phis n acc.2 n).map (·.1)
  rw [put_same]
  exact I.2 m hm

/-- Only the merge functions of the blocks met are renamed. -/
theorem renameNode_keys {p : SsaProg} (fuel : Nat) : ∀ (n : Nat) (s s' : SsaSt), renameNode p fuel s n = pure s' →
    ∀ b, b ∉ preorder p.domSucc fuel n → (s'.phis b).map (·.1) = (s.phis b).map (·.1) := by
  induction fuel with
  | zero => intro n s s' h; exact absurd h running_ne
  | succ fuel ih =>
    intro n s s' h b hb
    rw [preorder, List.mem_cons, not_or] at hb
    obtain ⟨s1, s2, s3, s4, h1, h2, h3, h4, h5⟩ := renameNode_inv h
    have p1 : s1.phis b = s.phis b := by
      unfold renamePhis at h1
      obtain ⟨acc, g1, g2⟩ := run_bind_inv h1
      have := run_pure_inj g2
      subst this
      have I : NewDict s acc := run_fold_inv (NewDict s) _ _ _ (fun e _ a b hI he => renamePhi_new hI he) g1
        ⟨Grown.refl s, by simp, by simp⟩
      show put acc.1.phis n acc.2 b = _
      rw [put_ne _ _ _ hb.1, I.grown.phis]
    have q2 := renameInsts_phis h2
    obtain ⟨c3, st3, r3, w3, k3⟩ := appends_inv h3
    have p4 : (s4.phis b).map (·.1) = (s3.phis b).map (·.1) :=
      run_fold_inv (fun t => (t.phis b).map (·.1) = (s3.phis b).map (·.1)) _ _ _ (fun c hc a t hI he =>
        (ih c a t he b fun hm => hb.2 (List.mem_flatMap.2 ⟨c, hc, hm⟩)).trans hI) h4 rfl
    obtain ⟨_, q5, r5, w5⟩ := roll_inv h5
    rw [q5, p4, k3, q2, p1]

/-! ### The places along the walk -/

open Spec (Def defLine)

/-- The registers that get a value at a place. -/
def defRegs (p : SsaProg) (phis : Phis) : Def → List Nat
  | .merge b => (phis b).map (·.1.1)
  | .inst i => (p.acc i).writes

theorem defLine_cons (insts : Nat → List Nat) (b : Nat) (bs : List Nat) :
    defLine insts (b :: bs) = .merge b :: ((insts b).map .inst ++ defLine insts bs) := by
  unfold defLine
  rw [List.flatMap_cons]
  rfl

theorem insts_regs (p : SsaProg) (phis : Phis) (L : List Nat) :
    ((L.map Def.inst).flatMap (defRegs p phis)) = L.flatMap fun i => (p.acc i).writes := by
  rw [List.flatMap_map]
  rfl

theorem line_regs (p : SsaProg) (s : SsaSt) (bs : List Nat) (x : Nat) :
    ((defLine p.insts bs).flatMap (defRegs p s.phis)).count x = defCount p s bs x := by
  induction bs with
  | nil => rfl
  | cons b bs ih =>
    rw [defLine_cons, defCount_cons, List.flatMap_cons, List.flatMap_append, List.count_append, List.count_append, ih,
      insts_regs]
    unfold wcount
    show ((s.phis b).map (·.1.1)).count x + _ = _
    unfold phiVars
    omega

theorem line_split (insts : Nat → List Nat) (l : List Nat) : ∀ (P : List Def) (d : Def) (Q : List Def),
    defLine insts l = P ++ d :: Q →
    (∃ u b v, l = u ++ b :: v ∧ d = .merge b ∧ P = defLine insts u) ∨
    ∃ u b v a i c, l = u ++ b :: v ∧ insts b = a ++ i :: c ∧ d = .inst i ∧
      P = defLine insts u ++ .merge b :: a.map .inst := by
  induction l with
  | nil => intro P d Q h; simp [defLine] at h
  | cons b l ih =>
    intro P d Q h
    rw [defLine_cons] at h
    cases P with
    | nil =>
      simp only [List.nil_append, List.cons.injEq] at h
      exact Or.inl ⟨[], b, l, rfl, h.1.symm, rfl⟩
    | cons e P =>
      simp only [List.cons_append, List.cons.injEq] at h
      obtain ⟨rfl, h⟩ := h
      have far : ∀ c, P = (insts b).map .inst ++ c → defLine insts l = c ++ d :: Q →
          (∃ u b' v, b :: l = u ++ b' :: v ∧ d = .merge b' ∧ Def.merge b :: P = defLine insts u) ∨
          ∃ u b' v a i c, b :: l = u ++ b' :: v ∧ insts b' = a ++ i :: c ∧ d = .inst i ∧
            Def.merge b :: P = defLine insts u ++ .merge b' :: a.map .inst := by
        intro c h1 h2
        rcases ih c d Q h2 with ⟨u, b', v, e1, e2, e3⟩ | ⟨u, b', v, a, i, c', e1, e2, e3, e4⟩
        · exact Or.inl ⟨b :: u, b', v, by rw [e1]; rfl, e2, by rw [defLine_cons, h1, e3]⟩
        · exact Or.inr ⟨b :: u, b', v, a, i, c', by rw [e1]; rfl, e2, e3, by rw [defLine_cons, h1, e4]; simp⟩
      rcases List.append_eq_append_iff.1 h with ⟨c, h1, h2⟩ | ⟨c, h1, h2⟩
      · exact far c h1 h2
      · cases c with
        | nil => exact far [] (by rw [List.append_nil] at h1 ⊢; exact h1.symm) h2.symm
        | cons e c =>
          rw [List.cons_append] at h2
          cases h2
          obtain ⟨a, c', e1, e2, e3⟩ := List.map_eq_append_iff.1 h1
          obtain ⟨i, c'', e4, e5, e6⟩ := List.map_eq_cons_iff.1 e3
          exact Or.inr ⟨[], b, l, a, i, c'', rfl, by rw [e1, e4], e5.symm, by rw [← e2]; rfl⟩

end Verif
