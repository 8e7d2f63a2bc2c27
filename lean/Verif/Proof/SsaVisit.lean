import Verif.Proof.SsaParams

/-! # The renaming of one block, wherever it is met -/

namespace Verif

theorem renameNodes_frame {p : SsaProg} {fuel : Nat} (L : List Nat) {s s' : SsaSt}
    (h : L.foldlM (renameNode p fuel) s = pure s') :
    (∀ j, j ∉ (L.flatMap (preorder p.domSucc fuel)).flatMap p.insts → s'.rd j = s.rd j ∧ s'.wr j = s.wr j) ∧
    ∀ b, b ∉ L.flatMap (preorder p.domSucc fuel) → (s'.phis b).map (·.1) = (s.phis b).map (·.1) := by
  refine ⟨fun j hj => ?_, fun b hb => ?_⟩
  · exact run_fold_inv (fun t => t.rd j = s.rd j ∧ t.wr j = s.wr j) _ _ _ (fun c hc a t hI he => by
      have := renameNode_frame fuel c a t he j fun hm => hj (by
        rw [List.mem_flatMap] at hm ⊢
        obtain ⟨m, hm1, hm2⟩ := hm
        exact ⟨m, List.mem_flatMap.2 ⟨c, hc, hm1⟩, hm2⟩)
      exact ⟨this.1.trans hI.1, this.2.trans hI.2⟩) h ⟨rfl, rfl⟩
  · exact run_fold_inv (fun t => (t.phis b).map (·.1) = (s.phis b).map (·.1)) _ _ _ (fun c hc a t hI he =>
      (renameNode_keys fuel c a t he b fun hm => hb (List.mem_flatMap.2 ⟨c, hc, hm⟩)).trans hI) h rfl

/-- The states around the renaming of the merge functions and instructions of a
block. -/
structure BlockVisit (p : SsaProg) (b : Nat) (s s' : SsaSt) (t t1 t2 : SsaSt) : Prop where
  phis : renamePhis t b = pure t1
  insts : (p.insts b).foldlM (renameInst p) t1 = pure t2
  before : ∀ i ∈ p.insts b, t.rd i = s.rd i ∧ t.wr i = s.wr i
  after : ∀ i ∈ p.insts b, s'.rd i = t2.rd i ∧ s'.wr i = t2.wr i
  keys : (t.phis b).map (·.1) = (s.phis b).map (·.1)
  keys' : (s'.phis b).map (·.1) = (t1.phis b).map (·.1)

theorem renameNode_visit {p : SsaProg} (fuel : Nat) : ∀ (n : Nat) (s s' : SsaSt), renameNode p fuel s n = pure s' →
    (preorder p.domSucc fuel n).Nodup → ((preorder p.domSucc fuel n).flatMap p.insts).Nodup →
    ∀ b ∈ preorder p.domSucc fuel n, ∃ t t1 t2, BlockVisit p b s s' t t1 t2 ∧
      ∃ u v, preorder p.domSucc fuel n = u ++ b :: v ∧ ∀ x k, TopIs x k s → TopIs x (k + defCount p s u x) t := by
  induction fuel with
  | zero => intro n s s' h; exact absurd h running_ne
  | succ fuel ih =>
    intro n s s' h hn hni b hb
    obtain ⟨s1, s2, s3, s4, h1, h2, h3, h4, h5⟩ := renameNode_inv h
    rw [preorder, List.nodup_cons] at hn
    rw [preorder, List.flatMap_cons, List.nodup_append] at hni
    obtain ⟨r1, w1⟩ := renamePhis_inv h1
    have q2 := renameInsts_phis h2
    obtain ⟨_, _, r3, w3, k3⟩ := appends_inv h3
    obtain ⟨_, q5, r5, w5⟩ := roll_inv h5
    rcases List.mem_cons.1 hb with rfl | hb
    · obtain ⟨f1, f2⟩ := renameNodes_frame _ h4
      refine ⟨s, s1, s2, ⟨h1, h2, fun _ _ => ⟨rfl, rfl⟩, fun i hi => ?_, rfl, ?_⟩, [], _, rfl, fun _ _ hk => hk⟩
      · have := f1 i fun hm => hni.2.2 i hi i hm rfl
        rw [r5, w5, this.1, this.2, r3, w3]
        exact ⟨rfl, rfl⟩
      · rw [q5, f2 b hn.1, k3, q2]
    · -- the blocks dominated, one after the other
      have rest : ∀ (L : List Nat) (t t' : SsaSt), L.foldlM (renameNode p fuel) t = pure t' →
          (L.flatMap (preorder p.domSucc fuel)).Nodup →
          ((L.flatMap (preorder p.domSucc fuel)).flatMap p.insts).Nodup →
          b ∈ L.flatMap (preorder p.domSucc fuel) → ∃ u u1 u2, BlockVisit p b t t' u u1 u2 ∧
          ∃ v w, L.flatMap (preorder p.domSucc fuel) = v ++ b :: w ∧
            ∀ x k, TopIs x k t → TopIs x (k + defCount p t v x) u := by
        intro L
        induction L with
        | nil => intro _ _ _ _ _ hm; simp at hm
        | cons d L ihL =>
          intro t t' ht g1 g2 g3
          rw [List.foldlM_cons] at ht
          obtain ⟨m, ht1, ht2⟩ := run_bind_inv ht
          rw [List.flatMap_cons, List.nodup_append] at g1
          rw [List.flatMap_cons, List.flatMap_append, List.nodup_append] at g2
          rw [List.flatMap_cons, List.mem_append] at g3
          rcases g3 with g3 | g3
          · obtain ⟨u, u1, u2, V, v, w, hv, hT⟩ := ih d t m ht1 g1.1 g2.1 b g3
            obtain ⟨f1, f2⟩ := renameNodes_frame _ ht2
            refine ⟨u, u1, u2, ⟨V.phis, V.insts, V.before, fun i hi => ?_, V.keys, ?_⟩, v, _,
              by rw [List.flatMap_cons, hv, List.append_assoc]; rfl, hT⟩
            · have := f1 i fun hm => g2.2.2 i (List.mem_flatMap.2 ⟨b, g3, hi⟩) i hm rfl
              rw [this.1, this.2]
              exact V.after i hi
            · rw [f2 b fun hm => g1.2.2 b g3 b hm rfl]
              exact V.keys'
          · obtain ⟨u, u1, u2, V, v, w, hv, hT⟩ := ihL m t' ht2 g1.2.1 g2.2.1 g3
            refine ⟨u, u1, u2, ⟨V.phis, V.insts, fun i hi => ?_, V.after, ?_, V.keys'⟩, preorder p.domSucc fuel d ++ v, w,
              by rw [List.flatMap_cons, hv, List.append_assoc], fun x k hk => ?_⟩
            · have := renameNode_frame fuel d t m ht1 i fun hm =>
                g2.2.2 i hm i (List.mem_flatMap.2 ⟨b, g3, hi⟩) rfl
              rw [← this.1, ← this.2]
              exact V.before i hi
            · rw [← renameNode_keys fuel d t m ht1 b fun hm => g1.2.2 b hm b g3 rfl]
              exact V.keys
            · obtain ⟨k1, k2⟩ := renameNode_top fuel d k t m hk ht1
              have := hT x _ k1
              rw [defCount_congr k2, Nat.add_assoc, ← defCount_append] at this
              exact this
      obtain ⟨u, u1, u2, V, v, w, hv, hT⟩ := rest _ s3 s4 h4 hn.2 hni.2.1 hb
      have hbn : b ≠ n := by
        rintro rfl
        exact hn.1 hb
      have Vp : s1.phis b = s.phis b := by
        unfold renamePhis at h1
        obtain ⟨acc, g1, g2⟩ := run_bind_inv h1
        have := run_pure_inj g2
        subst this
        have I : NewDict s acc := run_fold_inv (NewDict s) _ _ _ (fun e _ a b hI he => renamePhi_new hI he) g1
          ⟨Grown.refl s, by simp, by simp⟩
        show put acc.1.phis n acc.2 b = _
        rw [put_ne _ _ _ hbn, I.grown.phis]
      have hother : ∀ i ∈ p.insts b, s2.rd i = s1.rd i ∧ s2.wr i = s1.wr i := by
        intro i hi
        have hin : i ∉ p.insts n := fun hm => hni.2.2 i hm i (List.mem_flatMap.2 ⟨b, hb, hi⟩) rfl
        exact renameInsts_frame h2 hin
      refine ⟨u, u1, u2, ⟨V.phis, V.insts, fun i hi => ?_, fun i hi => ?_, ?_, ?_⟩, n :: v, w,
        by rw [preorder, hv]; rfl, fun x k hk => ?_⟩
      · have a := V.before i hi
        have c := hother i hi
        rw [a.1, a.2, r3, w3, c.1, c.2, r1, w1]
        exact ⟨rfl, rfl⟩
      · rw [r5, w5]
        exact V.after i hi
      · rw [V.keys, k3, q2, Vp]
      · rw [q5]
        exact V.keys'
      · obtain ⟨t1, v1⟩ := renamePhis_vars hk h1
        obtain ⟨t2, _, _⟩ := renameInsts_named _ t1 h2
        have t3 : TopIs x (k + (phiVars s n).count x + wcount p (p.insts n) x) s3 := by
          obtain ⟨c3, st3, _, _, _⟩ := appends_inv h3
          exact ⟨c3 ▸ t2.1, st3 ▸ t2.2⟩
        have v3 : ∀ b, phiVars s3 b = phiVars s b := fun b => by
          rw [phiVars_of_keys k3, phiVars_of_keys (s := s1) (fun c => by rw [q2]), v1]
        have := hT x _ t3
        rw [defCount_congr v3] at this
        rw [defCount_cons]
        have e : k + ((phiVars s n).count x + wcount p (p.insts n) x + defCount p s v x) =
          k + (phiVars s n).count x + wcount p (p.insts n) x + defCount p s v x := by omega
        rw [e]
        exact this

/-! ### Definitions inside the block -/

/-- After its merge functions have been renamed, the name of the merge function of a
register is on top. -/
theorem renamePhis_merge_top {x b : Nat} {t t1 : SsaSt} (h : renamePhis t b = pure t1)
    (hx : x ∈ (t.phis b).map (·.1.1)) : ∃ k, TopIs x k t1 ∧ (x, k) ∈ (t1.phis b).map (·.1) := by
  unfold renamePhis at h
  obtain ⟨acc, h1, h2⟩ := run_bind_inv h
  have := run_pure_inj h2
  subst this
  have I := run_fold_pre (fun done acc => x ∈ done.map (·.1.1) → ∃ k, TopIs x k acc.1 ∧ (x, k) ∈ acc.2.map (·.1))
      (t.phis b) [] (t, []) acc
      (by
        rintro pre e post a b I he _ hm
        unfold renamePhi at he
        obtain ⟨⟨nm, s1⟩, g1, g2⟩ := run_bind_inv he
        have := run_pure_inj g2
        subst this
        obtain ⟨_, rfl, rfl⟩ := newName_inv g1
        have hmem : ∀ nm, nm ∈ (dictSet a.2 (e.1.1, a.1.counter e.1.1 + 1) e.2).map (·.1) ↔
            nm ∈ a.2.map (·.1) ∨ nm = (e.1.1, a.1.counter e.1.1 + 1) := by
          intro nm
          rw [keys_dictSet]
          split
          · rename_i hin
            constructor
            · exact Or.inl
            · rintro (h | rfl)
              · exact h
              · exact hin
          · rw [List.mem_append, List.mem_singleton]
        by_cases he : e.1.1 = x
        · refine ⟨a.1.counter e.1.1 + 1, ⟨?_, fun t l hl => ?_⟩, (hmem _).2 (Or.inr (by rw [he]))⟩
          · show put a.1.counter e.1.1 (a.1.counter e.1.1 + 1) x = _
            rw [he, put_same]
          · have hl : put a.1.stack e.1.1 ((a.1.counter e.1.1 + 1) :: a.1.stack e.1.1) x = t :: l := hl
            rw [he, put_same] at hl
            rw [← (List.cons.inj hl).1, he]
        · have hm' : x ∈ pre.map (·.1.1) := by
            rw [List.map_append, List.mem_append] at hm
            rcases hm with hm | hm
            · exact hm
            · simp [Ne.symm he] at hm
          obtain ⟨k, ⟨i1, i2⟩, i3⟩ := I hm'
          refine ⟨k, ⟨?_, fun t l hl => ?_⟩, (hmem _).2 (Or.inl i3)⟩
          · show put a.1.counter e.1.1 (a.1.counter e.1.1 + 1) x = _
            rw [put_ne _ _ _ (Ne.symm he), i1]
          · have hl : put a.1.stack e.1.1 ((a.1.counter e.1.1 + 1) :: a.1.stack e.1.1) x = t :: l := hl
            rw [put_ne _ _ _ (Ne.symm he)] at hl
            exact i2 t l hl)
      h1 (by simp)
  rw [List.nil_append] at I
  obtain ⟨k, i1, i2⟩ := I hx
  refine ⟨k, i1, ?_⟩
  show _ ∈ (put acc.1.phis b acc.2 b).map (·.1)
  rw [put_same]
  exact i2

/-- After an instruction that writes a register, the last name it gave to it is on
top. -/
theorem renameInst_top {p : SsaProg} {x j : Nat} {s s' : SsaSt} (h : renameInst p s j = pure s')
    (hx : x ∈ (p.acc j).writes) : ∃ k, TopIs x k s' ∧ (only x (s'.wr j)).getLast? = some (x, k) := by
  unfold renameInst at h
  obtain ⟨s1, _, h2⟩ := run_bind_inv h
  have I := run_fold_pre (fun done t => x ∈ done → ∃ k, TopIs x k t ∧ (only x (t.wr j)).getLast? = some (x, k))
      (p.acc j).writes [] s1 s'
      (by
        rintro pre w post a b I he _ hm
        unfold renameWrite at he
        obtain ⟨⟨nm, t⟩, g1, g2⟩ := run_bind_inv he
        have := run_pure_inj g2
        subst this
        obtain ⟨_, rfl, rfl⟩ := newName_inv g1
        by_cases hw : w = x
        · subst hw
          refine ⟨a.counter w + 1, ⟨?_, fun t l hl => ?_⟩, ?_⟩
          · show put a.counter w (a.counter w + 1) w = _
            rw [put_same]
          · have hl : put a.stack w ((a.counter w + 1) :: a.stack w) w = t :: l := hl
            rw [put_same] at hl
            exact (List.cons.inj hl).1.symm
          · show (only w (put a.wr j (a.wr j ++ [(w, a.counter w + 1)]) j)).getLast? = _
            rw [put_same, only_append, only_same]
            simp
        · have hm' : x ∈ pre := by
            rcases List.mem_append.1 hm with hm | hm
            · exact hm
            · exact absurd (List.mem_singleton.1 hm).symm hw
          obtain ⟨k, ⟨i1, i2⟩, i3⟩ := I hm'
          refine ⟨k, ⟨?_, fun t l hl => ?_⟩, ?_⟩
          · show put a.counter w (a.counter w + 1) x = _
            rw [put_ne _ _ _ (Ne.symm hw), i1]
          · have hl : put a.stack w ((a.counter w + 1) :: a.stack w) x = t :: l := hl
            rw [put_ne _ _ _ (Ne.symm hw)] at hl
            exact i2 t l hl
          · show (only x (put a.wr j (a.wr j ++ [(w, a.counter w + 1)]) j)).getLast? = _
            rw [put_same, only_append, only_other hw, List.append_nil, i3])
      h2 (by simp)
  rw [List.nil_append] at I
  exact I hx

/-- The registers of the merge functions are distinct when their names are and have
index 0. -/
theorem regs_nodup {l : List (Name × List Name)} (h0 : ∀ e ∈ l, e.1.2 = 0) (hk : (l.map (·.1)).Nodup) :
    (l.map (·.1.1)).Nodup := by
  have e : l.map (·.1) = (l.map (·.1.1)).map fun v => (v, 0) := by
    rw [List.map_map]
    apply List.map_congr_left
    intro e he
    show e.1 = (e.1.1, 0)
    rw [← h0 e he]
  rw [e] at hk
  exact hk.of_map _

/-- The merge function of a register in a block visited is on top after the merge
functions. -/
theorem visit_merge {p : SsaProg} {b : Nat} {s s' t t1 t2 : SsaSt} (V : BlockVisit p b s s' t t1 t2)
    (h0 : ∀ b, ∀ e ∈ s.phis b, e.1.2 = 0) (hk : ∀ b, ((s.phis b).map (·.1)).Nodup) {x k : Nat}
    (hm : (x, k) ∈ (s'.phis b).map (·.1)) : ∃ k', TopIs x k' t1 ∧ k = k' := by
  have hkey : ∀ d : List (Name × List Name), d.map (·.1.1) = (d.map (·.1)).map (·.1) := fun d => by simp
  have hreg : (t1.phis b).map (·.1.1) = (s.phis b).map (·.1.1) := by
    have := congrArg (List.map Prod.fst) (renamePhis_bare V.phis b)
    simp only [bareMerges, List.map_map] at this
    have h : (t1.phis b).map (·.1.1) = (t.phis b).map (·.1.1) := this
    rw [h, hkey, V.keys, ← hkey]
  rw [V.keys'] at hm
  have hx : x ∈ (t.phis b).map (·.1.1) := by
    have : x ∈ (t1.phis b).map (·.1.1) := by
      rw [hkey]
      exact List.mem_map.2 ⟨(x, k), hm, rfl⟩
    rw [hreg, hkey, ← V.keys, ← hkey] at this
    exact this
  obtain ⟨k', k1, k2⟩ := renamePhis_merge_top V.phis hx
  refine ⟨k', k1, ?_⟩
  have hnd : ((t1.phis b).map (·.1.1)).Nodup := by
    rw [hreg]
    exact regs_nodup (h0 b) (hk b)
  rw [hkey] at hnd
  have := List.inj_on_of_nodup_map hnd hm k2 rfl
  exact congrArg Prod.snd this

theorem wcount_zero {p : SsaProg} {L : List Nat} {x : Nat} (h : ∀ m ∈ L, x ∉ (p.acc m).writes) : wcount p L x = 0 := by
  unfold wcount
  rw [List.count_eq_zero]
  intro hm
  obtain ⟨m, h1, h2⟩ := List.mem_flatMap.1 hm
  exact h m h1 h2

/-- A read after a write in the block. -/
theorem BlockVisit.read_write {p : SsaProg} {b : Nat} {s s' t t1 t2 : SsaSt} (V : BlockVisit p b s s' t t1 t2)
    (hn : (p.insts b).Nodup) {x j i : Nat} {u c d : List Nat} (hi : p.insts b = u ++ j :: c ++ i :: d)
    (hj : x ∈ (p.acc j).writes) (hc : ∀ m ∈ c, x ∉ (p.acc m).writes) (hr : x ∈ (p.acc i).reads) (h0 : only x (s.rd i) = []) :
    ∃ k, only x (s'.rd i) = [(x, k)] ∧ (only x (s'.wr j)).getLast? = some (x, k) := by
  have h := V.insts
  have hib : i ∈ p.insts b := by rw [hi]; simp
  have hjb : j ∈ p.insts b := by rw [hi]; simp
  have hs : u ++ j :: c ++ i :: d = u ++ (j :: (c ++ i :: d)) := by simp
  rw [hi, hs] at h
  rw [List.foldlM_append] at h
  obtain ⟨a1, g1, g2⟩ := run_bind_inv h
  rw [List.foldlM_cons] at g2
  obtain ⟨a2, g2, g3⟩ := run_bind_inv g2
  obtain ⟨k, k1, k2⟩ := renameInst_top g2 hj
  obtain ⟨_, n1, _⟩ := renameInsts_named _ k1 g3
  rw [hi, hs, List.nodup_append, List.nodup_cons] at hn
  obtain ⟨_, ⟨n3, n4⟩, n5⟩ := hn
  have hi1 : i ∉ u := fun hm => n5 i hm i (by simp) rfl
  have hij : i ≠ j := by
    rintro rfl
    exact n3 (by simp)
  have e1 := (renameInsts_frame g1 hi1).1
  have e2 : a2.rd i = a1.rd i := by
    have g2' : [j].foldlM (renameInst p) a1 = pure a2 := by
      rw [List.foldlM_cons, g2]
      rfl
    exact (renameInsts_frame g2' (by simpa using hij)).1
  obtain ⟨r1, _⟩ := renamePhis_inv V.phis
  refine ⟨k, ?_, ?_⟩
  · rw [(V.after i hib).1]
    have := n1.reads n4 c i d rfl (by rw [e2, e1, r1, (V.before i hib).1]; exact h0)
    rw [if_pos hr, wcount_zero hc] at this
    exact this
  · rw [(V.after j hjb).2, (renameInsts_frame g3 n3).2]
    exact k2

/-- A read of a register with a merge function, before any write in the block. -/
theorem BlockVisit.read_merge {p : SsaProg} {b : Nat} {s s' t t1 t2 : SsaSt} (V : BlockVisit p b s s' t t1 t2)
    (hn : (p.insts b).Nodup) {x k i : Nat} {c d : List Nat} (hi : p.insts b = c ++ i :: d)
    (hk : TopIs x k t1) (hc : ∀ m ∈ c, x ∉ (p.acc m).writes) (h0 : only x (s.rd i) = []) :
    only x (s'.rd i) = if x ∈ (p.acc i).reads then [(x, k)] else [] := by
  have hib : i ∈ p.insts b := by rw [hi]; simp
  obtain ⟨_, n1, _⟩ := renameInsts_named _ hk V.insts
  obtain ⟨r1, _⟩ := renamePhis_inv V.phis
  rw [(V.after i hib).1]
  have := n1.reads hn c i d hi (by rw [r1, (V.before i hib).1]; exact h0)
  rw [wcount_zero hc] at this
  exact this

theorem first_split {α : Type} (P : α → Prop) (L : List α) (h : ∃ m ∈ L, P m) :
    ∃ a m c, L = a ++ m :: c ∧ P m ∧ ∀ j ∈ a, ¬ P j := by
  classical
  induction L with
  | nil => obtain ⟨m, hm, _⟩ := h; cases hm
  | cons y L ih =>
    by_cases hy : P y
    · exact ⟨[], y, L, rfl, hy, by simp⟩
    · obtain ⟨m, hm, hP⟩ := h
      rcases List.mem_cons.1 hm with rfl | hm
      · exact absurd hP hy
      · obtain ⟨a, m', c, e1, e2, e3⟩ := ih ⟨m, hm, hP⟩
        refine ⟨y :: a, m', c, by rw [e1]; rfl, e2, fun j hj => ?_⟩
        rcases List.mem_cons.1 hj with rfl | hj
        · exact hy
        · exact e3 j hj

/-- A merge function is dead exactly when the block writes its register before
reading it. -/
theorem BlockVisit.dead {p : SsaProg} {b : Nat} {s s' t t1 t2 : SsaSt} (V : BlockVisit p b s s' t t1 t2)
    (hn : (p.insts b).Nodup) {x k : Nat} (hk : TopIs x k t1) (hr0 : ∀ i, s.rd i = []) (hw0 : ∀ i, s.wr i = []) :
    (∃ u i v, p.insts b = u ++ i :: v ∧ (∀ j ∈ u, (x, k) ∉ s'.rd j) ∧ (x, k) ∉ s'.rd i ∧
      ∃ w ∈ s'.wr i, w.1 = x ∧ k < w.2) ↔
    ∃ u i v, p.insts b = u ++ i :: v ∧ x ∈ (p.acc i).writes ∧ ∀ j ∈ u ++ [i], x ∉ (p.acc j).reads := by
  obtain ⟨_, n1, _⟩ := renameInsts_named _ hk V.insts
  obtain ⟨r1, w1⟩ := renamePhis_inv V.phis
  have hR : ∀ c i d, p.insts b = c ++ i :: d →
      only x (s'.rd i) = if x ∈ (p.acc i).reads then [(x, k + wcount p c x)] else [] := by
    intro c i d hi
    have hib : i ∈ p.insts b := by rw [hi]; simp
    rw [(V.after i hib).1]
    exact n1.reads hn c i d hi (by rw [r1, (V.before i hib).1, hr0]; rfl)
  have hW : ∀ c i d, p.insts b = c ++ i :: d →
      only x (s'.wr i) = freshNames x (k + wcount p c x) ((p.acc i).writes.count x) := by
    intro c i d hi
    have hib : i ∈ p.insts b := by rw [hi]; simp
    rw [(V.after i hib).2]
    exact n1.writes hn c i d hi (by rw [w1, (V.before i hib).2, hw0]; rfl)
  constructor
  · rintro ⟨u, i, v, hi, h1, h2, w, hw, hwx, _⟩
    have hwr : x ∈ (p.acc i).writes := by
      have : w ∈ only x (s'.wr i) := List.mem_filter.2 ⟨hw, by simpa using hwx⟩
      rw [hW u i v hi] at this
      by_contra hnot
      rw [List.count_eq_zero.2 hnot] at this
      simp [freshNames] at this
    obtain ⟨a, m, c, e1, e2, e3⟩ := first_split (fun m => x ∈ (p.acc m).writes) (u ++ [i]) ⟨i, by simp, hwr⟩
    have hall : ∀ j ∈ u ++ [i], (x, k) ∉ s'.rd j := by
      intro j hj
      rcases List.mem_append.1 hj with hj | hj
      · exact h1 j hj
      · rw [List.mem_singleton.1 hj]
        exact h2
    have hb : p.insts b = a ++ m :: (c ++ v) := by
      have : p.insts b = (u ++ [i]) ++ v := by rw [hi]; simp
      rw [this, e1]
      simp
    refine ⟨a, m, c ++ v, hb, e2, fun j hj hjr => ?_⟩
    have hju : j ∈ u ++ [i] := by
      rw [e1]
      rcases List.mem_append.1 hj with hj | hj
      · exact List.mem_append_left _ hj
      · rw [List.mem_singleton.1 hj]
        simp
    obtain ⟨a1, a2, hsplit, ha⟩ : ∃ a1 a2, p.insts b = a1 ++ j :: a2 ∧ ∀ q ∈ a1, x ∉ (p.acc q).writes := by
      rcases List.mem_append.1 hj with hj | hj
      · obtain ⟨a1, a2, ha⟩ := List.append_of_mem hj
        refine ⟨a1, a2 ++ m :: (c ++ v), by rw [hb, ha]; simp, fun q hq => e3 q (by rw [ha]; simp [hq])⟩
      · rw [List.mem_singleton.1 hj]
        exact ⟨a, c ++ v, hb, e3⟩
    have := hR a1 j a2 hsplit
    rw [if_pos hjr, wcount_zero ha] at this
    have hm : (x, k) ∈ only x (s'.rd j) := by rw [this]; simp
    exact hall j hju (List.mem_filter.1 hm).1
  · rintro ⟨u, i, v, hi, h1, h2⟩
    have hnr : ∀ c j d, p.insts b = c ++ j :: d → x ∉ (p.acc j).reads → (x, k) ∉ s'.rd j := by
      intro c j d hj hx hm
      have hm : (x, k) ∈ only x (s'.rd j) := List.mem_filter.2 ⟨hm, by simp⟩
      rw [hR c j d hj, if_neg hx] at hm
      cases hm
    refine ⟨u, i, v, hi, fun j hj => ?_, hnr u i v hi (h2 i (by simp)), ?_⟩
    · obtain ⟨a1, a2, ha⟩ := List.append_of_mem hj
      exact hnr a1 j (a2 ++ i :: v) (by rw [hi, ha]; simp) (h2 j (by simp [hj]))
    · have hc : 0 < (p.acc i).writes.count x := List.count_pos_iff.2 h1
      refine ⟨(x, k + wcount p u x + 0 + 1), ?_, rfl, by simp only; omega⟩
      have : (x, k + wcount p u x + 0 + 1) ∈ only x (s'.wr i) := by
        rw [hW u i v hi]
        exact List.mem_map.2 ⟨0, List.mem_range.2 hc, rfl⟩
      exact (List.mem_filter.1 this).1

/-! ### Along the walk -/

theorem walk_unique {l u u' v v' : List Nat} {b : Nat} (hn : l.Nodup) (h : l = u ++ b :: v) (h' : l = u' ++ b :: v') :
    u = u' ∧ v = v' := by
  induction u generalizing l u' with
  | nil =>
    cases u' with
    | nil => rw [h] at h'; cases h'; exact ⟨rfl, rfl⟩
    | cons c u' =>
      rw [h] at h'
      cases h'
      rw [h] at hn
      simp at hn
  | cons a u ih =>
    cases u' with
    | nil =>
      rw [h] at h'
      cases h'
      rw [h] at hn
      simp at hn
    | cons c u' =>
      rw [h] at h' hn
      obtain ⟨e1, e2⟩ := List.cons.inj h'
      rw [List.cons_append, List.nodup_cons] at hn
      obtain ⟨e3, e4⟩ := ih hn.2 rfl e2
      exact ⟨by rw [e1, e3], e4⟩

/-- What the instructions of a block are given: the indices counted along the walk. -/
theorem renameNode_walk {p : SsaProg} {x : Nat} {fuel n k : Nat} {s s' : SsaSt} (ht : TopIs x k s)
    (h : renameNode p fuel s n = pure s') (hn : (preorder p.domSucc fuel n).Nodup)
    (hni : ((preorder p.domSucc fuel n).flatMap p.insts).Nodup) {u v a c : List Nat} {b i : Nat}
    (hl : preorder p.domSucc fuel n = u ++ b :: v) (ha : p.insts b = a ++ i :: c)
    (hr : only x (s.rd i) = []) (hw : only x (s.wr i) = []) :
    only x (s'.rd i) = (if x ∈ (p.acc i).reads
      then [(x, k + defCount p s u x + (phiVars s b).count x + wcount p a x)] else []) ∧
    only x (s'.wr i) = freshNames x (k + defCount p s u x + (phiVars s b).count x + wcount p a x)
      ((p.acc i).writes.count x) := by
  obtain ⟨t, t1, t2, V, u', v', hl', hT⟩ := renameNode_visit fuel n s s' h hn hni b (by rw [hl]; simp)
  obtain ⟨rfl, rfl⟩ := walk_unique hn hl hl'
  have hkey : phiVars t b = phiVars s b := by
    have : ∀ d : List (Name × List Name), d.map (·.1.1) = (d.map (·.1)).map (·.1) := fun d => by simp
    unfold phiVars
    rw [this, V.keys, ← this]
  obtain ⟨T1, _⟩ := renamePhis_vars (hT x k ht) V.phis
  obtain ⟨r1, w1⟩ := renamePhis_inv V.phis
  obtain ⟨_, N, _⟩ := renameInsts_named _ T1 V.insts
  have hib : i ∈ p.insts b := by rw [ha]; simp
  have hnb : (p.insts b).Nodup := by
    rw [hl, List.flatMap_append, List.flatMap_cons, List.nodup_append, List.nodup_append] at hni
    exact hni.2.1.1
  rw [(V.after i hib).1, (V.after i hib).2, ← hkey]
  exact ⟨N.reads hnb a i c ha (by rw [r1, (V.before i hib).1]; exact hr),
    N.writes hnb a i c ha (by rw [w1, (V.before i hib).2]; exact hw)⟩

/-- What the merge functions of a block are given. -/
theorem renameNode_walkPhi {p : SsaProg} {x : Nat} {fuel n k : Nat} {s s' : SsaSt} (ht : TopIs x k s)
    (h : renameNode p fuel s n = pure s') (hn : (preorder p.domSucc fuel n).Nodup)
    (hni : ((preorder p.domSucc fuel n).flatMap p.insts).Nodup) {u v : List Nat} {b : Nat}
    (hl : preorder p.domSucc fuel n = u ++ b :: v) : ∀ m, m < (phiVars s b).count x →
      (x, k + defCount p s u x + m + 1) ∈ (s'.phis b).map (·.1) := by
  obtain ⟨t, t1, t2, V, u', v', hl', hT⟩ := renameNode_visit fuel n s s' h hn hni b (by rw [hl]; simp)
  obtain ⟨rfl, rfl⟩ := walk_unique hn hl hl'
  have hkey : phiVars t b = phiVars s b := by
    have : ∀ d : List (Name × List Name), d.map (·.1.1) = (d.map (·.1)).map (·.1) := fun d => by simp
    unfold phiVars
    rw [this, V.keys, ← this]
  intro m hm
  rw [V.keys']
  exact renamePhis_names (hT x k ht) V.phis m (by rw [hkey]; exact hm)

/-! ### Walks -/

open Spec (Walk Leftmost)

theorem Spec.Walk.append {domSucc : Nat → List Nat} {a l : List Nat} (h : Walk domSucc a l) {b m : List Nat}
    (h' : Walk domSucc b m) : Walk domSucc (a ++ b) (l ++ m) := by
  induction h with
  | nil => exact h'
  | cons h1 h2 ih1 ih2 =>
    have := Walk.cons h1 ih2
    rw [← List.append_assoc] at this
    exact this

theorem Spec.Walk.unique {domSucc : Nat → List Nat} {a l : List Nat} (h : Walk domSucc a l) :
    ∀ {l'}, Walk domSucc a l' → l = l' := by
  induction h with
  | nil => intro l' h'; cases h'; rfl
  | cons _ _ ih1 ih2 =>
    intro l' h'
    cases h' with
    | cons g1 g2 => rw [ih1 g1, ih2 g2]

/-- A renaming that has ended has walked through the blocks below. -/
theorem renameNode_isWalk {p : SsaProg} (fuel : Nat) : ∀ (n : Nat) (s s' : SsaSt), renameNode p fuel s n = pure s' →
    Walk p.domSucc [n] (preorder p.domSucc fuel n) := by
  induction fuel with
  | zero => intro n s s' h; exact absurd h running_ne
  | succ fuel ih =>
    intro n s s' h
    obtain ⟨s1, s2, s3, s4, h1, h2, h3, h4, h5⟩ := renameNode_inv h
    have I := run_fold_pre (fun done _ => Walk p.domSucc done (done.flatMap (preorder p.domSucc fuel)))
      (p.domSucc n) [] s3 s4 (by
        rintro pre c post a b I0 he _
        rw [List.flatMap_append, List.flatMap_singleton]
        exact I0.append (ih c a b he)) h4 .nil
    rw [List.nil_append] at I
    have := Walk.cons I .nil
    rw [List.append_nil] at this
    exact this

/-- The way of first branches begins the walk. -/
theorem Spec.Leftmost.walk {domSucc : Nat → List Nat} {n : Nat} {l : List Nat} (h : Leftmost domSucc n l) :
    ∀ {ns w}, Walk domSucc (n :: ns) w → ∃ r, w = l ++ r := by
  induction h with
  | leaf hd =>
    intro ns w hw
    cases hw with
    | cons h1 h2 => exact ⟨_, rfl⟩
  | step hd _ ih =>
    intro ns w hw
    cases hw with
    | cons h1 h2 =>
      rw [hd] at h1
      obtain ⟨r, rfl⟩ := ih h1
      exact ⟨_, by rw [List.append_assoc]; rfl⟩

end Verif
