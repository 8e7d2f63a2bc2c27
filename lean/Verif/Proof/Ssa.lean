import Verif.Model.Ssa
import Verif.Proof.Run
import Verif.Proof.Metadata

/-! # Renaming -/

namespace Verif

/-- Where a name is given: the `k`-th write of an instruction or a merge function of
a block. -/
inductive DefSite
  | inst (i k : Nat)
  | phi (b : Nat)

/-- The name is given there. -/
def Gives (s : SsaSt) : DefSite → Name → Prop
  | .inst i k, nm => (s.wr i)[k]? = some nm
  | .phi b, nm => nm ∈ (s.phis b).map (·.1)

/-- Every index is given once. -/
structure Once (s : SsaSt) : Prop where
  bound : ∀ l nm, Gives s l nm → nm.2 ≤ s.counter nm.1
  once : ∀ nm l l', nm.2 ≠ 0 → Gives s l nm → Gives s l' nm → l = l'
  keys : ∀ b, ((s.phis b).map (·.1)).Nodup
  pos : ∀ i, ∀ nm ∈ s.wr i, nm.2 ≠ 0

theorem newName_inv {s s' : SsaSt} {var : Nat} {nm : Name} (h : newName s var = pure (nm, s')) :
    var < ssaStorages ∧ nm = (var, s.counter var + 1) ∧
    s' = { s with
        stack := put s.stack var ((s.counter var + 1) :: s.stack var),
        counter := put s.counter var (s.counter var + 1) } := by
  unfold newName at h
  split at h
  · rename_i hv
    have := run_pure_inj h
    cases this
    exact ⟨hv, rfl, rfl⟩
  · exact absurd h raiseRun_ne

theorem stackPop_inv {s s' : SsaSt} {var : Nat} (h : stackPop s var = pure s') :
    s' = { s with stack := put s.stack var (s.stack var).dropLast } := by
  unfold stackPop at h
  split at h
  · split at h
    · exact absurd h raiseRun_ne
    · exact (run_pure_inj h).symm
  · exact absurd h raiseRun_ne

/-- Only the stacks and the counters are different, and no counter is lower. -/
structure Grown (s s' : SsaSt) : Prop where
  phis : s'.phis = s.phis
  rd : s'.rd = s.rd
  wr : s'.wr = s.wr
  counter : ∀ x, s.counter x ≤ s'.counter x

theorem Grown.refl (s : SsaSt) : Grown s s := ⟨rfl, rfl, rfl, fun _ => Nat.le_refl _⟩

theorem put_counter_le (f : Nat → Nat) (v x : Nat) : f x ≤ put f v (f v + 1) x := by
  by_cases h : x = v
  · subst h
    rw [put_same]
    omega
  · rw [put_ne _ _ _ h]

theorem newName_grown {s s' : SsaSt} {var : Nat} {nm : Name} (h : newName s var = pure (nm, s')) : Grown s s' := by
  obtain ⟨_, _, rfl⟩ := newName_inv h
  exact ⟨rfl, rfl, rfl, put_counter_le _ _⟩

/-- The names given to the merge functions of a block are new. -/
structure NewDict (s0 : SsaSt) (acc : SsaSt × List (Name × List Name)) : Prop where
  grown : Grown s0 acc.1
  keys : (acc.2.map (·.1)).Nodup
  fresh : ∀ nm ∈ acc.2.map (·.1), s0.counter nm.1 < nm.2 ∧ nm.2 ≤ acc.1.counter nm.1

theorem renamePhi_new {s0 : SsaSt} {acc acc' : SsaSt × List (Name × List Name)} {e : Name × List Name}
    (I : NewDict s0 acc) (h : renamePhi acc e = pure acc') : NewDict s0 acc' := by
  unfold renamePhi at h
  obtain ⟨⟨nm, s1⟩, h1, h2⟩ := run_bind_inv h
  have := run_pure_inj h2
  subst this
  obtain ⟨_, rfl, rfl⟩ := newName_inv h1
  refine ⟨⟨I.grown.phis, I.grown.rd, I.grown.wr,
    fun x => Nat.le_trans (I.grown.counter x) (put_counter_le _ _ _)⟩, keys_dictSet_nodup _ _ _ I.keys, ?_⟩
  intro k hk
  have hk : k ∈ (dictSet acc.2 (e.1.1, acc.1.counter e.1.1 + 1) e.2).map (·.1) := hk
  rw [keys_dictSet] at hk
  have hk' : k ∈ acc.2.map (·.1) ∨ k = (e.1.1, acc.1.counter e.1.1 + 1) := by
    split at hk
    · exact Or.inl hk
    · rcases List.mem_append.1 hk with h | h
      · exact Or.inl h
      · exact Or.inr (List.mem_singleton.1 h)
  show s0.counter k.1 < k.2 ∧ k.2 ≤ put acc.1.counter e.1.1 (acc.1.counter e.1.1 + 1) k.1
  rcases hk' with h | rfl
  · have := I.fresh k h
    exact ⟨this.1, Nat.le_trans this.2 (put_counter_le _ _ _)⟩
  · have := I.grown.counter e.1.1
    show s0.counter e.1.1 < acc.1.counter e.1.1 + 1 ∧
      acc.1.counter e.1.1 + 1 ≤ put acc.1.counter e.1.1 (acc.1.counter e.1.1 + 1) e.1.1
    rw [put_same]
    omega

theorem renamePhis_once {s s' : SsaSt} {n : Nat} (I : Once s) (h : renamePhis s n = pure s') : Once s' := by
  unfold renamePhis at h
  obtain ⟨acc, h1, h2⟩ := run_bind_inv h
  have := run_pure_inj h2
  subst this
  have N : NewDict s acc := run_fold_inv (NewDict s) _ _ _ (fun _ _ _ _ hI he => renamePhi_new hI he) h1
    ⟨.refl s, by simp, by simp⟩
  have hphi : ∀ b, b ≠ n → (put acc.1.phis n acc.2) b = s.phis b := by
    intro b hb
    rw [put_ne _ _ _ hb, N.grown.phis]
  have hcase : ∀ l nm, Gives { acc.1 with phis := put acc.1.phis n acc.2 } l nm →
      (Gives s l nm ∧ l ≠ .phi n) ∨ (l = .phi n ∧ nm ∈ acc.2.map (·.1)) := by
    intro l nm hg
    cases l with
    | inst i k =>
      left
      refine ⟨?_, by simp⟩
      have hg : (acc.1.wr i)[k]? = some nm := hg
      rw [N.grown.wr] at hg
      exact hg
    | phi b =>
      by_cases hb : b = n
      · subst hb
        right
        have hg : nm ∈ (put acc.1.phis b acc.2 b).map (·.1) := hg
        rw [put_same] at hg
        exact ⟨rfl, hg⟩
      · left
        have hg : nm ∈ (put acc.1.phis n acc.2 b).map (·.1) := hg
        rw [hphi b hb] at hg
        exact ⟨hg, fun h => hb (by cases h; rfl)⟩
  refine ⟨?_, ?_, ?_, ?_⟩
  · intro l nm hg
    rcases hcase l nm hg with ⟨h, _⟩ | ⟨_, h⟩
    · exact Nat.le_trans (I.bound l nm h) (N.grown.counter _)
    · exact (N.fresh nm h).2
  · intro nm l l' h0 hg hg'
    rcases hcase l nm hg with ⟨h, _⟩ | ⟨hl, h⟩ <;> rcases hcase l' nm hg' with ⟨h', _⟩ | ⟨hl', h'⟩
    · exact I.once nm l l' h0 h h'
    · have := I.bound l nm h
      have := (N.fresh nm h').1
      omega
    · have := I.bound l' nm h'
      have := (N.fresh nm h).1
      omega
    · rw [hl, hl']
  · intro b
    show ((put acc.1.phis n acc.2 b).map (·.1)).Nodup
    by_cases hb : b = n
    · subst hb
      rw [put_same]
      exact N.keys
    · rw [hphi b hb]
      exact I.keys b
  · intro i nm hnm
    have hnm : nm ∈ acc.1.wr i := hnm
    rw [N.grown.wr] at hnm
    exact I.pos i nm hnm

theorem renameRead_inv {i r : Nat} {s s' : SsaSt} (h : renameRead i s r = pure s') :
    s'.counter = s.counter ∧ s'.stack = s.stack ∧ s'.phis = s.phis ∧ s'.wr = s.wr := by
  unfold renameRead at h
  obtain ⟨t, _, h2⟩ := run_bind_inv h
  have := run_pure_inj h2
  subst this
  split <;> exact ⟨rfl, rfl, rfl, rfl⟩

theorem Once.congr {s s' : SsaSt} (I : Once s) (h1 : ∀ x, s.counter x ≤ s'.counter x)
    (h2 : ∀ b, (s'.phis b).map (·.1) = (s.phis b).map (·.1)) (h3 : s'.wr = s.wr) : Once s' := by
  have hg : ∀ l nm, Gives s' l nm ↔ Gives s l nm := by
    intro l nm
    cases l with
    | inst i k => show (s'.wr i)[k]? = some nm ↔ (s.wr i)[k]? = some nm; rw [h3]
    | phi b => show nm ∈ (s'.phis b).map (·.1) ↔ nm ∈ (s.phis b).map (·.1); rw [h2]
  refine ⟨?_, ?_, ?_, ?_⟩
  · intro l nm h
    exact Nat.le_trans (I.bound l nm ((hg l nm).1 h)) (h1 _)
  · intro nm l l' h0 h h'
    exact I.once nm l l' h0 ((hg l nm).1 h) ((hg l' nm).1 h')
  · intro b
    rw [h2]
    exact I.keys b
  · intro i nm h
    rw [h3] at h
    exact I.pos i nm h

theorem renameWrite_once {i w : Nat} {s s' : SsaSt} (I : Once s) (h : renameWrite i s w = pure s') : Once s' := by
  unfold renameWrite at h
  obtain ⟨⟨nm, s1⟩, h1, h2⟩ := run_bind_inv h
  have := run_pure_inj h2
  subst this
  obtain ⟨_, rfl, rfl⟩ := newName_inv h1
  let t : SsaSt :=
    { s with
      stack := put s.stack w ((s.counter w + 1) :: s.stack w)
      counter := put s.counter w (s.counter w + 1)
      wr := put s.wr i (s.wr i ++ [(w, s.counter w + 1)]) }
  have hcase : ∀ l nm, Gives t l nm → Gives s l nm ∨ (l = .inst i (s.wr i).length ∧ nm = (w, s.counter w + 1)) := by
    intro l nm hg
    cases l with
    | phi b => exact Or.inl hg
    | inst j k =>
      have hg : (put s.wr i (s.wr i ++ [(w, s.counter w + 1)]) j)[k]? = some nm := hg
      by_cases hj : j = i
      · subst hj
        rw [put_same] at hg
        rcases Nat.lt_or_ge k (s.wr j).length with hk | hk
        · rw [List.getElem?_append_left hk] at hg
          exact Or.inl hg
        · rw [List.getElem?_append_right hk] at hg
          right
          have hk0 : k - (s.wr j).length = 0 := by
            by_contra hne
            rw [List.getElem?_eq_none (by simp only [List.length_cons, List.length_nil]; omega)] at hg
            cases hg
          rw [hk0] at hg
          have he : nm = (w, s.counter w + 1) := (Option.some.inj hg).symm
          have hkk : k = (s.wr j).length := by omega
          exact ⟨by rw [hkk], he⟩
      · rw [put_ne _ _ _ hj] at hg
        exact Or.inl hg
  show Once t
  refine ⟨?_, ?_, I.keys, ?_⟩
  · intro l nm hg
    show nm.2 ≤ put s.counter w (s.counter w + 1) nm.1
    rcases hcase l nm hg with h | ⟨_, rfl⟩
    · exact Nat.le_trans (I.bound l nm h) (put_counter_le _ _ _)
    · rw [put_same]
  · intro nm l l' h0 hg hg'
    rcases hcase l nm hg with h | ⟨hl, e⟩ <;> rcases hcase l' nm hg' with h' | ⟨hl', e'⟩
    · exact I.once nm l l' h0 h h'
    · have := I.bound l nm h
      rw [e'] at this
      simp only at this
      omega
    · have := I.bound l' nm h'
      rw [e] at this
      simp only at this
      omega
    · rw [hl, hl']
  · intro j nm hnm
    have hnm : nm ∈ put s.wr i (s.wr i ++ [(w, s.counter w + 1)]) j := hnm
    by_cases hj : j = i
    · subst hj
      rw [put_same, List.mem_append] at hnm
      rcases hnm with h | h
      · exact I.pos j nm h
      · rw [List.mem_singleton.1 h]
        simp
    · rw [put_ne _ _ _ hj] at hnm
      exact I.pos j nm hnm

theorem renameInst_once {p : SsaProg} {i : Nat} {s s' : SsaSt} (I : Once s) (h : renameInst p s i = pure s') : Once s' := by
  unfold renameInst at h
  obtain ⟨s1, h1, h2⟩ := run_bind_inv h
  have I1 : Once s1 := run_fold_inv Once _ _ _ (fun _ _ _ _ hI he => by
    obtain ⟨e1, _, e3, e4⟩ := renameRead_inv he
    exact hI.congr (fun x => by rw [e1]) (fun b => by rw [e3]) e4) h1 I
  exact run_fold_inv Once _ _ _ (fun _ _ _ _ hI he => renameWrite_once hI he) h2 I1

theorem forall₂_map_eq {α β γ : Type} {R : α → β → Prop} {f : α → γ} {g : β → γ} {l : List α} {r : List β}
    (h : List.Forall₂ R l r) (e : ∀ a b, R a b → g b = f a) : r.map g = l.map f := by
  induction h with
  | nil => rfl
  | cons h _ ih => rw [List.map_cons, List.map_cons, ih, e _ _ h]

theorem appendParams_inv {s s' : SsaSt} {b : Nat} (h : appendParams s b = pure s') :
    s'.counter = s.counter ∧ s'.stack = s.stack ∧ s'.rd = s.rd ∧ s'.wr = s.wr ∧
      ∀ c, (s'.phis c).map (·.1) = (s.phis c).map (·.1) := by
  unfold appendParams at h
  obtain ⟨d, h1, h2⟩ := run_bind_inv h
  have := run_pure_inj h2
  subst this
  refine ⟨rfl, rfl, rfl, rfl, ?_⟩
  intro c
  show (put s.phis b d c).map (·.1) = _
  by_cases hc : c = b
  · subst hc
    rw [put_same]
    apply forall₂_map_eq (run_mapM_ok _ _ h1)
    intro a b hab
    unfold appendParam at hab
    obtain ⟨t, _, h4⟩ := run_bind_inv hab
    have := run_pure_inj h4
    subst this
    rfl
  · rw [put_ne _ _ _ hc]

theorem rollPhi_inv {p : SsaProg} {m : Nat} {s s' : SsaSt} {e : Name × List Name} (h : rollPhi p m s e = pure s') :
    s'.counter = s.counter ∧ s'.phis = s.phis ∧ s'.rd = s.rd ∧ s'.wr = s.wr := by
  unfold rollPhi at h
  obtain ⟨s1, h1, h2⟩ := run_bind_inv h
  have I1 : s1.counter = s.counter ∧ s1.phis = s.phis ∧ s1.rd = s.rd ∧ s1.wr = s.wr :=
    run_fold_inv (fun t => t.counter = s.counter ∧ t.phis = s.phis ∧ t.rd = s.rd ∧ t.wr = s.wr) _ _ _
      (fun i _ a b hI he => by
        unfold rollInst at he
        split at he
        · have := stackPop_inv he
          subst this
          exact hI
        · have := run_pure_inj he
          subst this
          exact hI) h1 ⟨rfl, rfl, rfl, rfl⟩
  have := stackPop_inv h2
  subst this
  exact I1

theorem roll_inv {p : SsaProg} {m : Nat} {l : List (Name × List Name)} {s s' : SsaSt}
    (h : l.foldlM (rollPhi p m) s = pure s') :
    s'.counter = s.counter ∧ s'.phis = s.phis ∧ s'.rd = s.rd ∧ s'.wr = s.wr :=
  run_fold_inv (fun t => t.counter = s.counter ∧ t.phis = s.phis ∧ t.rd = s.rd ∧ t.wr = s.wr) _ _ _
    (fun _ _ a b hI he => by
      obtain ⟨e1, e2, e3, e4⟩ := rollPhi_inv he
      obtain ⟨i1, i2, i3, i4⟩ := hI
      exact ⟨e1.trans i1, e2.trans i2, e3.trans i3, e4.trans i4⟩) h ⟨rfl, rfl, rfl, rfl⟩

theorem appends_inv {l : List Nat} {s s' : SsaSt} (h : l.foldlM appendParams s = pure s') :
    s'.counter = s.counter ∧ s'.stack = s.stack ∧ s'.rd = s.rd ∧ s'.wr = s.wr ∧
      ∀ c, (s'.phis c).map (·.1) = (s.phis c).map (·.1) :=
  run_fold_inv (fun t => t.counter = s.counter ∧ t.stack = s.stack ∧ t.rd = s.rd ∧ t.wr = s.wr ∧
      ∀ c, (t.phis c).map (·.1) = (s.phis c).map (·.1)) _ _ _
    (fun _ _ a b hI he => by
      obtain ⟨e1, e2, e3, e4, e5⟩ := appendParams_inv he
      obtain ⟨i1, i2, i3, i4, i5⟩ := hI
      exact ⟨e1.trans i1, e2.trans i2, e3.trans i3, e4.trans i4, fun c => (e5 c).trans (i5 c)⟩)
    h ⟨rfl, rfl, rfl, rfl, fun _ => rfl⟩

theorem renameNode_eq (p : SsaProg) (fuel n : Nat) (s : SsaSt) :
    renameNode p (fuel + 1) s n = (renamePhis s n >>= fun s => (p.insts n).foldlM (renameInst p) s >>= fun s =>
      (p.succ n).foldlM appendParams s >>= fun s => (p.domSucc n).foldlM (renameNode p fuel) s >>= fun s =>
      (s.phis ((p.domSucc n).getLast?.getD n)).foldlM (rollPhi p ((p.domSucc n).getLast?.getD n)) s) := rfl

/-- The five parts of the renaming of a block. -/
theorem renameNode_inv {p : SsaProg} {fuel n : Nat} {s s' : SsaSt} (h : renameNode p (fuel + 1) s n = pure s') :
    ∃ s1 s2 s3 s4, renamePhis s n = pure s1 ∧ (p.insts n).foldlM (renameInst p) s1 = pure s2 ∧
      (p.succ n).foldlM appendParams s2 = pure s3 ∧ (p.domSucc n).foldlM (renameNode p fuel) s3 = pure s4 ∧
      (s4.phis ((p.domSucc n).getLast?.getD n)).foldlM (rollPhi p ((p.domSucc n).getLast?.getD n)) s4 = pure s' := by
  rw [renameNode_eq] at h
  obtain ⟨s1, h1, h⟩ := run_bind_inv h
  obtain ⟨s2, h2, h⟩ := run_bind_inv h
  obtain ⟨s3, h3, h⟩ := run_bind_inv h
  obtain ⟨s4, h4, h⟩ := run_bind_inv h
  exact ⟨s1, s2, s3, s4, h1, h2, h3, h4, h⟩

theorem renameNode_once {p : SsaProg} (fuel : Nat) : ∀ (n : Nat) (s s' : SsaSt), Once s →
    renameNode p fuel s n = pure s' → Once s' := by
  induction fuel with
  | zero => intro n s s' _ h; exact absurd h running_ne
  | succ fuel ih =>
    intro n s s' I h
    obtain ⟨s1, s2, s3, s4, h1, h2, h3, h4, h5⟩ := renameNode_inv h
    have I1 := renamePhis_once I h1
    have I2 : Once s2 := run_fold_inv Once _ _ _ (fun _ _ _ _ hI he => renameInst_once hI he) h2 I1
    obtain ⟨e1, _, _, e4, e5⟩ := appends_inv h3
    have I3 : Once s3 := I2.congr (fun x => by rw [e1]) e5 e4
    have I4 : Once s4 := run_fold_inv Once _ _ _ (fun m _ a b hI he => ih m a b hI he) h4 I3
    obtain ⟨f1, f2, _, f4⟩ := roll_inv h5
    exact I4.congr (fun x => by rw [f1]) (fun b => by rw [f2]) f4

/-! ### Every write is named -/

/-- The blocks in the order in which they are renamed. -/
def preorder (domSucc : Nat → List Nat) : Nat → Nat → List Nat
  | 0, _ => []
  | fuel + 1, n => n :: (domSucc n).flatMap (preorder domSucc fuel)

theorem renamePhis_inv {s s' : SsaSt} {n : Nat} (h : renamePhis s n = pure s') : s'.rd = s.rd ∧ s'.wr = s.wr := by
  unfold renamePhis at h
  obtain ⟨acc, h1, h2⟩ := run_bind_inv h
  have := run_pure_inj h2
  subst this
  have N : NewDict s acc := run_fold_inv (NewDict s) _ _ _ (fun _ _ _ _ hI he => renamePhi_new hI he) h1
    ⟨.refl s, by simp, by simp⟩
  exact ⟨N.grown.rd, N.grown.wr⟩

theorem renameWrite_wr {i w : Nat} {s s' : SsaSt} (h : renameWrite i s w = pure s') :
    s'.rd = s.rd ∧ s'.wr = put s.wr i (s.wr i ++ [(w, s.counter w + 1)]) := by
  unfold renameWrite at h
  obtain ⟨⟨nm, s1⟩, h1, h2⟩ := run_bind_inv h
  have := run_pure_inj h2
  subst this
  obtain ⟨_, rfl, rfl⟩ := newName_inv h1
  exact ⟨rfl, rfl⟩

theorem renameWrites_fst {i : Nat} {s s' : SsaSt} (ws : List Nat) (h : ws.foldlM (renameWrite i) s = pure s') :
    ∀ j, (s'.wr j).map (·.1) = (s.wr j).map (·.1) ++ if j = i then ws else [] := by
  have := run_fold_pre (fun done t => ∀ j, (t.wr j).map (·.1) = (s.wr j).map (·.1) ++ if j = i then done else []) ws
    [] s s' (by
      intro pre w post a b hI he _ j
      obtain ⟨_, e⟩ := renameWrite_wr he
      rw [e]
      by_cases hj : j = i
      · subst hj
        rw [put_same, List.map_append, hI, if_pos rfl, if_pos rfl]
        simp
      · rw [put_ne _ _ _ hj, hI, if_neg hj, if_neg hj]) h (by intro j; simp)
  exact this

theorem renameReads_wr {i : Nat} {s s' : SsaSt} (rs : List Nat) (h : rs.foldlM (renameRead i) s = pure s') :
    s'.counter = s.counter ∧ s'.stack = s.stack ∧ s'.phis = s.phis ∧ s'.wr = s.wr :=
  run_fold_inv (fun t => t.counter = s.counter ∧ t.stack = s.stack ∧ t.phis = s.phis ∧ t.wr = s.wr) _ _ _
    (fun _ _ a b hI he => by
      obtain ⟨e1, e2, e3, e4⟩ := renameRead_inv he
      obtain ⟨i1, i2, i3, i4⟩ := hI
      exact ⟨e1.trans i1, e2.trans i2, e3.trans i3, e4.trans i4⟩) h ⟨rfl, rfl, rfl, rfl⟩

/-- The registers of the names written. -/
def writesOf (p : SsaProg) (is : List Nat) (j : Nat) : List Nat :=
  (List.replicate (is.count j) (p.acc j).writes).flatten

theorem writesOf_append (p : SsaProg) (l m : List Nat) (j : Nat) :
    writesOf p (l ++ m) j = writesOf p l j ++ writesOf p m j := by
  unfold writesOf
  rw [List.count_append, List.replicate_add, List.flatten_append]

theorem renameInst_fst {p : SsaProg} {i : Nat} {s s' : SsaSt} (h : renameInst p s i = pure s') (j : Nat) :
    (s'.wr j).map (·.1) = (s.wr j).map (·.1) ++ writesOf p [i] j := by
  unfold renameInst at h
  obtain ⟨s1, h1, h2⟩ := run_bind_inv h
  obtain ⟨_, _, _, e⟩ := renameReads_wr _ h1
  rw [renameWrites_fst _ h2, e]
  unfold writesOf
  by_cases hj : j = i
  · subst hj
    simp
  · rw [if_neg hj, List.count_singleton, if_neg (by simpa using Ne.symm hj)]
    simp

theorem renameNode_fst {p : SsaProg} (fuel : Nat) : ∀ (n : Nat) (s s' : SsaSt), renameNode p fuel s n = pure s' →
    ∀ j, (s'.wr j).map (·.1) = (s.wr j).map (·.1) ++ writesOf p ((preorder p.domSucc fuel n).flatMap p.insts) j := by
  induction fuel with
  | zero => intro n s s' h; exact absurd h running_ne
  | succ fuel ih =>
    intro n s s' h j
    obtain ⟨s1, s2, s3, s4, h1, h2, h3, h4, h5⟩ := renameNode_inv h
    have e1 := (renamePhis_inv h1).2
    have e2 : (s2.wr j).map (·.1) = (s1.wr j).map (·.1) ++ writesOf p (p.insts n) j := by
      have := run_fold_pre (fun done t => (t.wr j).map (·.1) = (s1.wr j).map (·.1) ++ writesOf p done j) (p.insts n)
        [] s1 s2 (by
          intro pre i post a b hI he _
          rw [renameInst_fst he, hI, writesOf_append, List.append_assoc]) h2 (by simp [writesOf])
      exact this
    have e3 := (appends_inv h3).2.2.2.1
    have e4 : (s4.wr j).map (·.1) = (s3.wr j).map (·.1) ++
        writesOf p (((p.domSucc n).flatMap (preorder p.domSucc fuel)).flatMap p.insts) j := by
      have := run_fold_pre (fun done t => (t.wr j).map (·.1) = (s3.wr j).map (·.1) ++
          writesOf p ((done.flatMap (preorder p.domSucc fuel)).flatMap p.insts) j) (p.domSucc n)
        [] s3 s4 (by
          intro pre i post a b hI he _
          rw [ih i a b he, hI, List.flatMap_append, List.flatMap_append, writesOf_append, List.append_assoc]
          simp) h4 (by simp [writesOf])
      exact this
    have e5 := (roll_inv h5).2.2.2
    rw [e5, e4, e3, e2, e1, preorder, List.flatMap_cons, writesOf_append, List.append_assoc]

end Verif
