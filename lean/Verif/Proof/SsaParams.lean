import Verif.Proof.SsaLeft

/-! # The parameters of the merge functions -/

namespace Verif

/-- The merge functions of a block without their indices. -/
def bareMerges (s : SsaSt) (b : Nat) : List (Nat × List Name) := (s.phis b).map fun e => (e.1.1, e.2)

/-- The top of the stack of a register; the last index given if there is none. -/
def topOf (s : SsaSt) (x : Nat) : Nat := (s.stack x).head?.getD (s.counter x)

/-- The parameters of a merge function with some more. -/
def more (ext : Nat → List Nat) (e : Nat × List Name) : Nat × List Name :=
  (e.1, e.2 ++ (ext e.1).map fun t => (e.1, t))

theorem more_append (f g : Nat → List Nat) (e : Nat × List Name) : more g (more f e) = more (fun x => f x ++ g x) e := by
  simp [more]

theorem map_more_append (f g : Nat → List Nat) (l : List (Nat × List Name)) :
    (l.map (more f)).map (more g) = l.map (more fun x => f x ++ g x) := by
  rw [List.map_map]
  apply List.map_congr_left
  intro e _
  exact more_append f g e

theorem map_more_nil (l : List (Nat × List Name)) : l.map (more fun _ => []) = l := by
  have : more (fun _ => []) = id := by
    funext e
    simp [more]
  rw [this, List.map_id]

theorem dictSet_newName {β : Type} (d : List (Name × β)) (k : Name) (v : β) (h : k ∉ d.map (·.1)) :
    dictSet d k v = d ++ [(k, v)] := by
  induction d with
  | nil => rfl
  | cons e d ih =>
    obtain ⟨k', v'⟩ := e
    rw [List.map_cons, List.mem_cons, not_or] at h
    have : dictSet ((k', v') :: d) k v = if k' = k then (k, v) :: d else (k', v') :: dictSet d k v := rfl
    rw [this, if_neg (Ne.symm h.1), ih h.2]
    rfl

theorem renamePhis_bare {n : Nat} {s s' : SsaSt} (h : renamePhis s n = pure s') (b : Nat) : bareMerges s' b = bareMerges s b := by
  unfold renamePhis at h
  obtain ⟨acc, h1, h2⟩ := run_bind_inv h
  have := run_pure_inj h2
  subst this
  have I := run_fold_pre (fun done acc => NewDict s acc ∧
      acc.2.map (fun e => (e.1.1, e.2)) = done.map (fun e : Name × List Name => (e.1.1, e.2))) (s.phis n) [] (s, []) acc
      (by
        rintro pre e post a b ⟨I0, I1⟩ he _
        refine ⟨renamePhi_new I0 he, ?_⟩
        unfold renamePhi at he
        obtain ⟨⟨nm, s1⟩, g1, g2⟩ := run_bind_inv he
        have := run_pure_inj g2
        subst this
        obtain ⟨_, rfl, rfl⟩ := newName_inv g1
        have hnew : (e.1.1, a.1.counter e.1.1 + 1) ∉ a.2.map (·.1) := by
          intro h
          have : a.1.counter e.1.1 + 1 ≤ a.1.counter e.1.1 := (I0.fresh _ h).2
          omega
        show (dictSet a.2 (e.1.1, a.1.counter e.1.1 + 1) e.2).map _ = _
        rw [dictSet_newName _ _ _ hnew, List.map_append, List.map_append, I1]
        rfl)
      h1 ⟨⟨Grown.refl s, by simp, by simp⟩, rfl⟩
  rw [List.nil_append] at I
  obtain ⟨i0, i1⟩ := I
  unfold bareMerges
  show (put acc.1.phis n acc.2 b).map _ = _
  by_cases hb : b = n
  · subst hb
    rw [put_same, i1]
  · rw [put_ne _ _ _ hb, i0.grown.phis]

theorem appendParams_bare {s s' : SsaSt} {c : Nat} (h : appendParams s c = pure s') (b : Nat) :
    bareMerges s' b = (bareMerges s b).map (more fun x => if b = c then [topOf s x] else []) := by
  unfold appendParams at h
  obtain ⟨d, h1, h2⟩ := run_bind_inv h
  have := run_pure_inj h2
  subst this
  unfold bareMerges
  show (put s.phis c d b).map _ = _
  by_cases hb : b = c
  · subst hb
    rw [put_same]
    simp only [if_true]
    rw [List.map_map]
    apply forall₂_map_eq (run_mapM_ok _ _ h1)
    intro e f he
    unfold appendParam at he
    obtain ⟨t, h3, h4⟩ := run_bind_inv he
    have := run_pure_inj h4
    subst this
    obtain ⟨l, hl⟩ := stackTop_inv h3
    simp [more, topOf, hl]
  · rw [put_ne _ _ _ hb]
    simp only [if_neg hb]
    rw [map_more_nil]

theorem appends_bare {l : List Nat} {s s' : SsaSt} (h : l.foldlM appendParams s = pure s') (b : Nat) :
    bareMerges s' b = (bareMerges s b).map (more fun x => List.replicate (l.count b) (topOf s x)) := by
  have I := run_fold_pre (fun done t => (t.stack = s.stack ∧ t.counter = s.counter) ∧
      bareMerges t b = (bareMerges s b).map (more fun x => List.replicate (done.count b) (topOf s x))) l [] s s' (by
    rintro pre c post a t ⟨I0, I1⟩ he _
    refine ⟨⟨(appendParams_inv he).2.1.trans I0.1, (appendParams_inv he).1.trans I0.2⟩, ?_⟩
    rw [appendParams_bare he b, I1, map_more_append]
    congr 2
    funext x
    have ht : topOf a x = topOf s x := by
      unfold topOf
      rw [I0.1, I0.2]
    rw [ht, List.count_append]
    by_cases hb : b = c
    · subst hb
      rw [if_pos rfl, List.replicate_add]
      simp
    · have : [c].count b = 0 := by simp [Ne.symm hb]
      rw [if_neg hb, this]
      simp) h ⟨⟨rfl, rfl⟩, by simp [map_more_nil]⟩
  exact I.2

/-- The parameters added by the renaming of a block and what it dominates: as many
as edges from the blocks met, in the order of the walk; that of an edge is the index
counted along the walk up to the end of the block it comes from. -/
theorem renameNode_params {p : SsaProg} (fuel : Nat) : ∀ (n : Nat) (s s' : SsaSt), renameNode p fuel s n = pure s' →
    ∀ b, ∃ ext : Nat → List Nat, bareMerges s' b = (bareMerges s b).map (more ext) ∧
      (∀ x, (ext x).length = ((preorder p.domSucc fuel n).flatMap p.succ).count b) ∧
      ∀ x k, TopIs x k s → ∀ u c v A B, preorder p.domSucc fuel n = u ++ c :: v → p.succ c = A ++ b :: B →
        (ext x)[(u.flatMap p.succ ++ A).count b]? = some (k + defCount p s (u ++ [c]) x) := by
  induction fuel with
  | zero => intro n s s' h; exact absurd h running_ne
  | succ fuel ih =>
    intro n s s' h b
    obtain ⟨s1, s2, s3, s4, h1, h2, h3, h4, h5⟩ := renameNode_inv h
    have b1 := renamePhis_bare h1 b
    have q2 := renameInsts_phis h2
    have b2 : bareMerges s2 b = bareMerges s b := by
      rw [← b1]
      unfold bareMerges
      rw [q2]
    have b3 := appends_bare h3 b
    rw [b2] at b3
    obtain ⟨c3, st3, r3, w3, k3⟩ := appends_inv h3
    obtain ⟨_, q5, _, _⟩ := roll_inv h5
    have b5 : bareMerges s' b = bareMerges s4 b := by
      unfold bareMerges
      rw [q5]
    have e : preorder p.domSucc (fuel + 1) n = n :: (p.domSucc n).flatMap (preorder p.domSucc fuel) := rfl
    -- the blocks dominated, one after the other
    have rest : ∀ (L : List Nat) (t t' : SsaSt), L.foldlM (renameNode p fuel) t = pure t' →
        ∃ ext : Nat → List Nat, bareMerges t' b = (bareMerges t b).map (more ext) ∧
          (∀ x, (ext x).length = ((L.flatMap (preorder p.domSucc fuel)).flatMap p.succ).count b) ∧
          ∀ x k, TopIs x k t → ∀ u c v A B, L.flatMap (preorder p.domSucc fuel) = u ++ c :: v → p.succ c = A ++ b :: B →
            (ext x)[(u.flatMap p.succ ++ A).count b]? = some (k + defCount p t (u ++ [c]) x) := by
      intro L
      induction L with
      | nil =>
        intro t t' ht
        have := run_pure_inj ht
        subst this
        exact ⟨fun _ => [], (map_more_nil _).symm, fun _ => rfl, fun x k _ u c v A B hu => by simp at hu⟩
      | cons d L ihL =>
        intro t t' ht
        rw [List.foldlM_cons] at ht
        obtain ⟨t1, g1, g2⟩ := run_bind_inv ht
        obtain ⟨f, f1, f2, f3⟩ := ih d t t1 g1 b
        obtain ⟨f', f1', f2', f3'⟩ := ihL t1 t' g2
        refine ⟨fun x => f x ++ f' x, ?_, fun x => ?_, ?_⟩
        · rw [f1', f1, map_more_append]
        · rw [List.length_append, f2, f2', List.flatMap_cons, List.flatMap_append, List.count_append]
        · intro x k hk u c v A B hu hA
          -- a block of the first part, or of the others
          have first : ∀ w, preorder p.domSucc fuel d = u ++ c :: w →
              (f x ++ f' x)[(u.flatMap p.succ ++ A).count b]? = some (k + defCount p t (u ++ [c]) x) := by
            intro w hw
            have := f3 x k hk u c w A B hw hA
            obtain ⟨hlt, _⟩ := List.getElem?_eq_some_iff.1 this
            rw [List.getElem?_append_left hlt, this]
          have later : ∀ w, u = preorder p.domSucc fuel d ++ w → L.flatMap (preorder p.domSucc fuel) = w ++ c :: v →
              (f x ++ f' x)[(u.flatMap p.succ ++ A).count b]? = some (k + defCount p t (u ++ [c]) x) := by
            intro w hw hv
            obtain ⟨k1, k2⟩ := renameNode_top fuel d k t t1 hk g1
            have := f3' x _ k1 w c v A B hv hA
            rw [defCount_congr k2] at this
            have e1 : (u.flatMap p.succ ++ A).count b = (f x).length + (w.flatMap p.succ ++ A).count b := by
              rw [hw, f2, List.flatMap_append, List.append_assoc, List.count_append]
            rw [e1, List.getElem?_append_right (by omega), Nat.add_sub_cancel_left, this, hw, List.append_assoc,
              defCount_append p t (preorder p.domSucc fuel d), Nat.add_assoc]
          rw [List.flatMap_cons] at hu
          rcases List.append_eq_append_iff.1 hu with ⟨w, e1, e2⟩ | ⟨w, e1, e2⟩
          · exact later w e1 e2
          · cases w with
            | nil => exact later [] (by simpa using e1.symm) e2.symm
            | cons y w =>
              rw [List.cons_append] at e2
              cases e2
              exact first w e1
    -- what the block itself adds, at a known top
    have top : ∀ x k, TopIs x k s → TopIs x (k + defCount p s [n] x) s3 ∧
        topOf s2 x = k + defCount p s [n] x ∧ ∀ b, phiVars s3 b = phiVars s b := by
      intro x k ht
      obtain ⟨t1, v1⟩ := renamePhis_vars ht h1
      obtain ⟨t2, n2, _⟩ := renameInsts_named _ t1 h2
      have hz : k + defCount p s [n] x = k + (phiVars s n).count x + wcount p (p.insts n) x := by
        have hz : defCount p s [] x = 0 := rfl
        rw [defCount_cons, hz]
        omega
      have v3 : ∀ b, phiVars s3 b = phiVars s b := fun b => by
        rw [phiVars_of_keys k3, phiVars_of_keys (s := s1) (fun c => by rw [q2]), v1]
      rw [hz]
      refine ⟨⟨c3 ▸ t2.1, st3 ▸ t2.2⟩, ?_, v3⟩
      unfold topOf
      cases hs : s2.stack x with
      | nil => exact t2.1
      | cons y l => exact t2.2 y l hs
    obtain ⟨f, f1, f2, f3⟩ := rest _ s3 s4 h4
    refine ⟨fun x => List.replicate ((p.succ n).count b) (topOf s2 x) ++ f x, ?_, fun x => ?_, ?_⟩
    · rw [b5, f1, b3, map_more_append]
    · rw [e, List.flatMap_cons, List.count_append, List.length_append, List.length_replicate, f2]
    · intro x k ht u c v A B hu hA
      rw [e] at hu
      obtain ⟨t3, t4, v3⟩ := top x k ht
      cases u with
      | nil =>
        cases hu
        have hlt : A.count b < (p.succ n).count b := by
          rw [hA, List.count_append, List.count_cons_self]
          omega
        show (List.replicate ((p.succ n).count b) (topOf s2 x) ++ f x)[A.count b]? = some (k + defCount p s [n] x)
        rw [List.getElem?_append_left (by rw [List.length_replicate]; exact hlt), List.getElem?_replicate, if_pos hlt,
          t4]
      | cons m u =>
        rw [List.cons_append] at hu
        obtain ⟨rfl, hu⟩ := List.cons.inj hu
        have := f3 x _ t3 u c v A B (List.cons.inj hu).2 hA
        rw [List.flatMap_cons, List.append_assoc, List.count_append,
          List.getElem?_append_right (by rw [List.length_replicate]; omega), List.length_replicate,
          Nat.add_sub_cancel_left, this, defCount_congr v3]
        have e1 : n :: u ++ [c] = [n] ++ (u ++ [c]) := rfl
        rw [e1, defCount_append p s [n], Nat.add_assoc]

end Verif
