import Verif.Proof.Ssa

/-! # What the names say -/

namespace Verif

/-- The index on top for a register, if there is one, is the last one given. -/
def TopIs (x k : Nat) (s : SsaSt) : Prop := s.counter x = k ∧ ∀ t l, s.stack x = t :: l → t = k

/-- The number of writes of a register by some instructions. -/
def wcount (p : SsaProg) (L : List Nat) (x : Nat) : Nat := (L.flatMap fun i => (p.acc i).writes).count x

theorem wcount_append (p : SsaProg) (l m : List Nat) (x : Nat) : wcount p (l ++ m) x = wcount p l x + wcount p m x := by
  unfold wcount
  rw [List.flatMap_append, List.count_append]

/-- The names of a register in a list. -/
def only (x : Nat) (l : List Name) : List Name := l.filter fun nm => decide (nm.1 = x)

/-- The indices from `k + 1` on. -/
def freshNames (x k n : Nat) : List Name := (List.range n).map fun m => (x, k + m + 1)

theorem only_append (x : Nat) (l m : List Name) : only x (l ++ m) = only x l ++ only x m := List.filter_append ..

theorem only_same (x t : Nat) : only x [(x, t)] = [(x, t)] := by simp [only]

theorem only_other {x r : Nat} (h : r ≠ x) (t : Nat) : only x [(r, t)] = [] := by simp [only, h]

theorem freshNames_succ (x k n : Nat) : freshNames x k (n + 1) = freshNames x k n ++ [(x, k + n + 1)] := by
  unfold freshNames
  rw [List.range_succ, List.map_append]
  rfl

/-- The instructions `L` have been renamed, in this order, starting with index
`k`. -/
structure Named (p : SsaProg) (x k : Nat) (L : List Nat) (s s' : SsaSt) : Prop where
  rdOther : ∀ j, j ∉ L → s'.rd j = s.rd j
  wrOther : ∀ j, j ∉ L → s'.wr j = s.wr j
  reads : L.Nodup → ∀ a i b, L = a ++ i :: b → only x (s.rd i) = [] →
    only x (s'.rd i) = if x ∈ (p.acc i).reads then [(x, k + wcount p a x)] else []
  writes : L.Nodup → ∀ a i b, L = a ++ i :: b → only x (s.wr i) = [] →
    only x (s'.wr i) = freshNames x (k + wcount p a x) ((p.acc i).writes.count x)

theorem Named.nil (p : SsaProg) (x k : Nat) {s s' : SsaSt} (h1 : s'.rd = s.rd) (h2 : s'.wr = s.wr) : Named p x k [] s s' :=
  ⟨fun _ _ => by rw [h1], fun _ _ => by rw [h2], fun _ a i b h => by simp at h, fun _ a i b h => by simp at h⟩

theorem Named.append {p : SsaProg} {x k : Nat} {L M : List Nat} {s t u : SsaSt} (h : Named p x k L s t)
    (h' : Named p x (k + wcount p L x) M t u) : Named p x k (L ++ M) s u := by
  refine ⟨?_, ?_, ?_, ?_⟩
  · intro j hj
    simp only [List.mem_append, not_or] at hj
    rw [h'.rdOther j hj.2, h.rdOther j hj.1]
  · intro j hj
    simp only [List.mem_append, not_or] at hj
    rw [h'.wrOther j hj.2, h.wrOther j hj.1]
  · intro hn a i b hL hi
    rw [List.nodup_append] at hn
    rcases List.append_eq_append_iff.1 hL with ⟨c, h1, h2⟩ | ⟨c, h1, h2⟩
    · -- in the second part
      have hiM : i ∈ M := by rw [h2]; simp
      have hiL : i ∉ L := fun h3 => hn.2.2 i h3 i hiM rfl
      rw [h'.reads hn.2.1 c i b h2 (by rw [h.rdOther i hiL]; exact hi), h1, wcount_append]
      rw [Nat.add_assoc]
    · cases c with
      | nil =>
        rw [List.append_nil] at h1
        rw [List.nil_append] at h2
        have hiM : i ∈ M := by rw [← h2]; simp
        have hiL : i ∉ L := fun h3 => hn.2.2 i h3 i hiM rfl
        rw [h'.reads hn.2.1 [] i b (by rw [← h2]; rfl) (by rw [h.rdOther i hiL]; exact hi), h1]
        simp [wcount]
      | cons j c =>
        rw [List.cons_append] at h2
        cases h2
        have hiL : i ∈ L := by rw [h1]; simp
        have hiM : i ∉ M := fun h3 => hn.2.2 i hiL i h3 rfl
        rw [h'.rdOther i hiM]
        exact h.reads hn.1 a i c h1 hi
  · intro hn a i b hL hi
    rw [List.nodup_append] at hn
    rcases List.append_eq_append_iff.1 hL with ⟨c, h1, h2⟩ | ⟨c, h1, h2⟩
    · have hiM : i ∈ M := by rw [h2]; simp
      have hiL : i ∉ L := fun h3 => hn.2.2 i h3 i hiM rfl
      rw [h'.writes hn.2.1 c i b h2 (by rw [h.wrOther i hiL]; exact hi), h1, wcount_append]
      rw [Nat.add_assoc]
    · cases c with
      | nil =>
        rw [List.append_nil] at h1
        rw [List.nil_append] at h2
        have hiM : i ∈ M := by rw [← h2]; simp
        have hiL : i ∉ L := fun h3 => hn.2.2 i h3 i hiM rfl
        rw [h'.writes hn.2.1 [] i b (by rw [← h2]; rfl) (by rw [h.wrOther i hiL]; exact hi), h1]
        simp [wcount]
      | cons j c =>
        rw [List.cons_append] at h2
        cases h2
        have hiL : i ∈ L := by rw [h1]; simp
        have hiM : i ∉ M := fun h3 => hn.2.2 i hiL i h3 rfl
        rw [h'.wrOther i hiM]
        exact h.writes hn.1 a i c h1 hi

theorem stackTop_inv {s : SsaSt} {r t : Nat} (h : stackTop s r = pure t) : ∃ l, s.stack r = t :: l := by
  unfold stackTop at h
  split at h
  · split at h
    · exact absurd h raiseRun_ne
    · rename_i i l hs
      have := run_pure_inj h
      subst this
      exact ⟨l, hs⟩
  · exact absurd h raiseRun_ne

theorem renameReads_names {x k i : Nat} {s s' : SsaSt} (rs : List Nat) (ht : TopIs x k s)
    (h : rs.foldlM (renameRead i) s = pure s') :
    (∀ j, j ≠ i → s'.rd j = s.rd j) ∧
    (only x (s.rd i) = [] → only x (s'.rd i) = if x ∈ rs then [(x, k)] else []) := by
  have := run_fold_pre (fun done t => TopIs x k t ∧ (∀ j, j ≠ i → t.rd j = s.rd j) ∧
    (only x (s.rd i) = [] → only x (t.rd i) = if x ∈ done then [(x, k)] else [])) rs [] s s' (by
      rintro pre r post a b ⟨I0, I1, I2⟩ he _
      obtain ⟨e1, e2, _, _⟩ := renameRead_inv he
      refine ⟨⟨e1 ▸ I0.1, e2 ▸ I0.2⟩, ?_⟩
      unfold renameRead at he
      obtain ⟨t, h1, h2⟩ := run_bind_inv he
      obtain ⟨l, hl⟩ := stackTop_inv h1
      have hxt : r = x → t = k := by
        rintro rfl
        exact I0.2 t l hl
      have := run_pure_inj h2
      subst this
      by_cases hin : (r, t) ∈ a.rd i
      · rw [if_pos hin]
        refine ⟨I1, fun h0 => ?_⟩
        rw [I2 h0]
        by_cases hr : r = x
        · subst hr
          have hx : (r, t) ∈ only r (a.rd i) := List.mem_filter.2 ⟨hin, by simp⟩
          rw [I2 h0] at hx
          have : r ∈ pre := by
            by_contra hnp
            rw [if_neg hnp] at hx
            cases hx
          rw [if_pos this, if_pos (by simp)]
        · have hx : x ∈ pre ++ [r] ↔ x ∈ pre := by
            rw [List.mem_append, List.mem_singleton]
            exact ⟨fun h => h.resolve_right fun h => hr h.symm, Or.inl⟩
          simp only [hx]
      · rw [if_neg hin]
        refine ⟨fun j hj => ?_, fun h0 => ?_⟩
        · show put a.rd i (a.rd i ++ [(r, t)]) j = s.rd j
          rw [put_ne _ _ _ hj, I1 j hj]
        · show only x (put a.rd i (a.rd i ++ [(r, t)]) i) = _
          rw [put_same, only_append, I2 h0]
          by_cases hr : r = x
          · subst hr
            rw [hxt rfl] at hin ⊢
            have hnp : r ∉ pre := by
              intro hp
              rw [if_pos hp] at I2
              have : (r, k) ∈ only r (a.rd i) := by rw [I2 h0]; simp
              exact hin (List.mem_filter.1 this).1
            rw [if_neg hnp, if_pos (by simp), only_same]
            rfl
          · have hx : x ∈ pre ++ [r] ↔ x ∈ pre := by
              rw [List.mem_append, List.mem_singleton]
              exact ⟨fun h => h.resolve_right fun h => hr h.symm, Or.inl⟩
            rw [only_other hr, List.append_nil]
            simp only [hx])
    h ⟨ht, fun _ _ => rfl, fun h0 => by rw [h0]; simp⟩
  exact this.2

theorem renameWrites_names {x k i : Nat} {s s' : SsaSt} (ws : List Nat) (ht : TopIs x k s)
    (h : ws.foldlM (renameWrite i) s = pure s') :
    TopIs x (k + ws.count x) s' ∧ s'.rd = s.rd ∧ (∀ j, j ≠ i → s'.wr j = s.wr j) ∧
    only x (s'.wr i) = only x (s.wr i) ++ freshNames x k (ws.count x) := by
  have := run_fold_pre (fun done t => TopIs x (k + done.count x) t ∧ t.rd = s.rd ∧ (∀ j, j ≠ i → t.wr j = s.wr j) ∧
    only x (t.wr i) = only x (s.wr i) ++ freshNames x k (done.count x)) ws [] s s' (by
      rintro pre w post a b ⟨I0, I1, I2, I3⟩ he _
      unfold renameWrite at he
      obtain ⟨⟨nm, s1⟩, h1, h2⟩ := run_bind_inv he
      have := run_pure_inj h2
      subst this
      obtain ⟨_, rfl, rfl⟩ := newName_inv h1
      refine ⟨?_, I1, fun j hj => ?_, ?_⟩
      · by_cases hw : w = x
        · subst hw
          rw [List.count_append, List.count_singleton_self]
          refine ⟨?_, fun t l hl => ?_⟩
          · show put a.counter w (a.counter w + 1) w = _
            rw [put_same, I0.1]
            omega
          · have hl : put a.stack w ((a.counter w + 1) :: a.stack w) w = t :: l := hl
            rw [put_same, I0.1] at hl
            rw [← (List.cons.inj hl).1, Nat.add_assoc]
        · have hc : (pre ++ [w]).count x = pre.count x := by
            rw [List.count_append, List.count_singleton, if_neg (by simpa using hw)]
            omega
          rw [hc]
          obtain ⟨i1, i2⟩ := I0
          refine ⟨?_, fun t l hl => ?_⟩
          · show put a.counter w (a.counter w + 1) x = _
            rw [put_ne _ _ _ (Ne.symm hw), i1]
          · have hl : put a.stack w ((a.counter w + 1) :: a.stack w) x = t :: l := hl
            rw [put_ne _ _ _ (Ne.symm hw)] at hl
            exact i2 t l hl
      · show put a.wr i (a.wr i ++ [(w, a.counter w + 1)]) j = s.wr j
        rw [put_ne _ _ _ hj, I2 j hj]
      · show only x (put a.wr i (a.wr i ++ [(w, a.counter w + 1)]) i) = _
        rw [put_same, only_append, I3]
        by_cases hw : w = x
        · subst hw
          rw [List.count_append, List.count_singleton_self, freshNames_succ, only_same, I0.1, List.append_assoc]
        · have hc : (pre ++ [w]).count x = pre.count x := by
            rw [List.count_append, List.count_singleton, if_neg (by simpa using hw)]
            omega
          rw [hc, only_other hw, List.append_nil])
    h ⟨by simpa using ht, rfl, fun _ _ => rfl, by simp [freshNames]⟩
  exact this

theorem renameInst_named {p : SsaProg} {x k i : Nat} {s s' : SsaSt} (ht : TopIs x k s)
    (h : renameInst p s i = pure s') :
    TopIs x (k + wcount p [i] x) s' ∧ Named p x k [i] s s' ∧ s'.phis = s.phis := by
  unfold renameInst at h
  obtain ⟨s1, h1, h2⟩ := run_bind_inv h
  obtain ⟨e1, e2, e3, e4⟩ := renameReads_wr _ h1
  have ht1 : TopIs x k s1 := ⟨e1 ▸ ht.1, e2 ▸ ht.2⟩
  obtain ⟨r1, r2⟩ := renameReads_names _ ht h1
  obtain ⟨w1, w2, w3, w4⟩ := renameWrites_names _ ht1 h2
  have hph : s'.phis = s1.phis :=
    run_fold_inv (fun t => t.phis = s1.phis) _ _ _ (fun w _ a b hI he => by
      unfold renameWrite at he
      obtain ⟨⟨nm, s2⟩, g1, g2⟩ := run_bind_inv he
      have := run_pure_inj g2
      subst this
      obtain ⟨_, rfl, rfl⟩ := newName_inv g1
      exact hI) h2 rfl
  have hw : wcount p [i] x = (p.acc i).writes.count x := by simp [wcount]
  refine ⟨by rw [hw]; exact w1, ⟨?_, ?_, ?_, ?_⟩, hph.trans e3⟩
  · intro j hj
    rw [List.mem_singleton] at hj
    rw [w2, r1 j hj]
  · intro j hj
    rw [List.mem_singleton] at hj
    rw [w3 j hj, e4]
  · intro _ a j b hL h0
    have : a = [] ∧ i = j := by
      cases a with
      | nil => cases hL; exact ⟨rfl, rfl⟩
      | cons c a => simp at hL
    obtain ⟨rfl, rfl⟩ := this
    rw [w2, r2 h0]
    simp [wcount]
  · intro _ a j b hL h0
    have : a = [] ∧ i = j := by
      cases a with
      | nil => cases hL; exact ⟨rfl, rfl⟩
      | cons c a => simp at hL
    obtain ⟨rfl, rfl⟩ := this
    rw [w4, e4, h0]
    simp [wcount]

theorem renameInsts_named {p : SsaProg} {x k : Nat} {s s' : SsaSt} (L : List Nat) (ht : TopIs x k s)
    (h : L.foldlM (renameInst p) s = pure s') :
    TopIs x (k + wcount p L x) s' ∧ Named p x k L s s' ∧ s'.phis = s.phis := by
  have := run_fold_pre (fun done t => TopIs x (k + wcount p done x) t ∧ Named p x k done s t ∧ t.phis = s.phis) L
    [] s s' (by
      rintro pre i post a b ⟨I0, I1, I2⟩ he _
      obtain ⟨g1, g2, g3⟩ := renameInst_named I0 he
      refine ⟨?_, I1.append g2, g3.trans I2⟩
      rw [wcount_append, ← Nat.add_assoc]
      exact g1) h ⟨by simpa [wcount] using ht, Named.nil p x k rfl rfl, rfl⟩
  exact this

/-! ### Rolling back -/

theorem roll_top {p : SsaProg} {x k m : Nat} {l : List (Name × List Name)} {s s' : SsaSt} (ht : TopIs x k s)
    (h : l.foldlM (rollPhi p m) s = pure s') : TopIs x k s' := by
  have pop : ∀ (v : Nat) (a b : SsaSt), TopIs x k a → stackPop a v = pure b → TopIs x k b := by
    rintro v a b ⟨i1, i2⟩ he
    have := stackPop_inv he
    subst this
    refine ⟨i1, fun t l hl => ?_⟩
    have hl : put a.stack v (a.stack v).dropLast x = t :: l := hl
    by_cases hv : x = v
    · subst hv
      rw [put_same] at hl
      cases hs : a.stack x with
      | nil => rw [hs] at hl; cases hl
      | cons c cs =>
        rw [hs] at hl
        cases cs with
        | nil => cases hl
        | cons d ds =>
          rw [List.dropLast_cons_cons] at hl
          rw [← (List.cons.inj hl).1]
          exact i2 c _ hs
    · rw [put_ne _ _ _ hv] at hl
      exact i2 t l hl
  refine run_fold_inv (TopIs x k) _ _ _ (fun e hm a b hI he => ?_) h ht
  unfold rollPhi at he
  obtain ⟨s1, h1, h2⟩ := run_bind_inv he
  refine pop _ s1 b ?_ h2
  refine run_fold_inv (TopIs x k) _ _ _ (fun i _ c d hI he => ?_) h1 hI
  unfold rollInst at he
  split at he
  · exact pop _ c d hI he
  · have := run_pure_inj he
    subst this
    exact hI

end Verif
