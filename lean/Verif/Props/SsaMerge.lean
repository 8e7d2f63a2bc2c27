import Verif.Props.Ssa

/-!
# Property theorems: the merge functions of the SSA form (C87, C88)
-/

namespace Verif

open Spec (Path Reach Dom Rooted Frontier Iterated Exposed Writer WrittenFirst Leftmost)

/-! ## C87: which merge functions there are -/

theorem sublist_removeDeadPhi (p : SsaProg) (nodes : List Nat) (s : SsaSt) (b : Nat) :
    ((removeDeadPhi p nodes s).phis b).Sublist (s.phis b) := ((dead_phi_removal p nodes s).2.2 b).1

/-- C87.  Let every predecessor of a block that can be reached be reachable, the end
blocks have no successors, and no instruction occur twice in the blocks that can be
reached.  When the SSA form is built without an exception, a block has a merge
function of a register exactly when some block reads the register before writing it,
the block is not an end block, it is in the iterated dominance frontier of the blocks
that write the register, and it does not itself write the register before reading it;
and it has at most one. -/
theorem ssa_merges_exact {g : FlowGraph} {root : Nat} (hg : Rooted g.nodes g.succ g.pred root)
    (hp : ∀ w, Reach g.succ root w → ∀ v ∈ g.pred w, Reach g.succ root v) {insts : Nat → List Nat}
    {acc : Nat → Access} {isEnd : Nat → Bool} (hend : ∀ b, isEnd b = true → g.succ b = []) {fuel : Nat}
    (hf : g.nodes.length < fuel) {p : SsaProg} {s : SsaSt}
    (h : ssaBuild g insts acc isEnd fuel root = (pure (p, s) : Run (SsaProg × SsaSt)))
    {vis : List Nat} (hv : vis.Nodup) (hvr : ∀ b, b ∈ vis ↔ Reach g.succ root b) (hvi : (vis.flatMap insts).Nodup)
    (b : Nat) :
    let code := fun n => ((insts n).map acc).map fun i => (i.reads, i.writes)
    ((s.phis b).map (·.1.1)).Nodup ∧
    ∀ x, x ∈ (s.phis b).map (·.1.1) ↔ Exposed g.nodes code x ∧ isEnd b = false ∧
      Iterated (Frontier g.succ root) (Writer g.nodes code x) b ∧ ¬ WrittenFirst (code b) x := by
  intro code
  have hcopy := h
  unfold ssaBuild at hcopy
  obtain ⟨t, t1, hcopy⟩ := run_bind_inv hcopy
  obtain ⟨df, t2, hcopy⟩ := run_bind_inv hcopy
  obtain ⟨⟨gl, phis⟩, t3, hcopy⟩ := run_bind_inv hcopy
  obtain ⟨s1, t4, hcopy⟩ := run_bind_inv hcopy
  have hcopy := run_pure_inj hcopy
  obtain ⟨t', df', gl', phis', q1, q2, q3, q4⟩ := phi_on_iterated_frontier hg hp (fun n => (insts n).map acc) isEnd hend hf
  rw [t1] at q1
  have := run_pure_inj q1
  subst this
  rw [t2] at q2
  have := run_pure_inj q2
  subst this
  rw [t3] at q3
  have := run_pure_inj q3
  cases this
  cases hcopy
  obtain ⟨_, _, _, _, _, _, _, _, o1, o2, _⟩ := ssa_parts hg hf h
  generalize hpp : (SsaProg.mk insts acc (fun n => if n ∈ t.vertex then g.succ n else []) t.domSucc) = p at *
  have hpi : p.insts = insts := by rw [← hpp]
  have hpa : p.acc = acc := by rw [← hpp]
  have hkey : ∀ d : List (Name × List Name), d.map (·.1.1) = (d.map (·.1)).map (·.1) := fun d => by simp
  have h0 : ∀ b, ∀ e ∈ phis b, e.1.2 = 0 := fun b e he =>
    (((q4 b).2 e.1.1 e.1.2 e.2).1 (dictGet_of_mem (q4 b).1 he)).2.1
  have hk : ∀ b, ((phis b).map (·.1)).Nodup := fun b => (q4 b).1
  have hplaced : ∀ x, x ∈ (phis b).map (·.1.1) ↔ Exposed g.nodes code x ∧ isEnd b = false ∧
      Iterated (Frontier g.succ root) (Writer g.nodes code x) b := by
    intro x
    constructor
    · intro hx
      obtain ⟨e, he, rfl⟩ := List.mem_map.1 hx
      have := ((q4 b).2 e.1.1 e.1.2 e.2).1 (dictGet_of_mem (q4 b).1 he)
      exact ⟨this.2.2.2.1, this.2.2.1, this.2.2.2.2⟩
    · rintro ⟨a1, a2, a3⟩
      have := ((q4 b).2 x 0 []).2 ⟨rfl, rfl, a2, a1, a3⟩
      exact List.mem_map.2 ⟨_, dictGet_mem this, rfl⟩
  have hreach : ∀ x, x ∈ (phis b).map (·.1.1) → Reach g.succ root b := by
    intro x hx
    cases ((hplaced x).1 hx).2.2 with
    | first _ hd =>
      obtain ⟨⟨q, h1, h2, _⟩, _⟩ := hd
      exact reach_edge h1 h2
    | next _ hd =>
      obtain ⟨⟨q, h1, h2, _⟩, _⟩ := hd
      exact reach_edge h1 h2
  have hregs : (s1.phis b).map (·.1.1) = (phis b).map (·.1.1) := by
    obtain ⟨ext, h1, _⟩ := renameNode_params fuel root _ s1 t4 b
    have := congrArg (List.map Prod.fst) h1
    simp only [bareMerges, List.map_map] at this
    exact this
  have hnd : ((s1.phis b).map (·.1.1)).Nodup := by
    rw [hregs]
    exact regs_nodup (h0 b) (hk b)
  refine ⟨((sublist_removeDeadPhi p g.nodes s1 b).map _).nodup hnd, fun x => ?_⟩
  rw [← and_assoc, ← and_assoc, and_assoc (a := Exposed g.nodes code x), ← hplaced, ← hregs]
  have hnodes : ∀ x, Reach g.succ root x → x ∈ g.nodes := by
    rintro x ⟨l, p⟩
    have : ∀ a l b, Spec.Path g.succ a l b → a ∈ g.nodes → b ∈ g.nodes := by
      intro a l b p
      induction p with
      | single a => exact id
      | step e _ ih => exact fun ha => ih (hg.closed _ ha _ e)
    exact this _ _ _ p hg.root_mem
  -- a merge function placed is dead exactly when the block writes its register first
  have hdead : ∀ e ∈ s1.phis b, (e ∈ (removeDeadPhi p g.nodes s1).phis b ↔ ¬ WrittenFirst (code b) e.1.1) := by
    intro e he
    have hx : e.1.1 ∈ (phis b).map (·.1.1) := by
      rw [← hregs]
      exact List.mem_map_of_mem (f := fun e => e.1.1) he
    have hb := hreach _ hx
    obtain ⟨hn, u, u1, u2, V⟩ := ssa_visit t4 o1 hv (fun b => by rw [hvr, o2]) (by rw [hpi]; exact hvi) ((hvr b).2 hb)
    obtain ⟨k', k1, k2⟩ := visit_merge V h0 hk (x := e.1.1) (k := e.1.2) (List.mem_map_of_mem (f := (·.1)) he)
    rw [((dead_phi_removal p g.nodes s1).2.2 b).2 e he]
    apply not_congr
    have hD := V.dead hn k1 (fun _ => rfl) (fun _ => rfl)
    rw [← k2] at hD
    constructor
    · rintro ⟨_, v⟩
      obtain ⟨a, i, c, e1, e2, e3⟩ := hD.1 v
      refine ⟨a.map fun j => ((acc j).reads, (acc j).writes), ((acc i).reads, (acc i).writes),
        c.map fun j => ((acc j).reads, (acc j).writes), ?_, by rw [← hpa]; exact e2, ?_⟩
      · show ((insts b).map acc).map _ = _
        rw [← hpi, e1]
        simp
        rfl
      · intro q hq
        rw [← List.map_singleton (f := fun j => ((acc j).reads, (acc j).writes)), ← List.map_append] at hq
        obtain ⟨j, hj, rfl⟩ := List.mem_map.1 hq
        have := e3 j hj
        rw [hpa] at this
        exact this
    · rintro ⟨a, i, c, e1, e2, e3⟩
      refine ⟨hnodes b hb, hD.2 ?_⟩
      have e1 : (insts b).map (fun j => ((acc j).reads, (acc j).writes)) = a ++ i :: c := by
        rw [← e1]
        show _ = ((insts b).map acc).map _
        rw [List.map_map]
        rfl
      obtain ⟨a', r, f1, rfl, f3⟩ := List.map_eq_append_iff.1 e1
      obtain ⟨i', c', rfl, rfl, f6⟩ := List.map_eq_cons_iff.1 f3
      refine ⟨a', i', c', by rw [hpi]; exact f1, by rw [hpa]; exact e2, fun j hj => ?_⟩
      rw [hpa]
      refine e3 ((acc j).reads, (acc j).writes) ?_
      rw [← List.map_singleton (f := fun j => ((acc j).reads, (acc j).writes)), ← List.map_append]
      exact List.mem_map_of_mem (f := fun j => ((acc j).reads, (acc j).writes)) hj
  constructor
  · intro hx
    obtain ⟨e, he, rfl⟩ := List.mem_map.1 hx
    have he1 := (sublist_removeDeadPhi p g.nodes s1 b).subset he
    exact ⟨List.mem_map_of_mem (f := fun e => e.1.1) he1, (hdead e he1).1 he⟩
  · rintro ⟨hx, hw⟩
    obtain ⟨e, he, rfl⟩ := List.mem_map.1 hx
    exact List.mem_map_of_mem (f := fun e => e.1.1) ((hdead e he).2 hw)

/-! ## C88: the parameters of the merge functions -/

/-- C88, how many.  When the SSA form has been built, a merge function of a block has
exactly one parameter for each edge into the block from a block that can be reached,
and every parameter is a name of the register of the merge function. -/
theorem merge_params_count {g : FlowGraph} {root : Nat} (hg : Rooted g.nodes g.succ g.pred root)
    {insts : Nat → List Nat} {acc : Nat → Access} {isEnd : Nat → Bool} {fuel : Nat} (hf : g.nodes.length < fuel)
    {p : SsaProg} {s : SsaSt} (h : ssaBuild g insts acc isEnd fuel root = (pure (p, s) : Run (SsaProg × SsaSt)))
    {vis : List Nat} (hv : vis.Nodup) (hvr : ∀ b, b ∈ vis ↔ Reach g.succ root b) :
    ∀ b, ∀ e ∈ s.phis b, e.2.length = (vis.flatMap g.succ).count b ∧ ∀ q ∈ e.2, q.1 = e.1.1 := by
  obtain ⟨phis, s1, h1, rfl, rfl, rfl, hs, _, o1, o2, h0, hk, hph⟩ := ssa_parts hg hf h
  intro b e he
  have he := (sublist_removeDeadPhi p g.nodes s1 b).subset he
  obtain ⟨ext, x1, x2, _⟩ := renameNode_params fuel root _ s1 h1 b
  have hm : (e.1.1, e.2) ∈ bareMerges s1 b := List.mem_map_of_mem (f := fun e : Name × List Name => (e.1.1, e.2)) he
  rw [x1] at hm
  obtain ⟨r, hr, hre⟩ := List.mem_map.1 hm
  obtain ⟨e0, he0, rfl⟩ := List.mem_map.1 hr
  have hnil := (hph b e0 he0).2.1
  simp only [more, hnil, List.nil_append, Prod.mk.injEq] at hre
  have hperm : vis.Perm (preorder p.domSucc fuel root) :=
    (List.perm_ext_iff_of_nodup hv o1).2 fun b => by rw [hvr, o2]
  have hcount : (vis.flatMap g.succ).count b = ((preorder p.domSucc fuel root).flatMap p.succ).count b := by
    rw [← (hperm.flatMap_right p.succ).count_eq]
    congr 1
    rw [List.flatMap_def, List.flatMap_def]
    congr 1
    apply List.map_congr_left
    intro n hn
    exact (hs n ((hvr n).1 hn)).symm
  rw [← hre.2, ← hre.1]
  refine ⟨by rw [List.length_map, x2, hcount], fun q hq => ?_⟩
  obtain ⟨t, _, rfl⟩ := List.mem_map.1 hq
  rfl

/-- C88, which ones, on the way from the root that always takes the first dominated
block.  When a renaming has ended, no block and no instruction being met twice, let
`c` be a block on that way and consider an edge from `c` to a block `b`.  The
parameter of a merge function of `b` for this edge is the name of its register that
holds at the end of `c`: index 0 if nothing on the way up to there defines the
register, otherwise the last name given to the register on the way by the last merge
function or instruction.  Parameters are ordered by the blocks of the way, edges from
one block by the order of its successors.  Missing for C88: edges from blocks beyond
the first branch, where it is false in general. -/
theorem merge_params_first_branch_partial {p : SsaProg} {fuel root : Nat} {phis : Phis} {s : SsaSt}
    (h0 : ∀ b, ∀ e ∈ phis b, e.1.2 = 0 ∧ e.2 = []) (hk : ∀ b, ((phis b).map (·.1)).Nodup)
    (h : renameVars p fuel root phis = (pure s : Run SsaSt))
    (hn : (preorder p.domSucc fuel root).Nodup) (hni : ((preorder p.domSucc fuel root).flatMap p.insts).Nodup)
    {u v A B : List Nat} {c b : Nat} (hl : Leftmost p.domSucc root (u ++ c :: v)) (hc : p.succ c = A ++ b :: B)
    {e : Name × List Name} (he : e ∈ s.phis b) :
    ∃ k, e.2[(u.flatMap p.succ ++ A).count b]? = some (e.1.1, k) ∧
      ((k = 0 ∧ ∀ d ∈ Spec.defLine p.insts (u ++ [c]), e.1.1 ∉ defRegs p phis d) ∨
       ∃ P d Q, Spec.defLine p.insts (u ++ [c]) = P ++ d :: Q ∧ e.1.1 ∈ defRegs p phis d ∧
        (∀ f ∈ Q, e.1.1 ∉ defRegs p phis f) ∧
        match d with
        | .inst j => ((s.wr j).filter fun nm => decide (nm.1 = e.1.1)).getLast? = some (e.1.1, k)
        | .merge m => (e.1.1, k) ∈ (s.phis m).map (·.1)) := by
  let s0 : SsaSt := ⟨fun _ => 0, fun _ => [0], phis, fun _ => [], fun _ => []⟩
  have h' : renameNode p fuel s0 root = pure s := h
  obtain ⟨ext, x1, _, x3⟩ := renameNode_params fuel root s0 s h' b
  have hm : (e.1.1, e.2) ∈ bareMerges s b := List.mem_map_of_mem (f := fun e : Name × List Name => (e.1.1, e.2)) he
  rw [x1] at hm
  obtain ⟨r, hr, hre⟩ := List.mem_map.1 hm
  obtain ⟨e0, he0, rfl⟩ := List.mem_map.1 hr
  have hnil := (h0 b e0 he0).2
  simp only [more, hnil, List.nil_append, Prod.mk.injEq] at hre
  have hw := renameNode_isWalk fuel root s0 s h'
  obtain ⟨r, hr'⟩ := hl.walk hw
  have hx := x3 e.1.1 0 ⟨rfl, fun t l hl => (List.cons.inj hl).1.symm⟩ u c (v ++ r) A B (by rw [hr']; simp) hc
  have hline : Spec.defLine p.insts (preorder p.domSucc fuel root)
      = Spec.defLine p.insts (u ++ [c]) ++ Spec.defLine p.insts (v ++ r) := by
    rw [hr']
    unfold Spec.defLine
    simp
  have hlast := walk_last (x := e.1.1) (fun b e he => (h0 b e he).1) hk h hw hn hni hline
  rw [line_regs p s0, ← Nat.zero_add (defCount p s0 (u ++ [c]) e.1.1)] at hlast
  refine ⟨_, ?_, hlast⟩
  rw [← hre.2, hre.1, List.getElem?_map, hx]
  rfl

/-- C88 is false beyond the first branch: block 4 has a merge function of register 0
for the edges from blocks 2 and 3.  Instruction 10 of block 1 gives the register
index 1 and instruction 20 of block 2 index 2; at the end of block 3, which writes
nothing and which block 2 does not lead to, the register holds index 1, but the
second parameter carries index 2. -/
theorem merge_params_wrong :
    ∃ p s, ssaBuild forkGraph (fun | 1 => [10] | 2 => [20] | 4 => [40] | _ => [])
        (fun | 40 => ⟨[0], []⟩ | _ => ⟨[], [0]⟩) (fun _ => false) 6 0 = (pure (p, s) : Run (SsaProg × SsaSt)) ∧
      s.wr 10 = [(0, 1)] ∧ s.wr 20 = [(0, 2)] ∧ s.phis 4 = [((0, 3), [(0, 2), (0, 2)])] ∧
      forkGraph.pred 4 = [2, 3] ∧ Dom forkGraph.succ 0 1 3 ∧ ¬ Reach forkGraph.succ 2 3 := by
  have h : ssaTable (ssaBuild forkGraph (fun | 1 => [10] | 2 => [20] | 4 => [40] | _ => [])
        (fun | 40 => ⟨[0], []⟩ | _ => ⟨[], [0]⟩) (fun _ => false) 6 0) [10, 20] [4]
      = some ([([], [(0, 1)]), ([], [(0, 2)])], [[((0, 3), [(0, 2), (0, 2)])]]) := by decide +kernel
  obtain ⟨p, s, h1, h2⟩ := ssaTable_some h
  simp only [List.map_cons, List.map_nil, Prod.mk.injEq, List.cons.injEq, and_true] at h2
  refine ⟨p, s, h1, h2.1.1.2.symm, h2.1.2.2.symm, h2.2.symm, rfl, ?_, ?_⟩
  · intro l q
    cases q with
    | @step _ y _ l e q =>
      have hy : y = 1 := by simpa [forkGraph] using e
      rw [hy] at q
      exact List.mem_cons_of_mem _ (Path.mem_start q)
  · rintro ⟨l, q⟩
    cases q with
    | @step _ y _ l e q =>
      have hy : y = 4 := by simpa [forkGraph] using e
      rw [hy] at q
      cases q with
      | step e q => simp [forkGraph] at e

/-! The example of `Props/Frontier.lean`: blocks 1 and 4 have merge functions of
registers 7 and 8 (`Props/Ssa.lean`).  When block 4 writes register 8 first, its merge
function of it goes; block 1 keeps both. -/

example : ssaTable (ssaBuild domExample (fun n => if n = 4 then [40] else ssaInsts n)
      (fun i => if i = 40 then ⟨[7], [8]⟩ else ssaAcc i) (· == 6) 8 0) [40] [1, 4]
    = some ([([(7, 3)], [(8, 3)])],
      [[((7, 2), [(7, 1), (7, 3)]), ((8, 1), [(8, 0), (8, 3)])], [((7, 3), [(7, 4), (7, 4)])]]) := by decide +kernel

/-- The hypothesis on the instructions. -/
example : ([0, 1, 2, 3, 4, 5].flatMap fun n => if n = 4 then [40] else ssaInsts n).Nodup := by decide

example : WrittenFirst [([7], [8])] 8 ∧ ¬ WrittenFirst [([7], [7])] 7 := by
  refine ⟨⟨[], ([7], [8]), [], rfl, by simp, by simp⟩, ?_⟩
  rintro ⟨u, i, v, h, h1, h2⟩
  have : u = [] ∧ ([7], [7]) = i := by
    cases u with
    | nil => cases h; exact ⟨rfl, rfl⟩
    | cons _ u => simp at h
  obtain ⟨rfl, rfl⟩ := this
  exact h2 ([7], [7]) (by simp) (by simp)

/-- Two edges from reachable blocks lead into block 1 and two into block 4. -/
example : ([0, 1, 2, 3, 4, 5].flatMap domExample.succ).count 1 = 2 ∧
    ([0, 1, 2, 3, 4, 5].flatMap domExample.succ).count 4 = 2 := by decide

end Verif
