import Mathlib.Logic.Equiv.Basic
import Verif.Props.DomRelated

/-!
# C146: the names of blocks and registers do not matter to the merge functions
-/

namespace Verif

open Spec

theorem path_renamed {succ succ' : Nat → List Nat} (π : Nat ≃ Nat) (h : ∀ x y, y ∈ succ x ↔ π y ∈ succ' (π x)) {a b : Nat}
    {l : List Nat} : Spec.Path succ a l b ↔ Spec.Path succ' (π a) (l.map π) (π b) := by
  constructor
  · intro p
    induction p with
    | single a => exact .single _
    | step e _ ih => exact .step ((h _ _).1 e) ih
  · intro p
    generalize ha : π a = a' at p
    generalize hb : π b = b' at p
    generalize hl : l.map π = l' at p
    induction p generalizing a l with
    | single c =>
      rw [← ha] at hb hl
      have := π.injective hb
      subst this
      obtain ⟨z, hz, hz'⟩ : ∃ z, l = [z] ∧ π z = π b := by
        rw [List.map_eq_cons_iff] at hl
        obtain ⟨z, m, hm, hz, hn⟩ := hl
        rw [List.map_eq_nil_iff] at hn
        exact ⟨z, by rw [hm, hn], hz.trans hb⟩
      subst hz
      rw [π.injective hz']
      exact .single _
    | step e p ih =>
      rename_i x y z m
      subst hb
      match l, hl with
      | u :: l, hl =>
        simp only [List.map_cons, List.cons.injEq] at hl
        obtain ⟨h1, h2⟩ := hl
        have hua : u = a := π.injective (by rw [h1, ha])
        subst hua
        refine .step (b := π.symm y) ?_ (ih (by simp) rfl h2)
        rw [h, Equiv.apply_symm_apply, ha]
        exact e

theorem path_renamed' {succ succ' : Nat → List Nat} (π : Nat ≃ Nat) (h : ∀ x y, y ∈ succ x ↔ π y ∈ succ' (π x)) {a b : Nat}
    {l : List Nat} : Spec.Path succ' (π a) l (π b) ↔ Spec.Path succ a (l.map π.symm) b := by
  rw [path_renamed π h]
  simp [Function.comp_def]

theorem reach_renamed {succ succ' : Nat → List Nat} (π : Nat ≃ Nat) (h : ∀ x y, y ∈ succ x ↔ π y ∈ succ' (π x)) (a b : Nat) :
    Reach succ' (π a) (π b) ↔ Reach succ a b :=
  ⟨fun ⟨_, p⟩ => ⟨_, (path_renamed' π h).1 p⟩, fun ⟨_, p⟩ => ⟨_, (path_renamed π h).1 p⟩⟩

theorem dom_renamed {succ succ' : Nat → List Nat} (π : Nat ≃ Nat) (h : ∀ x y, y ∈ succ x ↔ π y ∈ succ' (π x)) (root d w : Nat) :
    Dom succ' (π root) (π d) (π w) ↔ Dom succ root d w := by
  constructor
  · intro H l p
    have := H _ ((path_renamed π h).1 p)
    simpa using this
  · intro H l p
    have := H _ ((path_renamed' π h).1 p)
    rw [List.mem_map] at this
    obtain ⟨x, hx, rfl⟩ := this
    simpa using hx

theorem idom_renamed {succ succ' : Nat → List Nat} (π : Nat ≃ Nat) (h : ∀ x y, y ∈ succ x ↔ π y ∈ succ' (π x)) (root d w : Nat) :
    Idom succ' (π root) (π d) (π w) ↔ Idom succ root d w := by
  unfold Idom
  rw [π.injective.ne_iff, dom_renamed π h, π.surjective.forall]
  simp only [π.injective.ne_iff, dom_renamed π h]

theorem frontier_renamed {succ succ' : Nat → List Nat} (π : Nat ≃ Nat) (h : ∀ x y, y ∈ succ x ↔ π y ∈ succ' (π x))
    (root b n : Nat) : Frontier succ' (π root) (π b) (π n) ↔ Frontier succ root b n := by
  unfold Frontier
  rw [π.surjective.exists]
  simp only [π.injective.ne_iff, dom_renamed π h, reach_renamed π h, ← h]

theorem iterated_renamed {F F' : Nat → Nat → Prop} {A A' : Nat → Prop} (π : Nat ≃ Nat)
    (hF : ∀ b n, F' (π b) (π n) ↔ F b n) (hA : ∀ b, A' (π b) ↔ A b) (d : Nat) : Iterated F' A' (π d) ↔ Iterated F A d := by
  constructor
  · intro H
    generalize hd : π d = d' at H
    induction H generalizing d with
    | first hb hf =>
      rename_i b e
      obtain ⟨b, rfl⟩ := π.surjective b
      subst hd
      exact .first ((hA b).1 hb) ((hF b d).1 hf)
    | next _ hf ih =>
      rename_i b e _
      obtain ⟨b, rfl⟩ := π.surjective b
      subst hd
      exact .next (ih b rfl) ((hF b d).1 hf)
  · intro H
    induction H with
    | first hb hf => exact .first ((hA _).2 hb) ((hF _ _).2 hf)
    | next _ hf ih => exact .next ih ((hF _ _).2 hf)

/-- `g'` is `g` with every block called otherwise: the same blocks and the same edges up to
the names, in any order. -/
structure Renamed (π : Nat ≃ Nat) (g g' : FlowGraph) : Prop where
  nodes : ∀ n, n ∈ g.nodes ↔ π n ∈ g'.nodes
  succ : ∀ x y, y ∈ g.succ x ↔ π y ∈ g'.succ (π x)

theorem mem_map_equiv (π : Nat ≃ Nat) (l : List Nat) (y : Nat) : y ∈ l.map π ↔ π.symm y ∈ l := by
  rw [List.mem_map]
  constructor
  · rintro ⟨x, hx, rfl⟩
    simpa using hx
  · intro h
    exact ⟨_, h, by simp⟩

theorem preds_renamed {g g' : FlowGraph} {root : Nat} {π : Nat ≃ Nat} (hr : Renamed π g g')
    (hg : Rooted g.nodes g.succ g.pred root) (hg' : Rooted g'.nodes g'.succ g'.pred (π root)) (w v : Nat) :
    π v ∈ g'.pred (π w) ↔ v ∈ g.pred w := by
  rw [hg'.edges, hg.edges, hr.succ]

/-- **C146.**  Calling the blocks otherwise calls the dominators otherwise and changes
nothing else: the immediate dominator, the edges of the tree, the visited blocks and the
frontiers are those of the original graph under the new names. -/
theorem C146_blocks {g g' : FlowGraph} {root : Nat} {π : Nat ≃ Nat} (hr : Renamed π g g')
    (hg : Rooted g.nodes g.succ g.pred root) (hg' : Rooted g'.nodes g'.succ g'.pred (π root))
    (hp : ∀ w, Reach g.succ root w → w ≠ root → ∀ v ∈ g.pred w, Reach g.succ root v)
    {fuel fuel' : Nat} (hf : g.nodes.length < fuel) (hf' : g'.nodes.length < fuel') :
    ∃ t t' df df', buildDominatorTree g fuel root = (pure t : Run DomTree) ∧
      buildDominatorTree g' fuel' (π root) = (pure t' : Run DomTree) ∧
      buildDominanceFrontier g fuel true t = (pure df : Run (Nat → List Nat)) ∧
      buildDominanceFrontier g' fuel' true t' = (pure df' : Run (Nat → List Nat)) ∧
      (∀ w, t'.idom (π w) = (t.idom w).map π) ∧ (∀ d w, (π d, π w) ∈ t'.edges ↔ (d, w) ∈ t.edges) ∧
      t'.edges.length = t.edges.length ∧ (t.vertex.map π).Perm t'.vertex ∧
      ∀ b, ((df b).map π).Perm (df' (π b)) := by
  have hp' : ∀ w, Reach g'.succ (π root) w → w ≠ π root → ∀ v ∈ g'.pred w, Reach g'.succ (π root) v := by
    intro w hw hne v hv
    obtain ⟨w, rfl⟩ := π.surjective w
    obtain ⟨v, rfl⟩ := π.surjective v
    rw [reach_renamed π hr.succ] at hw ⊢
    rw [preds_renamed hr hg hg'] at hv
    exact hp w hw (fun h => hne (by rw [h])) v hv
  obtain ⟨t, t1, t2, t3, t4, t5, t6, t7, t8, t9⟩ := dominator_tree hg hp hf.le
  obtain ⟨t', t1', t2', t3', t4', t5', t6', t7', t8', t9'⟩ := dominator_tree hg' hp' hf'.le
  obtain ⟨s, df, s1, s2, s3, s4, s5⟩ := dominance_frontier hg hp hf
  obtain ⟨s', df', s1', s2', s3', s4', s5'⟩ := dominance_frontier hg' hp' hf'
  rw [t1] at s1
  have := run_pure_inj s1
  subst this
  rw [t1'] at s1'
  have := run_pure_inj s1'
  subst this
  have hedges : ∀ d w, (π d, π w) ∈ t'.edges ↔ (d, w) ∈ t.edges := by
    intro d w
    rw [t6, t6', reach_renamed π hr.succ, idom_renamed π hr.succ]
  refine ⟨t, t', df, df', t1, t1', s2, s2', ?_, hedges, ?_, ?_, ?_⟩
  · intro w
    apply Option.ext
    intro d
    obtain ⟨d, rfl⟩ := π.surjective d
    rw [t4', reach_renamed π hr.succ, idom_renamed π hr.succ, Option.map_eq_some_iff]
    constructor
    · intro h
      exact ⟨d, (t4 w d).2 (by simpa [π.injective.eq_iff] using h), rfl⟩
    · rintro ⟨e, he, hed⟩
      obtain rfl := π.injective hed
      simpa [π.injective.eq_iff] using (t4 w e).1 he
  · have hperm : (t.edges.map fun e => (π e.1, π e.2)).Perm t'.edges := by
      refine (List.perm_ext_iff_of_nodup (t7.map ?_) t7').2 ?_
      · rintro ⟨a, b⟩ ⟨c, d⟩ h
        simpa [π.injective.eq_iff] using h
      · rintro ⟨a, b⟩
        obtain ⟨a, rfl⟩ := π.surjective a
        obtain ⟨b, rfl⟩ := π.surjective b
        rw [hedges, List.mem_map]
        constructor
        · rintro ⟨⟨c, d⟩, h, e⟩
          simp only [Prod.mk.injEq, π.injective.eq_iff] at e
          rw [← e.1, ← e.2]
          exact h
        · exact fun h => ⟨_, h, rfl⟩
    rw [← hperm.length_eq, List.length_map]
  · refine (List.perm_ext_iff_of_nodup (t2.map π.injective) t2').2 ?_
    intro x
    obtain ⟨x, rfl⟩ := π.surjective x
    rw [mem_map_equiv, Equiv.symm_apply_apply, t3, t3', reach_renamed π hr.succ]
  · intro b
    refine (List.perm_ext_iff_of_nodup ((s3 b).map π.injective) (s3' (π b))).2 ?_
    intro n
    obtain ⟨n, rfl⟩ := π.surjective n
    rw [mem_map_equiv, Equiv.symm_apply_apply]
    by_cases hb : Reach g.succ root b
    · rw [s4 b hb, s4' (π b) ((reach_renamed π hr.succ _ _).2 hb), frontier_renamed π hr.succ]
    · rw [s5 b hb, s5' (π b) (fun h => hb ((reach_renamed π hr.succ _ _).1 h)), π.injective.eq_iff, hr.succ]

/-- An instruction with its registers called otherwise. -/
def renameAccess (σ : Nat ≃ Nat) (i : Access) : Access := ⟨i.reads.map σ, i.writes.map σ⟩

theorem exposed_renamed {ns ns' : List Nat} {I I' : Nat → List Access} (π σ : Nat ≃ Nat)
    (hn : ∀ n, n ∈ ns ↔ π n ∈ ns') (hI : ∀ n ∈ ns, I' (π n) = (I n).map (renameAccess σ)) (x : Nat) :
    Exposed ns' (fun n => (I' n).map fun i => (i.reads, i.writes)) (σ x) ↔
      Exposed ns (fun n => (I n).map fun i => (i.reads, i.writes)) x := by
  unfold Exposed
  constructor
  · rintro ⟨n, hn', pre, i, post, h, hx, hpre⟩
    obtain ⟨n, rfl⟩ := π.surjective n
    rw [← hn] at hn'
    simp only [hI n hn', List.map_map] at h
    obtain ⟨a, b, e, h1, h2⟩ := List.map_eq_append_iff.1 h
    obtain ⟨j, c, e', h3, h4⟩ := List.map_eq_cons_iff.1 h2
    refine ⟨n, hn', a.map (fun i => (i.reads, i.writes)), (j.reads, j.writes), c.map (fun i => (i.reads, i.writes)),
      by simp [e, e'], ?_, ?_⟩
    · rw [← h3] at hx
      simpa [renameAccess, mem_map_equiv] using hx
    · intro k hk
      obtain ⟨q, hq, rfl⟩ := List.mem_map.1 hk
      have := hpre _ (h1 ▸ List.mem_map.2 ⟨q, hq, rfl⟩)
      simpa [renameAccess, mem_map_equiv] using this
  · rintro ⟨n, hn', pre, i, post, h, hx, hpre⟩
    obtain ⟨a, b, e, h1, h2⟩ := List.map_eq_append_iff.1 h
    obtain ⟨j, c, e', h3, h4⟩ := List.map_eq_cons_iff.1 h2
    refine ⟨π n, (hn n).1 hn', a.map (fun i => (i.reads.map σ, i.writes.map σ)), (j.reads.map σ, j.writes.map σ),
      c.map (fun i => (i.reads.map σ, i.writes.map σ)), ?_, ?_, ?_⟩
    · simp only [hI n hn', e, e', List.map_append, List.map_cons, List.map_map]
      rfl
    · rw [← h3] at hx
      simpa [mem_map_equiv] using hx
    · intro k hk
      obtain ⟨q, hq, rfl⟩ := List.mem_map.1 hk
      have := hpre _ (h1 ▸ List.mem_map.2 ⟨q, hq, rfl⟩)
      simpa [mem_map_equiv] using this

theorem writer_renamed {ns ns' : List Nat} {I I' : Nat → List Access} (π σ : Nat ≃ Nat)
    (hn : ∀ n, n ∈ ns ↔ π n ∈ ns') (hI : ∀ n ∈ ns, I' (π n) = (I n).map (renameAccess σ)) (x n : Nat) :
    Writer ns' (fun n => (I' n).map fun i => (i.reads, i.writes)) (σ x) (π n) ↔
      Writer ns (fun n => (I n).map fun i => (i.reads, i.writes)) x n := by
  unfold Writer
  rw [← hn]
  refine and_congr_right fun h => ?_
  simp [hI n h, renameAccess]

/-- **C146.**  Calling the blocks and the registers otherwise calls the merge functions
otherwise and changes nothing else: the block that was `d` merges the register that was
`x` exactly when `d` merged `x`, and every block has as many merge functions as before. -/
theorem C146_merge {g g' : FlowGraph} {root : Nat} {π : Nat ≃ Nat} (hr : Renamed π g g')
    (hg : Rooted g.nodes g.succ g.pred root) (hg' : Rooted g'.nodes g'.succ g'.pred (π root))
    (hp : ∀ w, Reach g.succ root w → ∀ v ∈ g.pred w, Reach g.succ root v)
    (σ : Nat ≃ Nat) (insts insts' : Nat → List Access) (isEnd isEnd' : Nat → Bool)
    (hinsts : ∀ n ∈ g.nodes, insts' (π n) = (insts n).map (renameAccess σ)) (hends : ∀ n, isEnd' (π n) = isEnd n)
    (hend : ∀ b, isEnd b = true → g.succ b = [])
    {fuel fuel' : Nat} (hf : g.nodes.length < fuel) (hf' : g'.nodes.length < fuel') :
    ∃ t t' df df' gl gl' phis phis', buildDominatorTree g fuel root = (pure t : Run DomTree) ∧
      buildDominatorTree g' fuel' (π root) = (pure t' : Run DomTree) ∧
      buildDominanceFrontier g fuel true t = (pure df : Run (Nat → List Nat)) ∧
      buildDominanceFrontier g' fuel' true t' = (pure df' : Run (Nat → List Nat)) ∧
      placePhiNodes g.nodes insts df isEnd fuel true = (pure (gl, phis) : Run (List Nat × Phis)) ∧
      placePhiNodes g'.nodes insts' df' isEnd' fuel' true = (pure (gl', phis') : Run (List Nat × Phis)) ∧
      ∀ d, (∀ x k, dictGet (phis' (π d)) (σ x, k) = dictGet (phis d) (x, k)) ∧
        (phis' (π d)).length = (phis d).length := by
  have hp' : ∀ w, Reach g'.succ (π root) w → ∀ v ∈ g'.pred w, Reach g'.succ (π root) v := by
    intro w hw v hv
    obtain ⟨w, rfl⟩ := π.surjective w
    obtain ⟨v, rfl⟩ := π.surjective v
    rw [reach_renamed π hr.succ] at hw ⊢
    rw [preds_renamed hr hg hg'] at hv
    exact hp w hw v hv
  have hend' : ∀ b, isEnd' b = true → g'.succ b = [] := by
    intro b hb
    obtain ⟨b, rfl⟩ := π.surjective b
    rw [hends] at hb
    refine List.eq_nil_iff_forall_not_mem.2 fun y hy => ?_
    obtain ⟨y, rfl⟩ := π.surjective y
    rw [← hr.succ, hend b hb] at hy
    cases hy
  obtain ⟨t, df, gl, phis, h1, h2, h3, h4⟩ := phi_on_iterated_frontier hg hp insts isEnd hend hf
  obtain ⟨t', df', gl', phis', h1', h2', h3', h4'⟩ := phi_on_iterated_frontier hg' hp' insts' isEnd' hend' hf'
  refine ⟨t, t', df, df', gl, gl', phis, phis', h1, h1', h2, h2', h3, h3', ?_⟩
  intro d
  have hget : ∀ x k, dictGet (phis' (π d)) (σ x, k) = dictGet (phis d) (x, k) := by
    intro x k
    apply Option.ext
    intro v
    rw [(h4 d).2, (h4' (π d)).2, hends, exposed_renamed π σ hr.nodes hinsts,
      iterated_renamed π (fun b n => frontier_renamed π hr.succ root b n)
        (fun b => writer_renamed π σ hr.nodes hinsts x b)]
  refine ⟨hget, ?_⟩
  have hk : ∀ (m : List ((Nat × Nat) × List (Nat × Nat))) (q : Nat × Nat), q ∈ m.map (·.1) ↔ dictGet m q ≠ none := by
    intro m q
    rw [Ne, dictGet_eq_none]
    tauto
  have hperm : (((phis d).map (·.1)).map fun q => (σ q.1, q.2)).Perm ((phis' (π d)).map (·.1)) := by
    refine (List.perm_ext_iff_of_nodup ((h4 d).1.map ?_) (h4' (π d)).1).2 ?_
    · rintro ⟨a, b⟩ ⟨c, e⟩ h
      simpa [σ.injective.eq_iff] using h
    · rintro ⟨x, k⟩
      obtain ⟨x, rfl⟩ := σ.surjective x
      rw [hk, hget, ← hk, List.mem_map]
      constructor
      · rintro ⟨⟨c, e⟩, h, h'⟩
        simp only [Prod.mk.injEq, σ.injective.eq_iff] at h'
        rw [← h'.1, ← h'.2]
        exact h
      · exact fun h => ⟨_, h, rfl⟩
  have := hperm.length_eq
  simpa using this.symm

/-- A graph with its blocks called otherwise. -/
def renameGraph (π : Nat ≃ Nat) (g : FlowGraph) : FlowGraph where
  nodes := g.nodes.map π
  succ x := (g.succ (π.symm x)).map π
  pred x := (g.pred (π.symm x)).map π

/-- The hypotheses hold of any graph and any new names. -/
theorem C146_names (π : Nat ≃ Nat) {g : FlowGraph} {root : Nat} (hg : Rooted g.nodes g.succ g.pred root) :
    Renamed π g (renameGraph π g) ∧
      Rooted (renameGraph π g).nodes (renameGraph π g).succ (renameGraph π g).pred (π root) := by
  refine ⟨⟨fun n => ?_, fun x y => ?_⟩, ?_, ?_, ?_⟩
  · simp [renameGraph]
  · simp [renameGraph]
  · simpa [renameGraph] using hg.root_mem
  · intro x hx y hy
    obtain ⟨x, rfl⟩ := π.surjective x
    obtain ⟨y, rfl⟩ := π.surjective y
    simp only [renameGraph, mem_map_equiv, Equiv.symm_apply_apply] at hx hy ⊢
    exact hg.closed x hx y hy
  · intro w v
    simp only [renameGraph, mem_map_equiv]
    exact hg.edges _ _

/-- The example with the blocks 0 and 6, 1 and 4, and the registers 7 and 1 swapped: the
tree hangs from block 6, the merge functions are still of two registers in two blocks,
now called 1 and 8. -/
def renamedTable (fuel : Nat) : Option (List Nat × List (List (Nat × Nat))) :=
  let π := (Equiv.swap 0 6).trans (Equiv.swap 1 4)
  let g := renameGraph π domExample
  match (do
    let t ← buildDominatorTree g fuel 6
    let df ← buildDominanceFrontier g fuel true t
    placePhiNodes g.nodes (fun n => (phiInsts (π.symm n)).map (renameAccess (Equiv.swap 7 1))) df (· == 0) fuel true :
      Run (List Nat × Phis)) with
  | some (.ok r) => some (r.1, (List.range 7).map fun d => (r.2 d).map (·.1))
  | _ => none

theorem C146_case :
    domTable (buildDominatorTree (renameGraph ((Equiv.swap 0 6).trans (Equiv.swap 1 4)) domExample) 7 6) 7 =
      some ([none, some 4, some 4, some 4, some 6, some 1, none], [(1, 5), (4, 1), (4, 3), (4, 2), (6, 4)],
        [6, 4, 2, 1, 5, 3]) ∧
    renamedTable 8 = some ([1, 8], [[], [(1, 0), (8, 0)], [], [], [(1, 0), (8, 0)], [], []]) := by
  decide +kernel

end Verif
