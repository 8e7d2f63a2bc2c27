import Verif.Proof.DomTree

/-!
# Property theorems: dominators (C57)
-/

namespace Verif

open Spec (Reach Dom Idom Rooted)

/-- C57.  In a finite flow graph in which every predecessor of a block that can be
reached, other than the root, can be reached, building the dominator tree ends
without an exception, whatever bound above the number of blocks is put on its
loops and its recursion.  The search finds every block that can be reached, once.
A block has an immediate dominator exactly when it can be reached and is not the
root, and it is the closest strict dominator: it is on every path from the root
to the block, and every other block with this property is on every path from the
root to it.  The tree has exactly the edges from immediate dominators, and the
lists of dominated blocks say the same, without duplicates. -/
theorem dominator_tree {g : FlowGraph} {root : Nat} (hg : Rooted g.nodes g.succ g.pred root)
    (hp : ∀ w, Reach g.succ root w → w ≠ root → ∀ v ∈ g.pred w, Reach g.succ root v)
    {fuel : Nat} (hf : g.nodes.length ≤ fuel) :
    ∃ t, buildDominatorTree g fuel root = (pure t : Run DomTree) ∧
      t.vertex.Nodup ∧ (∀ x, x ∈ t.vertex ↔ Reach g.succ root x) ∧
      (∀ w d, t.idom w = some d ↔ Reach g.succ root w ∧ Idom g.succ root d w) ∧
      (∀ w, Reach g.succ root w → w ≠ root → ∃ d, t.idom w = some d) ∧
      (∀ d w, (d, w) ∈ t.edges ↔ Reach g.succ root w ∧ Idom g.succ root d w) ∧ t.edges.Nodup ∧
      (∀ d w, w ∈ t.domSucc d ↔ Reach g.succ root w ∧ Idom g.succ root d w) ∧ ∀ d, (t.domSucc d).Nodup := by
  obtain ⟨s, o, h1, T, h3, h4, h5⟩ := dfs_root g root hg.root_mem hg.closed fuel hf
  have hr : ∀ x, x ∈ root :: o ↔ Reach g.succ root x := vertex_iff T
  have hro : root ∉ o := (List.nodup_cons.1 h3).1
  have hV : ∀ w ∈ o, ∀ v ∈ g.pred w, v ∈ root :: o := by
    intro w hw v hv
    rw [hr]
    exact hp w ((hr w).1 (List.mem_cons_of_mem _ hw)) (by rintro rfl; exact hro hw) v hv
  obtain ⟨s1, e1, I⟩ := first_pass T h3 (Nat.le_trans h5 hf) hg.edges hV o [] _ (by simp) (inv_init T h3)
  obtain ⟨f, e2, e3, e4⟩ := second_pass T h3 I o [] s1.idom (by simp) (by simp) (by simp)
  have hnone : ∀ x, x ∉ root :: o → f x = none := by
    intro x hx
    rw [e4 x fun h => hx (List.mem_cons_of_mem _ h)]
    exact I.fresh x fun h => hx h.1
  let idom := put f root none
  have hidom : ∀ w d, idom w = some d ↔ Reach g.succ root w ∧ Idom g.succ root d w := by
    intro w d
    by_cases hw : w = root
    · subst hw
      constructor
      · intro h
        rw [show idom w = none from put_same _ _ _] at h
        cases h
      · exact fun h => absurd h.2 idom_root
    · rw [show idom w = f w from put_ne _ _ _ hw]
      constructor
      · intro h
        by_cases hm : w ∈ root :: o
        · rcases List.mem_cons.1 hm with h' | h'
          · exact absurd h' hw
          · obtain ⟨d', h6, h7⟩ := e3 w h'
            rw [h] at h6
            cases h6
            exact ⟨(hr w).1 hm, h7⟩
        · rw [hnone w hm] at h
          cases h
      · rintro ⟨h6, h7⟩
        rcases List.mem_cons.1 ((hr w).2 h6) with h' | h'
        · exact absurd h' hw
        · obtain ⟨d', h8, h9⟩ := e3 w h'
          rw [h8, idom_unique h6 h7 h9]
  have hmem : ∀ w d, idom w = some d → w ∈ g.nodes := by
    intro w d h
    obtain ⟨⟨l, p⟩, _⟩ := (hidom w d).1 h
    have : ∀ a l b, Spec.Path g.succ a l b → a ∈ g.nodes → b ∈ g.nodes := by
      intro a l b p
      induction p with
      | single a => exact id
      | step e _ ih => exact fun ha => ih (hg.closed _ ha _ e)
    exact this _ _ _ p hg.root_mem
  obtain ⟨t1, t2⟩ := tree_fold idom g.nodes (fun _ => [], []) (by simp)
  obtain ⟨t3, t4⟩ := tree_nodup idom g.nodes (fun _ => [], []) (by simp) (by simp)
  refine ⟨⟨idom, (g.nodes.foldl (treeStep idom) (fun _ => [], [])).1,
    (g.nodes.foldl (treeStep idom) (fun _ => [], [])).2, root :: o⟩, ?_, h3, hr, hidom, ?_, ?_, t4, ?_, t3⟩
  · unfold buildDominatorTree
    rw [h1]
    show ((o.reverse.foldlM (domStep g fuel) { idx := s.idx, parent := s.parent } : Run DomSt) >>= _) = _
    rw [run_bind_ok e1, run_bind_ok (show (((root :: o).drop 1).foldlM idomStep s1 : Run DomSt) = _ from e2)]
  · intro w h6 h7
    rcases List.mem_cons.1 ((hr w).2 h6) with h' | h'
    · exact absurd h' h7
    · obtain ⟨d, h8, _⟩ := e3 w h'
      exact ⟨d, (put_ne _ _ _ h7).trans h8⟩
  · intro d w
    rw [t2, ← hidom]
    constructor
    · rintro (h | h)
      · cases h
      · exact h.2
    · exact fun h => Or.inr ⟨hmem w d h, h⟩
  · intro d w
    rw [t1, ← hidom]
    constructor
    · rintro (h | h)
      · cases h
      · exact h.2
    · exact fun h => Or.inr ⟨hmem w d h, h⟩

/-- The other case: when a block that can be reached, other than the root, has a
predecessor that cannot, building the tree raises `RuntimeError`. -/
theorem dominator_tree_unreachable {g : FlowGraph} {root : Nat} (hg : Rooted g.nodes g.succ g.pred root)
    (hp : ∃ w, Reach g.succ root w ∧ w ≠ root ∧ ∃ v ∈ g.pred w, ¬ Reach g.succ root v)
    {fuel : Nat} (hf : g.nodes.length ≤ fuel) :
    buildDominatorTree g fuel root = (raiseRun .runtime : Run DomTree) := by
  obtain ⟨s, o, h1, T, h3, h4, h5⟩ := dfs_root g root hg.root_mem hg.closed fuel hf
  have hr : ∀ x, x ∈ root :: o ↔ Reach g.succ root x := vertex_iff T
  obtain ⟨w, w1, w2, v, w3, w4⟩ := hp
  have hw : w ∈ o := by
    rcases List.mem_cons.1 ((hr w).2 w1) with h | h
    · exact absurd h w2
    · exact h
  have e := first_pass_error T h3 (Nat.le_trans h5 hf) hg.edges (fun v hv => by rw [h4 v hv]; omega) o [] _
    (by simp) (inv_init T h3) ⟨w, hw, v, w3, fun h => w4 ((hr v).1 h)⟩
  unfold buildDominatorTree
  rw [h1]
  show ((o.reverse.foldlM (domStep g fuel) { idx := s.idx, parent := s.parent } : Run DomSt) >>= _) = _
  rw [e]
  rfl

/-- The immediate dominator is unique. -/
theorem idom_is_unique {succ : Nat → List Nat} {root d e w : Nat} (hw : Reach succ root w)
    (h1 : Idom succ root d w) (h2 : Idom succ root e w) : d = e := idom_unique hw h1 h2

/-! A graph with a loop entered at one block, a diamond and a block that cannot be
reached: 0 → 1, 1 → 2, 1 → 3, 2 → 4, 3 → 4, 4 → 1, 4 → 5, 5 → 5, 6. -/

/-- The example. -/
def domExample : FlowGraph where
  nodes := [6, 5, 4, 3, 2, 1, 0]
  succ x := match x with
    | 0 => [1] | 1 => [2, 3] | 2 => [4] | 3 => [4] | 4 => [1, 5] | 5 => [5] | _ => []
  pred x := match x with
    | 1 => [0, 4] | 2 => [1] | 3 => [1] | 4 => [2, 3] | 5 => [4, 5] | _ => []

theorem domExample_rooted : Rooted domExample.nodes domExample.succ domExample.pred 0 := by
  refine ⟨by decide, by decide, ?_⟩
  intro w v
  rcases w with _ | _ | _ | _ | _ | _ | w <;> rcases v with _ | _ | _ | _ | _ | _ | v <;>
    simp [domExample] <;> omega

/-- What `buildDominatorTree` leaves, as a table. -/
def domTable (r : Run DomTree) (n : Nat) : Option (List (Option Nat) × List (Nat × Nat) × List Nat) :=
  match (r : Option (Except Err DomTree)) with
  | some (.ok t) => some ((List.range n).map t.idom, t.edges, t.vertex)
  | _ => none

example : domTable (buildDominatorTree domExample 7 0) 7
    = some ([none, some 0, some 1, some 1, some 1, some 4, none],
        [(4, 5), (1, 4), (1, 3), (1, 2), (0, 1)], [0, 1, 2, 4, 5, 3]) := by decide +kernel

theorem domExample_reach (x : Nat) : Reach domExample.succ 0 x ↔ x ≤ 5 := by
  constructor
  · rintro ⟨l, p⟩
    have : ∀ a l b, Spec.Path domExample.succ a l b → a ≤ 5 → b ≤ 5 := by
      intro a l b p
      induction p with
      | single a => exact id
      | @step a b c l e _ ih =>
        intro ha
        apply ih
        rcases a with _ | _ | _ | _ | _ | _ | a <;> simp [domExample] at e <;> omega
    exact this _ _ _ p (by omega)
  · intro h
    have p0 : Spec.Path domExample.succ 0 [0, 1, 2, 4, 5] 5 :=
      .step (by decide) (.step (by decide) (.step (by decide) (.step (by decide) (.single 5))))
    have hx : x = 0 ∨ x = 1 ∨ x = 2 ∨ x = 3 ∨ x = 4 ∨ x = 5 := by omega
    rcases hx with rfl | rfl | rfl | rfl | rfl | rfl
    · exact ⟨_, .single 0⟩
    · exact ⟨_, .step (by decide) (.single 1)⟩
    · exact ⟨[0, 1, 2], .step (b := 1) (by decide) (.step (by decide) (.single 2))⟩
    · exact ⟨[0, 1, 3], .step (b := 1) (by decide) (.step (by decide) (.single 3))⟩
    · exact ⟨[0, 1, 2, 4], .step (b := 1) (by decide) (.step (b := 2) (by decide) (.step (by decide) (.single 4)))⟩
    · exact ⟨_, p0⟩

/-- The hypotheses of `dominator_tree` hold of the example. -/
theorem domExample_preds : ∀ w, Reach domExample.succ 0 w → w ≠ 0 → ∀ v ∈ domExample.pred w,
    Reach domExample.succ 0 v := by
  intro w hw _ v hv
  rw [domExample_reach] at *
  rcases w with _ | _ | _ | _ | _ | _ | w <;> simp [domExample] at hv <;> omega

/-- With an edge from the block that cannot be reached, the exception. -/
def domExampleBad : FlowGraph where
  nodes := [0, 1, 2]
  succ x := match x with
    | 0 => [1] | 2 => [1] | _ => []
  pred x := match x with
    | 1 => [0, 2] | _ => []

example : domTable (buildDominatorTree domExampleBad 3 0) 3 = none := by decide +kernel

example : ∃ w, Reach domExampleBad.succ 0 w ∧ w ≠ 0 ∧ ∃ v ∈ domExampleBad.pred w, ¬ Reach domExampleBad.succ 0 v := by
  refine ⟨1, ⟨_, .step (show 1 ∈ [1] by simp) (.single 1)⟩, by omega, 2, by decide, ?_⟩
  rintro ⟨l, p⟩
  have : ∀ a l b, Spec.Path domExampleBad.succ a l b → a ≤ 1 → b ≤ 1 := by
    intro a l b p
    induction p with
    | single a => exact id
    | @step a b c l e _ ih =>
      intro ha
      apply ih
      rcases a with _ | _ | a <;> simp [domExampleBad] at e <;> omega
  have := this _ _ _ p (by omega)
  omega

end Verif
