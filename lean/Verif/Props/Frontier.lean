import Verif.Props.Dominators
import Verif.Proof.Frontier
import Verif.Proof.PhiPlace

/-!
# Property theorems: dominance frontiers and merge functions (C58, C59)
-/

namespace Verif

open Spec (Reach Dom Idom Rooted Frontier Iterated Exposed Writer)

/-- C58.  After the dominator tree of a finite flow graph in which every
predecessor of a block that can be reached, other than the root, can be reached,
the frontiers are computed without an exception; the frontier of a block that can
be reached is exactly the set of the blocks with a predecessor it dominates that
it does not strictly dominate, without duplicates.  A block that cannot be reached
gets the root as its frontier if it leads to it, nothing otherwise. -/
theorem dominance_frontier {g : FlowGraph} {root : Nat} (hg : Rooted g.nodes g.succ g.pred root)
    (hp : ∀ w, Reach g.succ root w → w ≠ root → ∀ v ∈ g.pred w, Reach g.succ root v)
    {fuel : Nat} (hf : g.nodes.length < fuel) :
    ∃ t df, buildDominatorTree g fuel root = (pure t : Run DomTree) ∧
      buildDominanceFrontier g fuel true t = (pure df : Run (Nat → List Nat)) ∧
      (∀ b, (df b).Nodup) ∧
      (∀ b, Reach g.succ root b → ∀ n, n ∈ df b ↔ Frontier g.succ root b n) ∧
      ∀ b, ¬ Reach g.succ root b → ∀ n, n ∈ df b ↔ n = root ∧ root ∈ g.succ b := by
  obtain ⟨t, t1, _, t3, t4, t5, _⟩ := dominator_tree hg hp (Nat.le_of_lt hf)
  have hnodes : ∀ x, Reach g.succ root x → x ∈ g.nodes := by
    rintro x ⟨l, p⟩
    have : ∀ a l b, Spec.Path g.succ a l b → a ∈ g.nodes → b ∈ g.nodes := by
      intro a l b p
      induction p with
      | single a => exact id
      | step e _ ih => exact fun ha => ih (hg.closed _ ha _ e)
    exact this _ _ _ p hg.root_mem
  obtain ⟨df, e1, e2, e3⟩ := nodes_adds hg.edges hp ⟨t4, t5⟩ t3 hnodes hf g.nodes (fun _ => []) (by simp)
  refine ⟨t, df, t1, e1, e2, ?_, ?_⟩
  · intro b hb n
    rw [e3, ← adds_iff hb]
    constructor
    · rintro (h | h)
      · cases h
      · exact h.2
    · exact fun h => Or.inr ⟨hnodes n h.1, h⟩
  · intro b hb n
    rw [e3, adds_unreach hb]
    constructor
    · rintro (h | ⟨_, h1, h2⟩)
      · cases h
      · by_cases hr : n = root
        · exact ⟨hr, hr ▸ h2⟩
        · exact absurd (hp n h1 hr b ((hg.edges n b).2 h2)) hb
    · rintro ⟨rfl, h⟩
      have hr : Reach g.succ n n := ⟨_, .single n⟩
      exact Or.inr ⟨hnodes n hr, hr, h⟩

/-- Without dominators, `RuntimeError`. -/
theorem dominance_frontier_early (g : FlowGraph) (fuel : Nat) (t : DomTree) :
    buildDominanceFrontier g fuel false t = raiseRun .runtime := rfl

/-- C59, the placement for given frontiers.  The registers returned are those
some block reads before writing them; a block has a merge function of a register,
once and without parameters, exactly when the register is one of these and the
block is reached, through one or more frontiers and without entering the end block,
from a block writing the register. -/
theorem phi_placement (nodes : List Nat) (insts : Nat → List Access) (df : Nat → List Nat) (isEnd : Nat → Bool)
    (hdf : ∀ b, ∀ d ∈ df b, d ∈ nodes) {fuel : Nat} (hf : nodes.length < fuel) :
    ∃ gl phis, placePhiNodes nodes insts df isEnd fuel true = (pure (gl, phis) : Run (List Nat × Phis)) ∧
      gl.Nodup ∧ (∀ x, x ∈ gl ↔ Exposed nodes (fun n => (insts n).map fun i => (i.reads, i.writes)) x) ∧
      ∀ d, ((phis d).map (·.1)).Nodup ∧ ∀ x k v, dictGet (phis d) (x, k) = some v ↔
        v = [] ∧ k = 0 ∧ Exposed nodes (fun n => (insts n).map fun i => (i.reads, i.writes)) x ∧
        Iterated (fun b d => d ∈ df b ∧ isEnd d = false)
          (Writer nodes (fun n => (insts n).map fun i => (i.reads, i.writes)) x) d := by
  obtain ⟨h1, h2, h3, h4⟩ := scanBlocks_ok insts nodes {}
  let s := nodes.foldl (scanBlock insts) {}
  have hw : ∀ x n, n ∈ writersOf s.blocks x ↔ Writer nodes (fun n => (insts n).map fun i => (i.reads, i.writes)) x n := by
    intro x n
    refine (h2 x n).trans ?_
    constructor
    · rintro (h | h)
      · cases h
      · exact h
    · exact Or.inr
  have hgl : ∀ x, x ∈ s.globals ↔ Exposed nodes (fun n => (insts n).map fun i => (i.reads, i.writes)) x := by
    intro x
    refine (h1 x).trans ?_
    constructor
    · rintro (h | h)
      · cases h
      · exact h
    · exact Or.inr
  obtain ⟨phis, e1, e2⟩ := placeVars_ok (U := nodes) (fun b d h _ => hdf b d h)
    (blocks := s.blocks) (fun x b hb => ((hw x b).1 hb).1) (h4 (fun x => by simp [writersOf, dictGet_nil])) hf s.globals
    (isEnd := isEnd) (fun _ _ => False) (fun _ => []) (fun d => ⟨by simp, fun k v => by simp [dictGet_nil]⟩)
  refine ⟨s.globals, phis, ?_, h3 (by simp), hgl, ?_⟩
  · unfold placePhiNodes
    rw [if_pos rfl]
    show ((s.globals.foldlM (placeVar df isEnd fuel s.blocks) (fun _ => []) : Run Phis) >>= _) = _
    rw [run_bind_ok e1]
  · intro d
    refine ⟨(e2 d).1, ?_⟩
    intro x k v
    rw [(e2 d).2]
    have hset : (fun b => b ∈ writersOf s.blocks x) = Writer nodes (fun n => (insts n).map fun i => (i.reads, i.writes)) x :=
      funext fun b => propext (hw x b)
    show v = [] ∧ k = 0 ∧ (False ∨ x ∈ s.globals ∧ Iterated (Followed df isEnd) (fun b => b ∈ writersOf s.blocks x) d) ↔ _
    rw [hset, hgl, false_or]
    exact Iff.rfl

theorem phi_placement_early (nodes : List Nat) (insts : Nat → List Access) (df : Nat → List Nat) (isEnd : Nat → Bool)
    (fuel : Nat) : placePhiNodes nodes insts df isEnd fuel false = raiseRun .runtime := rfl

theorem iterated_end {F : Nat → Nat → Prop} {W : Nat → Prop} {isEnd : Nat → Bool}
    (hend : ∀ b d, isEnd b = true → ¬ F b d) (d : Nat) :
    Iterated (fun b d => F b d ∧ isEnd d = false) W d ↔ Iterated F W d ∧ isEnd d = false := by
  constructor
  · intro h
    induction h with
    | first h1 h2 => exact ⟨.first h1 h2.1, h2.2⟩
    | next _ h2 ih => exact ⟨.next ih.1 h2.1, h2.2⟩
  · rintro ⟨h, h'⟩
    induction h with
    | first h1 h2 => exact .first h1 ⟨h2, h'⟩
    | @next b d h1 h2 ih =>
      have hb : isEnd b = false := by
        cases hb : isEnd b with
        | false => rfl
        | true => exact absurd h2 (hend b d hb)
      exact .next (ih hb) ⟨h2, h'⟩

/-- C59, from the graph.  When every predecessor of a block that can be reached
can be reached and the end blocks have no successors, the three constructions end
without an exception, and a block has a merge function of a register, once and
without parameters, exactly when some block reads the register before writing it,
the block is not an end block, and it is in the iterated dominance frontier of the
blocks that write the register. -/
theorem phi_on_iterated_frontier {g : FlowGraph} {root : Nat} (hg : Rooted g.nodes g.succ g.pred root)
    (hp : ∀ w, Reach g.succ root w → ∀ v ∈ g.pred w, Reach g.succ root v) (insts : Nat → List Access)
    (isEnd : Nat → Bool) (hend : ∀ b, isEnd b = true → g.succ b = []) {fuel : Nat} (hf : g.nodes.length < fuel) :
    ∃ t df gl phis, buildDominatorTree g fuel root = (pure t : Run DomTree) ∧
      buildDominanceFrontier g fuel true t = (pure df : Run (Nat → List Nat)) ∧
      placePhiNodes g.nodes insts df isEnd fuel true = (pure (gl, phis) : Run (List Nat × Phis)) ∧
      ∀ d, ((phis d).map (·.1)).Nodup ∧ ∀ x k v, dictGet (phis d) (x, k) = some v ↔
        v = [] ∧ k = 0 ∧ isEnd d = false ∧
        Exposed g.nodes (fun n => (insts n).map fun i => (i.reads, i.writes)) x ∧
        Iterated (Frontier g.succ root) (Writer g.nodes (fun n => (insts n).map fun i => (i.reads, i.writes)) x) d := by
  classical
  obtain ⟨t, df, t1, t2, _, t4, t5⟩ := dominance_frontier hg (fun w h _ => hp w h) hf
  have hF : ∀ b n, n ∈ df b ↔ Frontier g.succ root b n := by
    intro b n
    by_cases hb : Reach g.succ root b
    · exact t4 b hb n
    · rw [t5 b hb n]
      constructor
      · rintro ⟨_, h⟩
        exact absurd (hp root ⟨_, .single root⟩ b ((hg.edges root b).2 h)) hb
      · rintro ⟨⟨p, h1, _, h3⟩, _⟩
        exact absurd (dom_reach h1 h3) hb
  have hnodes : ∀ b, ∀ d ∈ df b, d ∈ g.nodes := by
    intro b d hd
    obtain ⟨⟨p, ⟨l, q⟩, h2, _⟩, _⟩ := (hF b d).1 hd
    have : ∀ a l b, Spec.Path g.succ a l b → a ∈ g.nodes → b ∈ g.nodes := by
      intro a l b p
      induction p with
      | single a => exact id
      | step e _ ih => exact fun ha => ih (hg.closed _ ha _ e)
    exact hg.closed p (this _ _ _ q hg.root_mem) d h2
  obtain ⟨gl, phis, p1, _, _, p4⟩ := phi_placement g.nodes insts df isEnd hnodes hf
  refine ⟨t, df, gl, phis, t1, t2, p1, ?_⟩
  intro d
  refine ⟨(p4 d).1, ?_⟩
  intro x k v
  rw [(p4 d).2]
  have e : (fun b d => d ∈ df b ∧ isEnd d = false) = fun b d => Frontier g.succ root b d ∧ isEnd d = false := by
    funext b n
    rw [hF]
  rw [e, iterated_end (F := Frontier g.succ root) (isEnd := isEnd)]
  · tauto
  · rintro b n hb ⟨⟨p, h1, h2, h3⟩, h4⟩
    -- from an end block there is no way on
    have hpb : p = b := by
      obtain ⟨l, q⟩ := h1
      obtain ⟨m, q', _⟩ := Path.suffix q (h3 l q)
      cases q' with
      | single => rfl
      | step e' _ => rw [hend b hb] at e'; cases e'
    rw [hpb, hend b hb] at h2
    cases h2

/-! The example of `Props/Dominators.lean`: the loop 1 → 2/3 → 4 → 1. -/

/-- Registers: block 0 writes 7, block 2 writes 8, block 3 reads and writes 7,
block 5 reads both. -/
def phiInsts : Nat → List Access
  | 0 => [⟨[], [7]⟩]
  | 2 => [⟨[], [8]⟩]
  | 3 => [⟨[7], [7]⟩]
  | 5 => [⟨[7], []⟩, ⟨[8], []⟩]
  | _ => []

/-- The merge functions of the example. -/
def phiTable (fuel : Nat) : Option (List Nat × List (List (Nat × Nat))) :=
  match (do
    let t ← buildDominatorTree domExample fuel 0
    let df ← buildDominanceFrontier domExample fuel true t
    placePhiNodes domExample.nodes phiInsts df (· == 6) fuel true : Run (List Nat × Phis)) with
  | some (.ok r) => some (r.1, (List.range 7).map fun d => (r.2 d).map (·.1))
  | _ => none

example : phiTable 8 = some ([7, 8], [[], [(7, 0), (8, 0)], [], [], [(7, 0), (8, 0)], [], []]) := by decide +kernel

example : ∀ w, Reach domExample.succ 0 w → ∀ v ∈ domExample.pred w, Reach domExample.succ 0 v := by
  intro w hw v hv
  by_cases h : w = 0
  · subst h
    cases hv
  · exact domExample_preds w hw h v hv

end Verif
