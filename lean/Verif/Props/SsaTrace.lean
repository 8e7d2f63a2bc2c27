import Mathlib.Data.List.Nodup
import Verif.Props.Ssa
import Verif.Proof.SsaTrace

/-!
# Property theorems: when the SSA form is built (C112)
-/

namespace Verif

open Spec (Reach Idom Rooted Exposed Trace Smooth StopsAt Step)

theorem ssaBuild_of {g : FlowGraph} {root fuel : Nat} {insts : Nat → List Nat} {acc : Nat → Access} {isEnd : Nat → Bool}
    {t : DomTree} {df : Nat → List Nat} {r : List Nat × Phis}
    (h1 : buildDominatorTree g fuel root = (pure t : Run DomTree))
    (h2 : buildDominanceFrontier g fuel true t = (pure df : Run (Nat → List Nat)))
    (h3 : placePhiNodes g.nodes (fun n => (insts n).map acc) df isEnd fuel true = (pure r : Run (List Nat × Phis))) :
    ssaBuild g insts acc isEnd fuel root =
      renameVars ⟨insts, acc, fun n => if n ∈ t.vertex then g.succ n else [], t.domSucc⟩ fuel root r.2 >>= fun s =>
        pure (⟨insts, acc, fun n => if n ∈ t.vertex then g.succ n else [], t.domSucc⟩,
          removeDeadPhi ⟨insts, acc, fun n => if n ∈ t.vertex then g.succ n else [], t.domSucc⟩ g.nodes s) := by
  unfold ssaBuild
  rw [h1]
  show (buildDominanceFrontier g fuel true t >>= _) = _
  rw [h2]
  show (placePhiNodes g.nodes (fun n => (insts n).map acc) df isEnd fuel true >>= _) = _
  rw [h3]
  rfl

/-- C112, exactly.  Every predecessor of a block that can be reached can be reached.  The
dominator tree, the frontiers and the merge functions are then built, and renaming walks
the tree; the walk is one sequence of steps.  The SSA form is built exactly when every step
of it can be made.  `KeyError` is raised exactly when the first step that cannot be made is
for an unknown register, `IndexError` exactly when it needs a name and none is left. -/
theorem C112_exact {g : FlowGraph} {root : Nat} (hg : Rooted g.nodes g.succ g.pred root)
    (hp : ∀ w, Reach g.succ root w → w ≠ root → ∀ v ∈ g.pred w, Reach g.succ root v)
    (insts : Nat → List Nat) (acc : Nat → Access) (isEnd : Nat → Bool) {fuel : Nat} (hf : g.nodes.length < fuel) :
    ∃ t df gl phis tr, buildDominatorTree g fuel root = (pure t : Run DomTree) ∧
      buildDominanceFrontier g fuel true t = (pure df : Run (Nat → List Nat)) ∧
      placePhiNodes g.nodes (fun n => (insts n).map acc) df isEnd fuel true = (pure (gl, phis) : Run (List Nat × Phis)) ∧
      (∀ d w, w ∈ t.domSucc d ↔ Reach g.succ root w ∧ Idom g.succ root d w) ∧
      (∀ b, ((phis b).map (·.1.1)).Nodup) ∧
      (∀ b, ∀ x ∈ (phis b).map (·.1.1), Exposed g.nodes (fun n => ((insts n).map acc).map fun i => (i.reads, i.writes)) x) ∧
      (∀ u, Trace (fun b => (phis b).map (·.1.1)) insts (fun i => (acc i).reads) (fun i => (acc i).writes) g.succ t.domSucc
        [root] u ↔ u = tr) ∧
      ((∃ r, ssaBuild g insts acc isEnd fuel root = (pure r : Run (SsaProg × SsaSt))) ↔ Smooth tr) ∧
      (ssaBuild g insts acc isEnd fuel root = (raiseRun .key : Run (SsaProg × SsaSt)) ↔ StopsAt tr true) ∧
      (ssaBuild g insts acc isEnd fuel root = (raiseRun .index : Run (SsaProg × SsaSt)) ↔ StopsAt tr false) ∧
      (Smooth tr ∨ StopsAt tr true ∨ StopsAt tr false) := by
  obtain ⟨t, u1, _, u3, u4, u5, _, _, u8, u9⟩ := dominator_tree hg hp (Nat.le_of_lt hf)
  obtain ⟨t', df, v1, v2, _, v4, v5⟩ := dominance_frontier hg hp hf
  rw [u1] at v1
  have := run_pure_inj v1
  subst this
  have hnodes : ∀ x, Reach g.succ root x → x ∈ g.nodes := by
    rintro x ⟨l, p⟩
    have : ∀ a l b, Spec.Path g.succ a l b → a ∈ g.nodes → b ∈ g.nodes := by
      intro a l b p
      induction p with
      | single a => exact id
      | step e _ ih => exact fun ha => ih (hg.closed _ ha _ e)
    exact this _ _ _ p hg.root_mem
  have hdf : ∀ b, ∀ d ∈ df b, d ∈ g.nodes := by
    intro b d hd
    by_cases hb : Reach g.succ root b
    · obtain ⟨⟨q, h1, h2, _⟩, _⟩ := (v4 b hb d).1 hd
      exact hg.closed _ (hnodes _ h1) _ h2
    · rw [((v5 b hb d).1 hd).1]
      exact hg.root_mem
  obtain ⟨gl, phis, w1, _, _, w4⟩ := phi_placement g.nodes (fun n => (insts n).map acc) df isEnd hdf hf
  let V : Nat → List Nat := fun b => (phis b).map (·.1.1)
  let p : SsaProg := ⟨insts, acc, fun n => if n ∈ t.vertex then g.succ n else [], t.domSucc⟩
  have hroot : Reach g.succ root root := ⟨_, .single root⟩
  have hdeep : Deep p.domSucc fuel root :=
    deep_of_count hnodes (fun d w h => (u8 d w).1 h) fuel root hroot (by omega)
  have hR : ∀ n, Reach g.succ root n → ∀ c ∈ p.domSucc n, Reach g.succ root c := fun n _ c hc => ((u8 n c).1 hc).1
  have htr := traceOf_trace (V := V) p (succ := g.succ) (R := Reach g.succ root) hR
    (fun n hn => if_pos ((u3 n).2 hn)) fuel [root] (by
      intro n hn
      rw [List.mem_singleton.1 hn]
      exact ⟨hroot, hdeep⟩)
  rw [List.flatMap_cons, List.flatMap_nil, List.append_nil] at htr
  have htk := renameNode_tracks (V := V) p fuel root hdeep ⟨fun _ => 0, fun _ => [0], phis, fun _ => [], fun _ => []⟩
    (fun b => rfl)
  have hb := ssaBuild_of (isEnd := isEnd) u1 v2 w1
  have hz : ∀ b, ∀ e ∈ phis b, e.1.2 = 0 ∧
      Exposed g.nodes (fun n => ((insts n).map acc).map fun i => (i.reads, i.writes)) e.1.1 := by
    intro b e he
    have := ((w4 b).2 e.1.1 e.1.2 e.2).1 (dictGet_of_mem (w4 b).1 he)
    exact ⟨this.2.1, this.2.2.1⟩
  have hgood : Smooth (traceOf V p fuel root) → ∃ r, ssaBuild g insts acc isEnd fuel root = (pure r : Run (SsaProg × SsaSt)) := by
    intro hs
    obtain ⟨h, e⟩ := scan_smooth _ hs
    unfold Tracks at htk
    rw [show heights ⟨fun _ => 0, fun _ => [0], phis, fun _ => [], fun _ => []⟩ = fun _ => 1 from rfl, e] at htk
    obtain ⟨s', e', _⟩ := htk
    refine ⟨(p, removeDeadPhi p g.nodes s'), ?_⟩
    rw [hb]
    show renameNode p fuel _ root >>= _ = _
    rw [e']
    rfl
  have hbad : ∀ b, StopsAt (traceOf V p fuel root) b →
      ssaBuild g insts acc isEnd fuel root = (raiseRun (stopErr b) : Run (SsaProg × SsaSt)) := by
    intro b hs
    unfold Tracks at htk
    rw [show heights ⟨fun _ => 0, fun _ => [0], phis, fun _ => [], fun _ => []⟩ = fun _ => 1 from rfl, scan_stops hs] at htk
    rw [hb]
    show renameNode p fuel _ root >>= _ = _
    rw [htk]
    rfl
  have hno : ∀ {e e' : Err}, (raiseRun e : Run (SsaProg × SsaSt)) = raiseRun e' → e = e' := by
    intro e e' h
    have h : (some (.error e) : Option (Except Err (SsaProg × SsaSt))) = some (.error e') := h
    cases h
    rfl
  have hall := smooth_or_stops (traceOf V p fuel root)
  refine ⟨t, df, gl, phis, traceOf V p fuel root, u1, v2, w1, u8, ?_, ?_, ?_, ?_, ?_, ?_, ?_⟩
  · intro b
    have h1 : (phis b).map (·.1.1) = ((phis b).map (·.1)).map (·.1) := by simp
    rw [h1]
    refine (w4 b).1.map_on ?_
    intro x hx y hy hxy
    obtain ⟨e, he, rfl⟩ := List.mem_map.1 hx
    obtain ⟨e', he', rfl⟩ := List.mem_map.1 hy
    exact Prod.ext hxy ((hz b e he).1.trans (hz b e' he').1.symm)
  · intro b x hx
    obtain ⟨e, he, rfl⟩ := List.mem_map.1 hx
    exact (hz b e he).2
  · intro u
    exact ⟨trace_unique htr u, fun h => h ▸ htr⟩
  · refine ⟨?_, hgood⟩
    rintro ⟨r, hr⟩
    rcases hall with h | ⟨b, h⟩
    · exact h
    · rw [hbad b h] at hr
      exact absurd hr raiseRun_ne
  · refine ⟨fun hr => ?_, hbad true⟩
    rcases hall with h | ⟨b, h⟩
    · obtain ⟨r, h⟩ := hgood h
      rw [h] at hr
      exact absurd hr.symm raiseRun_ne
    · rw [hbad b h] at hr
      cases b with
      | true => exact h
      | false => exact absurd (hno hr) (by decide)
  · refine ⟨fun hr => ?_, hbad false⟩
    rcases hall with h | ⟨b, h⟩
    · obtain ⟨r, h⟩ := hgood h
      rw [h] at hr
      exact absurd hr.symm raiseRun_ne
    · rw [hbad b h] at hr
      cases b with
      | true => exact absurd (hno hr) (by decide)
      | false => exact h
  · rcases hall with h | ⟨b, h⟩
    · exact Or.inl h
    · cases b with
      | true => exact Or.inr (Or.inl h)
      | false => exact Or.inr (Or.inr h)

/-- C112, without an exception.  The registers are the twenty that have names, and no block
with a merge function both dominates no block and comes last among the blocks that its
immediate dominator dominates. -/
theorem C112_built_partial {g : FlowGraph} {root : Nat} (hg : Rooted g.nodes g.succ g.pred root)
    (hp : ∀ w, Reach g.succ root w → w ≠ root → ∀ v ∈ g.pred w, Reach g.succ root v)
    {insts : Nat → List Nat} {acc : Nat → Access} {isEnd : Nat → Bool} {fuel : Nat} (hf : g.nodes.length < fuel)
    {t : DomTree} {df : Nat → List Nat} {r : List Nat × Phis}
    (h1 : buildDominatorTree g fuel root = (pure t : Run DomTree))
    (h2 : buildDominanceFrontier g fuel true t = (pure df : Run (Nat → List Nat)))
    (h3 : placePhiNodes g.nodes (fun n => (insts n).map acc) df isEnd fuel true = (pure r : Run (List Nat × Phis)))
    (hreg : ∀ n ∈ g.nodes, ∀ i ∈ insts n, (∀ x ∈ (acc i).reads, x < 20) ∧ ∀ x ∈ (acc i).writes, x < 20)
    (hlast : ∀ n m, Reach g.succ root n → (t.domSucc n).getLast? = some m → t.domSucc m = [] → r.2 m = []) :
    ∃ q, ssaBuild g insts acc isEnd fuel root = (pure q : Run (SsaProg × SsaSt)) := by
  obtain ⟨t', df', gl, phis, tr, e1, e2, e3, e4, e5, e6, e7, e8, _⟩ := C112_exact hg hp insts acc isEnd hf
  rw [h1] at e1
  have := run_pure_inj e1
  subst this
  rw [h2] at e2
  have := run_pure_inj e2
  subst this
  rw [h3] at e3
  have := run_pure_inj e3
  subst this
  have hnodes : ∀ x, Reach g.succ root x → x ∈ g.nodes := by
    rintro x ⟨l, p⟩
    have : ∀ a l b, Spec.Path g.succ a l b → a ∈ g.nodes → b ∈ g.nodes := by
      intro a l b p
      induction p with
      | single a => exact id
      | step e _ ih => exact fun ha => ih (hg.closed _ ha _ e)
    exact this _ _ _ p hg.root_mem
  have hR : ∀ n, Reach g.succ root n → ∀ c ∈ t.domSucc n, Reach g.succ root c := fun n _ c hc => ((e4 n c).1 hc).1
  have hroot : ∀ n ∈ [root], Reach g.succ root n := by
    intro n hn
    rw [List.mem_singleton.1 hn]
    exact ⟨_, .single root⟩
  have htr := (e7 tr).2 rfl
  have hV : ∀ b, ∀ x ∈ (phis b).map (·.1.1), x < 20 := by
    intro b x hx
    obtain ⟨n, hn, pre, i, post, e, hi, _⟩ := e6 b x hx
    have hm : i ∈ (fun n => ((insts n).map acc).map fun i => (i.reads, i.writes)) n := by rw [e]; simp
    simp only [List.map_map, List.mem_map, Function.comp] at hm
    obtain ⟨k, hk, rfl⟩ := hm
    exact (hreg n hn k hk).1 x hi
  have hregs := trace_regs hR hV (fun n hn => hreg n (hnodes n hn)) htr hroot
  have hbal := fun x => (trace_balanced e5 hR (fun n m hn h1 h2 => by
    have := hlast n m hn h1 h2
    show (phis m).map _ = []
    rw [show phis m = [] from this]
    rfl) x htr hroot).2
  refine e8.2 fun pre st post b e hs => ?_
  have hpre : pre <+: tr := ⟨st :: post, e.symm⟩
  cases hs with
  | unknown h =>
    have := hregs st (by rw [e]; simp)
    omega
  | @use x _ h =>
    have := hbal x pre hpre
    omega
  | @drop x _ h =>
    have := hbal x pre hpre
    omega

theorem spinGraph_rooted : Rooted spinGraph.nodes spinGraph.succ spinGraph.pred 0 where
  root_mem := by decide
  closed := by decide
  edges := by
    intro w v
    rcases w with _ | _ | w <;> rcases v with _ | _ | v <;> simp [spinGraph]

/-- C112 is false: every block of this graph can be reached, there is one register, and
building the SSA form raises `IndexError`. -/
theorem C112_refuted :
    Rooted spinGraph.nodes spinGraph.succ spinGraph.pred 0 ∧ (∀ n ∈ spinGraph.nodes, Reach spinGraph.succ 0 n) ∧
      ssaBuild spinGraph (fun b => if b = 1 then [10] else []) (fun _ => ⟨[0], [0]⟩) (fun _ => false) 3 0
        = (raiseRun .index : Run (SsaProg × SsaSt)) := by
  refine ⟨spinGraph_rooted, ?_, ssa_rollback_error⟩
  intro n hn
  have : n = 0 ∨ n = 1 := by simpa [spinGraph] using hn
  rcases this with rfl | rfl
  · exact ⟨_, .single 0⟩
  · exact ⟨_, .step (b := 1) (by decide) (.single 1)⟩

theorem smooth_of_scan {t : List Step} {h : Nat → Nat} (e : scan t (fun _ => 1) = .ok h) : Smooth t := by
  rcases smooth_or_stops t with h | ⟨b, h⟩
  · exact h
  · rw [scan_stops h] at e
    cases e

/-- The steps for that graph: block 1 is left, and then its names are dropped again when
block 0 is left. -/
theorem C112_trace_case :
    Trace (fun b => if b = 1 then [0] else []) (fun b => if b = 1 then [10] else []) (fun _ => [0]) (fun _ => [0])
      spinGraph.succ (fun b => if b = 0 then [1] else []) [0]
      [.use 0, .define 0, .use 0, .define 0, .use 0, .drop 0, .drop 0, .drop 0, .drop 0] ∧
    StopsAt [.use 0, .define 0, .use 0, .define 0, .use 0, .drop 0, .drop 0, .drop 0, .drop 0] false ∧
    Smooth [.use 0, .define 0, .use 0, .define 0, .use 0, .drop 0, .drop 0, .drop 0] := by
  have h8 : Smooth [.use 0, .define 0, .use 0, .define 0, .use 0, .drop 0, .drop 0, .drop 0] := smooth_of_scan rfl
  refine ⟨?_, ⟨_, .drop 0, [], rfl, .drop (by decide) (by decide), h8⟩, h8⟩
  exact .cons (t := [.define 0, .use 0, .define 0, .use 0, .drop 0, .drop 0]) (u := [])
    (.cons (t := []) (u := []) .nil .nil) .nil

/-- The value of a run that ends without an exception. -/
def runGet {α : Type} (r : Run α) (d : α) : α :=
  match (r : Option (Except Err α)) with
  | some (.ok a) => a
  | _ => d

def runIsOk {α : Type} (r : Run α) : Bool :=
  match (r : Option (Except Err α)) with
  | some (.ok _) => true
  | _ => false

theorem runGet_eq {α : Type} {r : Run α} (d : α) (h : runIsOk r = true) : r = pure (runGet r d) := by
  match r, h with
  | some (.ok _), _ => rfl
  | some (.error _), h => cases h
  | none, h => cases h

/-- A loop: block 1 leads to the body, block 2, and to the end, block 3.  The body reads and
writes register 0, which is merged in block 1. -/
def whileGraph : FlowGraph where
  nodes := [0, 1, 2, 3]
  succ := fun
    | 0 => [1]
    | 1 => [2, 3]
    | 2 => [1]
    | _ => []
  pred := fun
    | 1 => [0, 2]
    | 2 => [1]
    | 3 => [1]
    | _ => []

theorem whileGraph_rooted : Rooted whileGraph.nodes whileGraph.succ whileGraph.pred 0 where
  root_mem := by decide
  closed := by decide
  edges := by
    intro w v
    rcases w with _ | _ | _ | _ | w <;> rcases v with _ | _ | _ | _ | v <;> simp [whileGraph]

def whileTree : DomTree := runGet (buildDominatorTree whileGraph 5 0) ⟨fun _ => none, fun _ => [], [], []⟩
def whileFrontier : Nat → List Nat := runGet (buildDominanceFrontier whileGraph 5 true whileTree) fun _ => []
def whilePhis : List Nat × Phis :=
  runGet (placePhiNodes whileGraph.nodes (fun n => ((if n = 2 then [20] else []) : List Nat).map fun _ => (⟨[0], [0]⟩ : Access))
    whileFrontier (fun b => b == 3) 5 true) ([], fun _ => [])

/-- A case of `C112_built_partial`: block 1 has a merge function and comes last below block
0, but it dominates other blocks. -/
theorem C112_built_case :
    (whilePhis.2 1).map (·.1) = [(0, 0)] ∧ whileTree.domSucc 0 = [1] ∧
    ∃ q, ssaBuild whileGraph (fun n => if n = 2 then [20] else []) (fun _ => ⟨[0], [0]⟩) (fun b => b == 3) 5 0
      = (pure q : Run (SsaProg × SsaSt)) := by
  refine ⟨by decide +kernel, by decide +kernel, ?_⟩
  have hreach : ∀ n ∈ whileGraph.nodes, Reach whileGraph.succ 0 n := by
    intro n hn
    have : n = 0 ∨ n = 1 ∨ n = 2 ∨ n = 3 := by simpa [whileGraph] using hn
    rcases this with rfl | rfl | rfl | rfl
    · exact ⟨_, .single 0⟩
    · exact ⟨_, .step (b := 1) (by decide) (.single 1)⟩
    · exact ⟨_, .step (b := 1) (by decide) (.step (b := 2) (by decide) (.single 2))⟩
    · exact ⟨_, .step (b := 1) (by decide) (.step (b := 3) (by decide) (.single 3))⟩
  have hin : ∀ n, Reach whileGraph.succ 0 n → n ∈ whileGraph.nodes := by
    rintro x ⟨l, p⟩
    have : ∀ a l b, Spec.Path whileGraph.succ a l b → a ∈ whileGraph.nodes → b ∈ whileGraph.nodes := by
      intro a l b p
      induction p with
      | single a => exact id
      | step e _ ih => exact fun ha => ih (whileGraph_rooted.closed _ ha _ e)
    exact this _ _ _ p whileGraph_rooted.root_mem
  refine C112_built_partial whileGraph_rooted ?_ (by decide) (runGet_eq _ (by decide +kernel) :
    buildDominatorTree whileGraph 5 0 = pure whileTree) (runGet_eq _ (by decide +kernel) :
    buildDominanceFrontier whileGraph 5 true whileTree = pure whileFrontier) (runGet_eq _ (by decide +kernel) :
    placePhiNodes whileGraph.nodes (fun n => ((if n = 2 then [20] else []) : List Nat).map fun _ => (⟨[0], [0]⟩ : Access))
      whileFrontier (fun b => b == 3) 5 true = pure whilePhis) ?_ ?_
  · intro w hw _ v hv
    exact hreach v (by
      have : w ∈ whileGraph.succ v := (whileGraph_rooted.edges w v).1 hv
      rcases v with _ | _ | _ | v
      · decide
      · decide
      · decide
      · cases this)
  · intro n _ i _
    simp
  · have key : ∀ n ∈ whileGraph.nodes, ∀ m ∈ (whileTree.domSucc n).getLast?, whileTree.domSucc m = [] → whilePhis.2 m = [] := by
      decide +kernel
    intro n m hn hm
    exact key n (hin n hn) m hm

end Verif
