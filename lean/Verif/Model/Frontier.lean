import Verif.Model.Dominators

/-!
# `build_dominance_frontier` and `place_phi_nodes`

`semantic_codec/static_analysis/ssa.py` lines 8-71.  Blocks are numbers, as in
`Verif.Model.Dominators`; the blocks are as `CFGBlock.__init__` makes them, so
every `dom_frontier` and every `phi_functions` is empty before.
-/

namespace Verif

/-- `n.predecessors`: set by the search for the blocks it finds (dominators.py
line 10), empty for the others (cfg.py line 330). -/
def seenPred (g : FlowGraph) (t : DomTree) (n : Nat) : List Nat := if n ∈ t.vertex then g.pred n else []

/-- `if n not in runner.dom_frontier: runner.dom_frontier.append(n)`, ssa.py lines
22-23. -/
def addOnce (df : Nat → List Nat) (r n : Nat) : Nat → List Nat :=
  if n ∈ df r then df else put df r (df r ++ [n])

/-- `while runner != n.idom`, ssa.py lines 21-24.  `None` has no frontier. -/
def runnerLoop (t : DomTree) (n : Nat) : Nat → Option Nat → (Nat → List Nat) → Run (Nat → List Nat)
  | 0, _, _ => running
  | fuel + 1, runner, df =>
      if runner = t.idom n then pure df
      else match runner with
        | none => raiseRun .attribute
        | some r => runnerLoop t n fuel (t.idom r) (addOnce df r n)

/-- One block, ssa.py lines 18-24. -/
def frontierStep (g : FlowGraph) (fuel : Nat) (t : DomTree) (df : Nat → List Nat) (n : Nat) : Run (Nat → List Nat) :=
  (seenPred g t n).foldlM (fun df p => runnerLoop t n fuel (some p) df) df

/-- `build_dominance_frontier`, ssa.py lines 8-26.  `done` is
`graph.has_computed_dominators`. -/
def buildDominanceFrontier (g : FlowGraph) (fuel : Nat) (done : Bool) (t : DomTree) : Run (Nat → List Nat) :=
  if done then g.nodes.foldlM (frontierStep g fuel t) (fun _ => []) else raiseRun .runtime

/-- What `place_phi_nodes` asks of an instruction: `storages_read()` and
`storages_written()`. -/
structure Access where
  reads : List Nat
  writes : List Nat
deriving DecidableEq

/-- Appending what is not in a list yet. -/
def insertNew (l : List Nat) (x : Nat) : List Nat := if x ∈ l then l else l ++ [x]

/-- The scan of the blocks: `globals_vars`, `blocks`. -/
structure PhiScan where
  globals : List Nat := []
  blocks : List (Nat × List Nat) := []

/-- `for r in read`, ssa.py lines 44-46. -/
def scanReads (kill : List Nat) (gl : List Nat) (rs : List Nat) : List Nat :=
  rs.foldl (fun gl r => if r ∉ gl ∧ r ∉ kill then gl ++ [r] else gl) gl

/-- `if w in blocks: ... else: ...`, ssa.py lines 50-54. -/
def noteWriter (node : Nat) (d : List (Nat × List Nat)) (w : Nat) : List (Nat × List Nat) :=
  match dictGet d w with
  | some ns => if node ∈ ns then d else dictSet d w (ns ++ [node])
  | none => dictSet d w [node]

/-- `for w in written`, ssa.py lines 47-54. -/
def scanWrites (node : Nat) (acc : List Nat × List (Nat × List Nat)) (ws : List Nat) : List Nat × List (Nat × List Nat) :=
  ws.foldl (fun acc w => (insertNew acc.1 w, noteWriter node acc.2 w)) acc

/-- One instruction, ssa.py lines 41-54. -/
def scanInst (node : Nat) (acc : List Nat × PhiScan) (i : Access) : List Nat × PhiScan :=
  let gl := scanReads acc.1 acc.2.globals i.reads
  let w := scanWrites node (acc.1, acc.2.blocks) i.writes
  (w.1, { globals := gl, blocks := w.2 })

/-- One block, ssa.py lines 39-54. -/
def scanBlock (insts : Nat → List Access) (s : PhiScan) (node : Nat) : PhiScan :=
  ((insts node).foldl (scanInst node) ([], s)).2

/-- Merge functions of the blocks: a dictionary from SSA names to parameters. -/
abbrev Phis := Nat → List ((Nat × Nat) × List (Nat × Nat))

/-- One block of a frontier, ssa.py lines 63-68. -/
def placeAt (isEnd : Nat → Bool) (x : Nat) (acc : List Nat × Phis) (d : Nat) : List Nat × Phis :=
  if isEnd d then acc
  else (insertNew acc.1 d,
    if (dictGet (acc.2 d) (x, 0)).isSome then acc.2 else put acc.2 d (dictSet (acc.2 d) (x, 0) []))

/-- `while i < len(work_list)`, ssa.py lines 61-69. -/
def workLoop (df : Nat → List Nat) (isEnd : Nat → Bool) (x : Nat) : Nat → Nat → List Nat → Phis → Run Phis
  | 0, _, _, _ => running
  | fuel + 1, i, wl, phis =>
      match wl[i]? with
      | none => pure phis
      | some b =>
          let r := (df b).foldl (placeAt isEnd x) (wl, phis)
          workLoop df isEnd x fuel (i + 1) r.1 r.2

/-- One global variable, ssa.py lines 57-69. -/
def placeVar (df : Nat → List Nat) (isEnd : Nat → Bool) (fuel : Nat) (blocks : List (Nat × List Nat)) (phis : Phis)
    (x : Nat) : Run Phis :=
  match dictGet blocks x with
  | none => pure phis
  | some ns => workLoop df isEnd x fuel 0 ns phis

/-- `place_phi_nodes`, ssa.py lines 29-71.  `done` is
`graph.has_computed_dominators`. -/
def placePhiNodes (nodes : List Nat) (insts : Nat → List Access) (df : Nat → List Nat) (isEnd : Nat → Bool)
    (fuel : Nat) (done : Bool) : Run (List Nat × Phis) :=
  if done then do
    let s := nodes.foldl (scanBlock insts) {}
    let phis ← s.globals.foldlM (placeVar df isEnd fuel s.blocks) (fun _ => [])
    pure (s.globals, phis)
  else raiseRun .runtime

end Verif
