import Verif.Model.Frontier

/-!
# `SSAFormBuilder`

`semantic_codec/static_analysis/ssa.py` lines 98-235.  Blocks and instructions are
numbers.  An SSA name is a register with an index.  When an exception is raised the
state is lost: the builder leaves half renamed blocks behind, which are not
modelled.  Python's limit on the depth of recursion is not modelled.
-/

namespace Verif

/-- `AReg.STORAGE_COUNT`, arm_constants.py lines 32-34. -/
def ssaStorages : Nat := 20

/-- An SSA name. -/
abbrev Name := Nat × Nat

/-- What does not change while renaming: the instructions of the blocks, what they
read and write, `successors` (set by the search of the dominators, dominators.py
line 11; empty for the blocks it does not find) and `dom_successors`. -/
structure SsaProg where
  insts : Nat → List Nat
  acc : Nat → Access
  succ : Nat → List Nat
  domSucc : Nat → List Nat

/-- What renaming changes: `counter`, `stack`, `phi_functions` of the blocks,
`ssa_read` and `ssa_written` of the instructions. -/
structure SsaSt where
  counter : Nat → Nat
  stack : Nat → List Nat
  phis : Phis
  rd : Nat → List Name
  wr : Nat → List Name

/-- `_new_name`, ssa.py lines 147-156. -/
def newName (s : SsaSt) (var : Nat) : Run (Name × SsaSt) :=
  if var < ssaStorages then
    pure ((var, s.counter var + 1),
      { s with
        stack := put s.stack var ((s.counter var + 1) :: s.stack var),
        counter := put s.counter var (s.counter var + 1) })
  else raiseRun .key

/-- `stack[var][0]`. -/
def stackTop (s : SsaSt) (var : Nat) : Run Nat :=
  if var < ssaStorages then
    match s.stack var with
    | [] => raiseRun .index
    | i :: _ => pure i
  else raiseRun .key

/-- `stack[var].pop()`. -/
def stackPop (s : SsaSt) (var : Nat) : Run SsaSt :=
  if var < ssaStorages then
    if s.stack var = [] then raiseRun .index
    else pure { s with stack := put s.stack var (s.stack var).dropLast }
  else raiseRun .key

/-- One merge function of the block, ssa.py lines 176-178. -/
def renamePhi (acc : SsaSt × List (Name × List Name)) (e : Name × List Name) : Run (SsaSt × List (Name × List Name)) := do
  let r ← newName acc.1 e.1.1
  pure (r.2, dictSet acc.2 r.1 e.2)

/-- The merge functions of the block, ssa.py lines 174-179. -/
def renamePhis (s : SsaSt) (n : Nat) : Run SsaSt := do
  let r ← (s.phis n).foldlM renamePhi (s, [])
  pure { r.1 with phis := put r.1.phis n r.2 }

/-- One register read, ssa.py lines 183-186. -/
def renameRead (i : Nat) (s : SsaSt) (r : Nat) : Run SsaSt := do
  let t ← stackTop s r
  pure (if (r, t) ∈ s.rd i then s else { s with rd := put s.rd i (s.rd i ++ [(r, t)]) })

/-- One register written, ssa.py lines 187-189. -/
def renameWrite (i : Nat) (s : SsaSt) (w : Nat) : Run SsaSt := do
  let r ← newName s w
  pure { r.2 with wr := put r.2.wr i (r.2.wr i ++ [r.1]) }

/-- One instruction, ssa.py lines 182-189. -/
def renameInst (p : SsaProg) (s : SsaSt) (i : Nat) : Run SsaSt := do
  let s ← (p.acc i).reads.foldlM (renameRead i) s
  (p.acc i).writes.foldlM (renameWrite i) s

/-- One merge function of a successor, ssa.py lines 193-195. -/
def appendParam (s : SsaSt) (e : Name × List Name) : Run (Name × List Name) := do
  let t ← stackTop s e.1.1
  pure (e.1, e.2 ++ [(e.1.1, t)])

/-- One successor, ssa.py lines 192-195. -/
def appendParams (s : SsaSt) (b : Nat) : Run SsaSt := do
  let d ← (s.phis b).mapM (appendParam s)
  pure { s with phis := put s.phis b d }

/-- The instructions of a block that write a register pop it, ssa.py lines
204-206. -/
def rollInst (p : SsaProg) (var : Nat) (s : SsaSt) (i : Nat) : Run SsaSt :=
  if var ∈ (p.acc i).writes then stackPop s var else pure s

/-- One merge function, ssa.py lines 202-207. -/
def rollPhi (p : SsaProg) (m : Nat) (s : SsaSt) (e : Name × List Name) : Run SsaSt := do
  let s ← (p.insts m).foldlM (rollInst p e.1.1) s
  stackPop s e.1.1

/-- `_rename_node`, ssa.py lines 170-207.  The loop over the dominated blocks binds
`n`: the indices are rolled back for the last of them, or for the block itself if
there is none. -/
def renameNode (p : SsaProg) : Nat → SsaSt → Nat → Run SsaSt
  | 0, _, _ => running
  | fuel + 1, s, n => do
      let s ← renamePhis s n
      let s ← (p.insts n).foldlM (renameInst p) s
      let s ← (p.succ n).foldlM appendParams s
      let s ← (p.domSucc n).foldlM (renameNode p fuel) s
      let m := (p.domSucc n).getLast?.getD n
      (s.phis m).foldlM (rollPhi p m) s

/-- `_rename_vars`, ssa.py lines 158-168; the instructions are as made, without SSA
names. -/
def renameVars (p : SsaProg) (fuel root : Nat) (phis : Phis) : Run SsaSt :=
  renameNode p fuel ⟨fun _ => 0, fun _ => [0], phis, fun _ => [], fun _ => []⟩ root

/-! ### Dead merge functions -/

/-- The inner loops of `_remove_dead_phi` for an instruction, ssa.py lines
219-230: whether the merge function is read there, and, if it is not, whether its
register is written. -/
def phiFate (s : SsaSt) (nm : Name) (i : Nat) : Bool × Bool :=
  if nm ∈ s.rd i then (true, false) else (false, (s.wr i).any fun w => decide (nm.1 = w.1) && decide (nm.2 < w.2))

/-- The loop over the instructions, ssa.py lines 217-233: whether the merge
function is kept. -/
def keepPhi (s : SsaSt) (nm : Name) : List Nat → Bool
  | [] => true
  | i :: is =>
      match phiFate s nm i with
      | (true, _) => true
      | (false, true) => false
      | (false, false) => keepPhi s nm is

/-- `_remove_dead_phi`, ssa.py lines 209-235. -/
def removeDeadPhi (p : SsaProg) (nodes : List Nat) (s : SsaSt) : SsaSt :=
  nodes.foldl (fun s n => { s with phis := put s.phis n ((s.phis n).filter fun e => keepPhi s e.1 (p.insts n)) }) s

/-! ### The graph of the values -/

/-- A pygraph `digraph` of SSA names. -/
structure NameGraph where
  nodes : List Name := []
  edges : List (Name × Name) := []

/-- `add_node`. -/
def NameGraph.addNode (d : NameGraph) (x : Name) : Py NameGraph :=
  if x ∈ d.nodes then .error .addition else .ok { d with nodes := d.nodes ++ [x] }

/-- `add_edge`. -/
def NameGraph.addEdge (d : NameGraph) (e : Name × Name) : Py NameGraph :=
  if e.1 ∈ d.nodes ∧ e.2 ∈ d.nodes ∧ e ∉ d.edges then .ok { d with edges := d.edges ++ [e] } else .error .addition

/-- `if not x in d: d.add_node(x)`. -/
def needNode (d : NameGraph) (x : Name) : Py NameGraph := if x ∈ d.nodes then .ok d else d.addNode x

/-- `if not d.has_edge(e): d.add_edge(e)`. -/
def needEdge (d : NameGraph) (e : Name × Name) : Py NameGraph := if e ∈ d.edges then .ok d else d.addEdge e

/-- A source of a value, ssa.py lines 130-134 and 139-143. -/
def addSource (to : Name) (d : NameGraph) (v : Name) : Py NameGraph := do
  let d ← needNode d v
  needEdge d (v, to)

/-- A value with its sources. -/
def addValue (d : NameGraph) (to : Name) (vs : List Name) : Py NameGraph := do
  let d ← needNode d to
  vs.foldlM (addSource to) d

/-- `_build_value_dependency_graph`, ssa.py lines 124-144. -/
def valueGraph (p : SsaProg) (nodes : List Nat) (s : SsaSt) : Py NameGraph :=
  nodes.foldlM (fun d n => do
    let d ← (s.phis n).foldlM (fun (d : NameGraph) (e : Name × List Name) => addValue d e.1 e.2) d
    (p.insts n).foldlM (fun d i => (s.wr i).foldlM (fun d w => addValue d w (s.rd i)) d) d) {}

/-- `build`, ssa.py lines 109-122, up to the graph of the values. -/
def ssaBuild (g : FlowGraph) (insts : Nat → List Nat) (acc : Nat → Access) (isEnd : Nat → Bool) (fuel root : Nat) :
    Run (SsaProg × SsaSt) := do
  let t ← buildDominatorTree g fuel root
  let df ← buildDominanceFrontier g fuel true t
  let r ← placePhiNodes g.nodes (fun n => (insts n).map acc) df isEnd fuel true
  let p : SsaProg := ⟨insts, acc, fun n => if n ∈ t.vertex then g.succ n else [], t.domSucc⟩
  let s ← renameVars p fuel root r.2
  pure (p, removeDeadPhi p g.nodes s)

end Verif
