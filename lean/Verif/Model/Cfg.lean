import Verif.Model.Basic

/-!
# `semantic_codec/static_analysis/cfg.py`

`ARMControlFlowGraph` is a pygraph `digraph`: adding a node that is there, an edge
that is there or an edge without its ends raises `AdditionError`; nodes are iterated
in the order they were added and `neighbors`/`incidents` return copies.

An instruction is its position in the list given to the graph; the instructions are
distinct objects and compare by identity (they define no `__eq__`).  A block is the
index that `_add_node` gives it; the graph is built once, so the indices are
distinct.  What the instructions say of themselves (`is_undefined`,
`conditional_field`, `is_branch`, `is_branch_with_link`, `branch_to`) is given and
does not raise.  Not modelled: printing, `get_dict_nodes`.
-/

namespace Verif

/-- The kinds of nodes, cfg.py lines 292-296. -/
inductive BlockKind
  | block | root | cond | unknown | fin
  deriving DecidableEq, Repr

/-- What an instruction says of itself. -/
structure CfgInst where
  undefined : Bool := false
  cond : Nat := 14
  branch : Bool := false
  link : Bool := false
  target : Option Nat := none
  deriving Inhabited

/-- `AOpType.COND_ALWAYS`, arm_constants.py line 83. -/
def condAlways : Nat := 14

/-- The graph. -/
structure Cfg where
  nodes : List Nat := []
  edges : List (Nat × Nat) := []
  kind : Nat → BlockKind := fun _ => .block
  insts : Nat → List Nat := fun _ => []
  pending : List (Nat × List Nat) := []
  lastIdx : Nat := 0

/-- Setting a field of a block. -/
def setAt {α : Type} (f : Nat → α) (k : Nat) (v : α) : Nat → α := fun x => if x = k then v else f x

/-- `_add_node(CFGBlock(insts, kind))`, cfg.py lines 47-56 and 302-326. -/
def Cfg.addBlock (c : Cfg) (kind : BlockKind) (insts : List Nat) : Py (Nat × Cfg) :=
  if insts = [] ∧ kind = .block then .error .runtime
  else
    let n := c.lastIdx + 1
    .ok (n, { c with
      lastIdx := n
      nodes := if n ∈ c.nodes then c.nodes else c.nodes ++ [n]
      kind := setAt c.kind n kind
      insts := setAt c.insts n insts })

/-- `add_edge` of pygraph. -/
def Cfg.addEdge (c : Cfg) (u v : Nat) : Py Cfg :=
  if u ∈ c.nodes ∧ v ∈ c.nodes ∧ (u, v) ∉ c.edges then .ok { c with edges := c.edges ++ [(u, v)] }
  else .error .addition

/-- `del_edge` of pygraph. -/
def Cfg.delEdge (c : Cfg) (u v : Nat) : Py Cfg :=
  if (u, v) ∈ c.edges then .ok { c with edges := c.edges.erase (u, v) } else .error .value

/-- `has_edge` guarding `add_edge`. -/
def Cfg.needEdge (c : Cfg) (u v : Nat) : Py Cfg := if (u, v) ∈ c.edges then .ok c else c.addEdge u v

/-- `incidents` of pygraph. -/
def Cfg.incidents (c : Cfg) (n : Nat) : List Nat := (c.edges.filter fun e => e.2 == n).map (·.1)

/-- `neighbors` of pygraph. -/
def Cfg.neighbors (c : Cfg) (n : Nat) : List Nat := (c.edges.filter fun e => e.1 == n).map (·.2)

/-- `last_is_branch`, cfg.py lines 400-402. -/
def Cfg.lastIsBranch (prog : List CfgInst) (c : Cfg) (n : Nat) : Bool :=
  match (c.insts n).getLast? with
  | none => false
  | some i => ((prog[i]?).map (·.branch)).getD false

/-- `_get_node_with_inst`, cfg.py lines 58-66. -/
def Cfg.nodeWith (c : Cfg) (i : Nat) : Option Nat := c.nodes.find? fun b => decide (i ∈ c.insts b)

/-- Moving the edges into a block that is split, cfg.py lines 89-91. -/
def Cfg.moveEdge (split up : Nat) (c : Cfg) (i : Nat) : Py Cfg := do
  let c ← c.delEdge i split
  c.addEdge i up

/-- The upper half of a block that is split, cfg.py lines 85-92. -/
def Cfg.splitUp (c : Cfg) (split index : Nat) : Py Cfg := do
  let r ← c.addBlock .block ((c.insts split).take index)
  let c := { r.2 with insts := setAt r.2.insts split ((r.2.insts split).drop index) }
  let c ← (c.incidents split).foldlM (Cfg.moveEdge split r.1) c
  c.addEdge r.1 split

/-- `_split_node`, cfg.py lines 79-94. -/
def Cfg.splitNode (c : Cfg) (split branch inst : Nat) : Py Cfg :=
  if inst ∈ c.insts split then do
    let index := (c.insts split).idxOf inst
    let c ← if 0 < index then c.splitUp split index else .ok c
    c.addEdge branch split
  else .error .value

/-- `_add_multiple_edges`, cfg.py lines 200-206. -/
def Cfg.addMultiple (c : Cfg) (dest : Nat) (sources : List Nat) : Py Cfg :=
  sources.foldlM (fun c s => c.needEdge s dest) c

/-- An edge from the current block unless it ends with a branch. -/
def Cfg.fallThrough (prog : List CfgInst) (c : Cfg) (cb n : Nat) : Py Cfg :=
  if c.lastIsBranch prog cb then .ok c else c.addEdge cb n

/-- An edge from the last conditional node, if any and if new. -/
def Cfg.fromCond (c : Cfg) (last : Option Nat) (n : Nat) : Py Cfg :=
  match last with
  | none => .ok c
  | some l => c.needEdge l n

/-- The pending jumps to an instruction, cfg.py lines 120-121. -/
def Cfg.fromPending (c : Cfg) (n inst : Nat) : Py Cfg :=
  match dictGet c.pending inst with
  | none => .ok c
  | some l => c.addMultiple n l

/-- `_branch_conditional`, cfg.py lines 96-135; the block made and the conditional
node, if any. -/
def Cfg.branchConditional (prog : List CfgInst) (c : Cfg) (inst cb : Nat) (last : Option Nat) :
    Py (Cfg × Nat × Option Nat) := do
  let b ← c.addBlock .block [inst]
  if (prog[inst]?.map (·.cond)).getD 0 ≠ condAlways then do
    let n ← b.2.addBlock .cond []
    let c ← n.2.addEdge n.1 b.1
    let c ← c.fallThrough prog cb n.1
    let c ← c.fromCond last n.1
    let c ← c.fromPending n.1 inst
    .ok (c, b.1, some n.1)
  else do
    let c ← b.2.fallThrough prog cb b.1
    let c ← c.fromCond last b.1
    .ok (c, b.1, none)

/-- `_add_pending_jump`, cfg.py lines 140-147. -/
def Cfg.addPending (c : Cfg) (inst block : Nat) : Cfg :=
  { c with pending := dictSet c.pending inst ((dictGet c.pending inst).getD [] ++ [block]) }

/-- A branch to an unknown place, cfg.py lines 170-173; the node made. -/
def Cfg.toUnknown (c : Cfg) (branch fin : Nat) : Py (Nat × Cfg) := do
  let u ← c.addBlock .unknown []
  let c ← u.2.addEdge branch u.1
  let c ← c.addEdge u.1 fin
  .ok (u.1, c)

/-- A branch to an instruction, cfg.py lines 186-196.  `add_edge(branch, to_node)`
has one argument too many: `TypeError`. -/
def Cfg.toInst (c : Cfg) (branch inst target : Nat) : Py Cfg :=
  match c.nodeWith target with
  | none => .ok (c.addPending inst branch)
  | some n => if c.kind n = .cond then .error .type else c.splitNode n branch target

/-- `_branch_instruction` after the node of the branch is there, cfg.py lines
169-198; the graph and the current block if the branch links. -/
def Cfg.branchOut (prog : List CfgInst) (c : Cfg) (branch inst fin : Nat) : Py (Cfg × Option Nat) :=
  let info := prog[inst]?.getD {}
  match info.target with
  | none => do
      let r ← c.toUnknown branch fin
      .ok (r.2, if info.link then some r.1 else none)
  | some t => do
      let c ← c.toInst branch inst t
      .ok (c, if info.link then some branch else none)

/-- Where the loop of `build` stands: the graph, the current block,
`last_cond_field`, `last_cond_node`. -/
structure CfgSt where
  cfg : Cfg
  cb : Nat
  lastCond : Option Nat := none
  lastNode : Option Nat := none

/-- A defined instruction, cfg.py lines 264-284.  The branch of lines 268-270 is
`_branch_instruction(cb, None, inst, end)`, that of lines 283-284
`_branch_instruction(None, cb, inst, end)`, whose result is not used. -/
def cfgDefined (prog : List CfgInst) (fin : Nat) (s : CfgSt) (i : Nat) (info : CfgInst) : Py CfgSt :=
  if s.lastCond = some info.cond then
    if info.branch then do
      let b ← s.cfg.addBlock .block [i]
      let c ← b.2.addEdge s.cb b.1
      let r ← c.branchOut prog b.1 i fin
      .ok { s with cfg := r.1, cb := r.2.getD s.cb, lastCond := none }
    else
      match dictGet s.cfg.pending i with
      | some l => do
          let b ← s.cfg.addBlock .block [i]
          let c ← b.2.addMultiple b.1 l
          let c ← c.addEdge s.cb b.1
          .ok { s with cfg := c, cb := b.1 }
      | none => .ok { s with cfg := { s.cfg with insts := setAt s.cfg.insts s.cb (s.cfg.insts s.cb ++ [i]) } }
  else do
    let r ← s.cfg.branchConditional prog i s.cb s.lastNode
    if info.branch then do
      let q ← r.1.branchOut prog r.2.1 i fin
      .ok { cfg := q.1, cb := r.2.1, lastCond := some info.cond, lastNode := r.2.2 }
    else .ok { cfg := r.1, cb := r.2.1, lastCond := some info.cond, lastNode := r.2.2 }

/-- One instruction, cfg.py lines 260-284. -/
def cfgStep (prog : List CfgInst) (fin : Nat) (s : CfgSt) (i : Nat) : Py CfgSt :=
  match prog[i]? with
  | none => .error .index
  | some info => if info.undefined then .ok s else cfgDefined prog fin s i info

/-- `build`, cfg.py lines 224-288. -/
def buildCfg (prog : List CfgInst) (count : Int) : Py Cfg :=
  if prog = [] then .ok {}
  else do
    let root ← Cfg.addBlock {} .root []
    let fin ← root.2.addBlock .fin []
    let s ← (List.range (if count = -1 then prog.length else count.toNat)).foldlM (cfgStep prog fin.1)
      { cfg := fin.2, cb := root.1 }
    s.cfg.needEdge s.cb fin.1

/-! ### Removing the conditional nodes -/

/-- Edges around a node, cfg.py lines 216-219. -/
def Cfg.bypass (c : Cfg) (n : Nat) : Py Cfg :=
  (c.incidents n).foldlM (fun c p => (c.neighbors n).foldlM (fun c s => c.needEdge p s) c) c

/-- `del_node` of pygraph. -/
def Cfg.delNode (c : Cfg) (n : Nat) : Cfg :=
  { c with nodes := c.nodes.erase n, edges := c.edges.filter fun e => e.1 ≠ n ∧ e.2 ≠ n }

/-- `remove_conditionals`, cfg.py lines 208-222. -/
def Cfg.removeConditionals (c : Cfg) : Py Cfg := do
  let rem := c.nodes.filter fun n => decide (c.kind n = .cond)
  let c ← rem.foldlM Cfg.bypass c
  .ok (rem.foldl Cfg.delNode c)

end Verif
