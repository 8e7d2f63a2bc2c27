import Verif.Model.Basic

/-!
# `semantic_codec/static_analysis/dominators.py`

A block is a number.  A graph is its list of nodes in the order of iteration and,
for every node, the lists that pygraph's `neighbors` and `incidents` return.  The
fields of the block objects are functions from blocks; the blocks are as
`CFGBlock.__init__` makes them (cfg.py lines 302-348), so the tree is built for the
first time.  Python's limit on the depth of recursion is not modelled.
-/

namespace Verif

/-- A computation that may raise; `none` when it is still running after the given
number of turns of its loops. -/
abbrev Run := ExceptT Err Option

/-- Still running. -/
def running {α : Type} : Run α := (none : Option (Except Err α))

/-- An exception. -/
def raiseRun {α : Type} (e : Err) : Run α := (some (.error e) : Option (Except Err α))

/-- A directed graph as pygraph's `digraph` shows it. -/
structure FlowGraph where
  nodes : List Nat
  succ : Nat → List Nat
  pred : Nat → List Nat

/-- Setting a field of a block. -/
def put {α : Type} (f : Nat → α) (k : Nat) (v : α) : Nat → α := fun x => if x = k then v else f x

/-- The fields of the blocks that the search sets: `visited`, `dom_parent`,
`dom_idx`. -/
structure DfsSt where
  visited : List Nat := []
  parent : Nat → Option Nat := fun _ => none
  idx : Nat → Int := fun _ => -1

/-- `dominator_tree_dfs`, dominators.py lines 4-18.  `node.predecessors` and
`node.successors` are not stored: they are `pred` and `succ` of the graph for
every visited node. -/
def dominatorTreeDfs (g : FlowGraph) : Nat → Nat → Int → DfsSt → Option (DfsSt × List Nat)
  | 0, _, _, _ => none
  | fuel + 1, node, index, s =>
      (g.succ node).foldlM (init := ({ s with idx := put s.idx node index, visited := s.visited ++ [node] }, [node]))
        fun (acc : DfsSt × List Nat) n =>
          if n ∈ acc.1.visited then some acc
          else do
            let r ← dominatorTreeDfs g fuel n (index + 1) { acc.1 with parent := put acc.1.parent n (some node) }
            pure (r.1, acc.2 ++ r.2)

/-- The fields of the blocks that the construction uses. -/
structure DomSt where
  idx : Nat → Int
  parent : Nat → Option Nat
  semi : Nat → Nat := fun x => x
  anc : Nat → Option Nat := fun _ => none
  bucket : Nat → List Nat := fun _ => []
  idom : Nat → Option Nat := fun _ => none

/-- `dom_semi_idx`, cfg.py lines 350-355. -/
def semiIdx (s : DomSt) (v : Nat) : Run Int :=
  if s.idx (s.semi v) < 0 then raiseRun .runtime else pure (s.idx (s.semi v))

/-- The loop of `dominator_eval`, dominators.py lines 74-77. -/
def evalLoop (s : DomSt) : Nat → Nat → Nat → Run Nat
  | 0, _, _ => running
  | fuel + 1, v, a =>
      match s.anc a with
      | none => pure v
      | some b => do
          let x ← semiIdx s v
          let y ← semiIdx s a
          evalLoop s fuel (if y < x then a else v) b

/-- `dominator_eval`, dominators.py lines 67-78. -/
def dominatorEval (fuel : Nat) (s : DomSt) (v : Nat) : Run Nat :=
  match s.anc v with
  | none => pure v
  | some a => evalLoop s fuel v a

/-- One predecessor, dominators.py lines 31-34. -/
def scanPred (fuel w : Nat) (s : DomSt) (v : Nat) : Run DomSt := do
  let u ← dominatorEval fuel s v
  let a ← semiIdx s u
  let b ← semiIdx s w
  pure (if a < b then { s with semi := put s.semi w (s.semi u) } else s)

/-- One block of the bucket, dominators.py lines 42-44. -/
def popOne (fuel p : Nat) (s : DomSt) (v : Nat) : Run DomSt := do
  let u ← dominatorEval fuel s v
  let a ← semiIdx s u
  let b ← semiIdx s v
  pure { s with idom := put s.idom v (some (if a < b then u else p)) }

/-- One block of the first pass, dominators.py lines 28-44.  Popping from the end
until the bucket is empty goes through it backwards. -/
def domStep (g : FlowGraph) (fuel : Nat) (s : DomSt) (w : Nat) : Run DomSt := do
  let s ← (g.pred w).foldlM (scanPred fuel w) s
  let s := { s with bucket := put s.bucket (s.semi w) (s.bucket (s.semi w) ++ [w]), anc := put s.anc w (s.parent w) }
  match s.parent w with
  | none => raiseRun .attribute
  | some p => (s.bucket p).reverse.foldlM (popOne fuel p) { s with bucket := put s.bucket p [] }

/-- One block of the second pass, dominators.py lines 46-49. -/
def idomStep (s : DomSt) (w : Nat) : Run DomSt :=
  if s.idom w = some (s.semi w) then pure s
  else match s.idom w with
    | none => raiseRun .attribute
    | some d => pure { s with idom := put s.idom w (s.idom d) }

/-- What building the tree leaves: `idom` and `dom_successors` of the blocks, the
edges of the tree, and the blocks found by the search. -/
structure DomTree where
  idom : Nat → Option Nat
  domSucc : Nat → List Nat
  edges : List (Nat × Nat)
  vertex : List Nat

/-- One node of the tree, dominators.py lines 58-63. -/
def treeStep (idom : Nat → Option Nat) (acc : (Nat → List Nat) × List (Nat × Nat)) (n : Nat) :
    (Nat → List Nat) × List (Nat × Nat) :=
  match idom n with
  | none => acc
  | some d =>
      (if n ∈ acc.1 d then acc.1 else put acc.1 d (acc.1 d ++ [n]),
       if (d, n) ∈ acc.2 then acc.2 else acc.2 ++ [(d, n)])

/-- `build_dominator_tree`, dominators.py lines 21-64. -/
def buildDominatorTree (g : FlowGraph) (fuel root : Nat) : Run DomTree := do
  let d ← (match dominatorTreeDfs g fuel root 0 {} with
    | none => running
    | some d => pure d : Run (DfsSt × List Nat))
  let s ← (d.2.drop 1).reverse.foldlM (domStep g fuel) { idx := d.1.idx, parent := d.1.parent }
  let s ← (d.2.drop 1).foldlM idomStep s
  let idom := put s.idom root none
  let t := g.nodes.foldl (treeStep idom) (fun _ => [], [])
  pure { idom := idom, domSucc := t.1, edges := t.2, vertex := d.2 }

end Verif
