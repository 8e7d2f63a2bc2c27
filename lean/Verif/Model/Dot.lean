import Verif.Model.Cfg

/-!
# `libs/dot/dotio.py`

Graphs in the Dot language.  A drawing is what is handed to pydot (`Node`, `Edge`,
`add_node`, `add_edge`), in order; how pydot turns it into text and how it reads text
are not modelled, so reading starts from a drawing as well.  The graphs are those of
pygraph, seen through its methods: `nodes()`, `edges()` (both directions of an edge
that has no direction), `node_attributes`, `edge_attributes`, `edge_label`,
`edge_weight`; labels, weights and attributes are taken as the strings they are
converted to.  `add_node`, `add_edge` and `link` raise `AdditionError` for what is
there already.  Not modelled: the name of the drawing and objects that are no graphs
(`InvalidGraphType`).
-/

namespace Verif

/-- Attributes: a list of keys and values, or a `dict`. -/
abbrev DotAttrs := List (String × String)

/-- A graph as pygraph shows it. -/
structure Gr (α : Type) where
  directed : Bool
  nodes : List α := []
  nodeAttrs : α → DotAttrs := fun _ => []
  edges : List (α × α) := []
  edgeAttrs : α × α → DotAttrs := fun _ => []
  label : α × α → String := fun _ => ""
  weight : α × α → String := fun _ => "1"

/-- `pydot.Node`. -/
structure DotNode where
  name : String
  attrs : DotAttrs
  deriving DecidableEq

/-- `pydot.Edge`. -/
structure DotEdge where
  src : String
  dst : String
  attrs : DotAttrs
  deriving DecidableEq

/-- `pydot.Dot`. -/
structure DotGraph where
  directed : Bool
  nodes : List DotNode
  edges : List DotEdge
  deriving DecidableEq

/-- Filling `attr_list`, dotio.py lines 136-138 and 154-156. -/
def attrDict (l : DotAttrs) : DotAttrs := l.foldl (fun d p => dictSet d p.1 p.2) []

/-- `pydot.Node(name, **attrs)`, dotio.py line 140: a key that is also the name of a
parameter raises. -/
def mkDotNode (name : String) (attrs : DotAttrs) : Py DotNode :=
  if attrs.any fun p => ["self", "name", "obj_dict"].contains p.1 then .error .type else .ok ⟨name, attrs⟩

/-- `pydot.Edge(src, dst, **attrs)`, dotio.py line 167. -/
def mkDotEdge (src dst : String) (attrs : DotAttrs) : Py DotEdge :=
  if attrs.any fun p => ["self", "src", "dst", "obj_dict"].contains p.1 then .error .type else .ok ⟨src, dst, attrs⟩

section write
variable {α : Type} (str : α → String)

/-- What is remembered of an edge, dotio.py lines 148, 151 and 171. -/
def edgeKey (u v : α) : String := str u ++ "-" ++ str v

/-- The attributes of an edge, dotio.py lines 154-165. -/
def edgeDict (g : Gr α) (weighted : Bool) (e : α × α) : DotAttrs :=
  let a := attrDict (g.edgeAttrs e)
  let a := if g.label e ≠ "" then dictSet a "label" (g.label e)
    else if weighted then dictSet a "label" (g.weight e) else a
  if weighted then dictSet a "weight" (g.weight e) else a

/-- One turn of the loop over the edges, dotio.py lines 147-171. -/
def writeDotEdge (g : Gr α) (weighted : Bool) (s : List String × List DotEdge) (e : α × α) :
    Py (List String × List DotEdge) :=
  if edgeKey str e.1 e.2 ∈ s.1 then .ok s
  else if !g.directed && decide (edgeKey str e.2 e.1 ∈ s.1) then .ok s
  else do
    let d ← mkDotEdge (str e.1) (str e.2) (edgeDict g weighted e)
    .ok (s.1 ++ [edgeKey str e.1 e.2], s.2 ++ [d])

/-- `write` of a graph, dotio.py lines 105-173. -/
def writeDot (g : Gr α) (weighted : Bool) : Py DotGraph := do
  let ns ← g.nodes.mapM fun n => mkDotNode (str n) (attrDict (g.nodeAttrs n))
  let r ← g.edges.foldlM (writeDotEdge str g weighted) ([], [])
  .ok ⟨g.directed, ns, r.2⟩

end write

/-- `add_node` of pygraph. -/
def Gr.addNode {α : Type} [DecidableEq α] (g : Gr α) (n : α) : Py (Gr α) :=
  if n ∈ g.nodes then .error .addition else .ok { g with nodes := g.nodes ++ [n] }

/-- `add_node_attribute` of pygraph. -/
def Gr.addNodeAttr {α : Type} [DecidableEq α] (g : Gr α) (n : α) (a : String × String) : Gr α :=
  { g with nodeAttrs := fun x => if x = n then g.nodeAttrs n ++ [a] else g.nodeAttrs x }

/-- The edges that `add_edge` of pygraph makes: both directions in a graph. -/
def Gr.both {α : Type} [DecidableEq α] (g : Gr α) (u v : α) : List (α × α) :=
  if g.directed || decide (u = v) then [(u, v)] else [(u, v), (v, u)]

/-- `add_edge` of pygraph for nodes that are there. -/
def Gr.addEdge {α : Type} [DecidableEq α] (g : Gr α) (u v : α) (wt label : String) : Py (Gr α) :=
  if (u, v) ∈ g.edges then .error .addition
  else .ok { g with
    edges := g.edges ++ g.both u v
    label := fun x => if x ∈ g.both u v then label else g.label x
    weight := fun x => if x ∈ g.both u v then wt else g.weight x }

/-- `add_edge_attribute` of pygraph. -/
def Gr.addEdgeAttr {α : Type} [DecidableEq α] (g : Gr α) (u v : α) (a : String × String) : Gr α :=
  { g with edgeAttrs := fun x => if x ∈ g.both u v then g.edgeAttrs x ++ [a] else g.edgeAttrs x }

/-- Reading a node, dotio.py lines 70-73. -/
def readDotNode (g : Gr String) (n : DotNode) : Py (Gr String) := do
  let g ← g.addNode n.name
  .ok (n.attrs.foldl (fun g a => g.addNodeAttr n.name a) g)

/-- A node that an edge mentions, dotio.py lines 78-81. -/
def Gr.needNode {α : Type} [DecidableEq α] (g : Gr α) (n : α) : Py (Gr α) :=
  if n ∈ g.nodes then .ok g else g.addNode n

/-- Reading an edge, dotio.py lines 76-100. -/
def readDotEdge (g : Gr String) (e : DotEdge) : Py (Gr String) := do
  let g ← g.needNode e.src
  let g ← g.needNode e.dst
  let wt := (dictGet e.attrs "weight").getD "1"
  let label := (dictGet e.attrs "label").getD ""
  let g ← g.addEdge e.src e.dst wt label
  .ok (e.attrs.foldl (fun g a => if ["weight", "label"].contains a.1 then g else g.addEdgeAttr e.src e.dst a) g)

/-- `read`, dotio.py lines 45-102. -/
def readDot (d : DotGraph) : Py (Gr String) := do
  let g ← d.nodes.foldlM readDotNode { directed := d.directed }
  d.edges.foldlM readDotEdge g

/-! ### Hypergraphs -/

/-- A hypergraph of pygraph: nodes, hyperedges, and the nodes each hyperedge links. -/
structure Hyper (α : Type) where
  nodes : List α := []
  hyperedges : List α := []
  links : α → List α := fun _ => []

/-- `colors`, dotio.py lines 38-42. -/
def dotColors : List String :=
  ["aquamarine4", "blue4", "brown4", "cornflowerblue", "cyan4", "darkgreen", "darkorange3", "darkorchid4",
   "darkseagreen4", "darkslategray", "deeppink4", "deepskyblue4", "firebrick3", "hotpink3", "indianred3", "indigo",
   "lightblue4", "lightseagreen", "lightskyblue4", "magenta4", "maroon", "palevioletred3", "steelblue", "violetred3"]

/-- A node of the drawing of a hypergraph, dotio.py line 237. -/
def hyperNode (name : String) : DotNode := ⟨name, [("hyper_node_type", "hypernode")]⟩

/-- The node of the `i`-th hyperedge, dotio.py lines 243-251. -/
def hyperEdgeNode (colored : Bool) (i : Nat) (name : String) : DotNode :=
  if colored then
    ⟨name, [("hyper_node_type", "hyperedge"), ("color", dotColors.getD (i % dotColors.length) ""), ("shape", "point")]⟩
  else ⟨name, [("hyper_node_type", "hyperedge")]⟩

/-- `write_hypergraph`, dotio.py lines 213-259.  The type is not set, so it is the one of
pydot, `digraph`. -/
def writeHyper {α : Type} (str : α → String) (h : Hyper α) (colored : Bool) : DotGraph where
  directed := true
  nodes := h.nodes.map (fun n => hyperNode (str n)) ++
    h.hyperedges.zipIdx.map (fun e => hyperEdgeNode colored e.2 (str e.1))
  edges := h.hyperedges.flatMap fun e => (h.links e).map fun n => ⟨str e, str n, []⟩

/-- `add_node` of a hypergraph. -/
def Hyper.addNode {α : Type} [DecidableEq α] (h : Hyper α) (n : α) : Py (Hyper α) :=
  if n ∈ h.nodes then .error .addition else .ok { h with nodes := h.nodes ++ [n] }

/-- `add_hyperedge`: nothing happens if it is there. -/
def Hyper.addHyperedge {α : Type} [DecidableEq α] (h : Hyper α) (e : α) : Hyper α :=
  if e ∈ h.hyperedges then h else { h with hyperedges := h.hyperedges ++ [e] }

/-- `link`. -/
def Hyper.link {α : Type} [DecidableEq α] (h : Hyper α) (n e : α) : Py (Hyper α) :=
  if n ∉ h.nodes then .error .key
  else if n ∈ h.links e then .error .addition
  else if e ∉ h.hyperedges then .error .key
  else .ok { h with links := fun x => if x = e then h.links e ++ [n] else h.links x }

/-- Reading a node of a hypergraph, dotio.py lines 194-198. -/
def readHyperNode (h : Hyper String) (n : DotNode) : Py (Hyper String) :=
  if dictGet n.attrs "hyper_node_type" = some "hypernode" then h.addNode n.name
  else if dictGet n.attrs "hyper_node_type" = some "hyperedge" then .ok (h.addHyperedge n.name)
  else .ok h

/-- Reading a link, dotio.py lines 201-208.  The variables keep their values from the link
before; without one they are not bound (`UnboundLocalError`, here `runtime`). -/
def readHyperLink (s : Hyper String × Option (String × String)) (e : DotEdge) :
    Py (Hyper String × Option (String × String)) :=
  let l := if e.src ∈ s.1.nodes then some (e.src, e.dst)
    else if e.dst ∈ s.1.nodes then some (e.dst, e.src) else s.2
  match l with
  | none => .error .runtime
  | some p => do
      let h ← s.1.link p.1 p.2
      .ok (h, some p)

/-- `read_hypergraph`, dotio.py lines 176-210. -/
def readHyper (d : DotGraph) : Py (Hyper String) := do
  let h ← d.nodes.foldlM readHyperNode {}
  let r ← d.edges.foldlM readHyperLink (h, none)
  .ok r.1

/-! ### Control flow graphs -/

/-- `CFGBlock.__str__` without a printer, cfg.py lines 357-371.  `text` is the text of an
instruction. -/
def blockText (text : Nat → String) (c : Cfg) (n : Nat) : String :=
  match c.kind n with
  | .root => toString n ++ "-ROOT"
  | .cond => " <" ++ toString n ++ "> "
  | .unknown => toString n ++ "-UNKWN"
  | .fin => toString n ++ "-END"
  | .block =>
    let first := (c.insts n).headD 0
    let last := (c.insts n).getLastD 0
    if first = last then toString n ++ "-" ++ text first
    else toString n ++ "- " ++ text first ++ " ... " ++ text last

/-- A control flow graph as `write` sees it: the edges come in some order. -/
def cfgGr (c : Cfg) (edges : List (Nat × Nat)) : Gr Nat := { directed := true, nodes := c.nodes, edges := edges }

end Verif
