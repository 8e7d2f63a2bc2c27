import Verif.Model.Dot
import Mathlib.Data.List.Forall2

/-!
# Specification: what a drawing of a graph shows
-/

namespace Verif.Spec

/-- The value given last for a key. -/
def lastFor (l : List (String × String)) (k : String) : Option String := ((l.filter fun p => p.1 = k).map (·.2)).getLast?

variable {α : Type} (str : α → String) (g : Gr α) (weighted : Bool)

/-- A node is shown under its name with its attributes. -/
def NodeShown (n : α) (x : DotNode) : Prop := x.name = str n ∧ ∀ k, dictGet x.attrs k = lastFor (g.nodeAttrs n) k

/-- An edge is shown between the names of its ends, with its attributes, its label, and if
wanted its weight, which also serves for a missing label. -/
def EdgeShown (e : α × α) (x : DotEdge) : Prop :=
  x.src = str e.1 ∧ x.dst = str e.2 ∧
  ∀ k, dictGet x.attrs k =
    if k = "weight" ∧ weighted = true then some (g.weight e)
    else if k = "label" ∧ g.label e ≠ "" then some (g.label e)
    else if k = "label" ∧ weighted = true then some (g.weight e)
    else lastFor (g.edgeAttrs e) k

/-- No attribute has the name of a parameter of pydot's constructors. -/
def FreeAttrs : Prop :=
  (∀ n ∈ g.nodes, ∀ p ∈ g.nodeAttrs n, p.1 ≠ "self" ∧ p.1 ≠ "name" ∧ p.1 ≠ "obj_dict") ∧
  ∀ e ∈ g.edges, ∀ p ∈ g.edgeAttrs e, p.1 ≠ "self" ∧ p.1 ≠ "src" ∧ p.1 ≠ "dst" ∧ p.1 ≠ "obj_dict"

/-- The drawing shows the nodes and, of the edges, those of the list. -/
def Shows (l : List (α × α)) (d : DotGraph) : Prop :=
  d.directed = g.directed ∧ List.Forall₂ (NodeShown str g) g.nodes d.nodes ∧
    List.Forall₂ (EdgeShown str g weighted) l d.edges

/-- A graph of pygraph whose attributes are not mistaken for anything else: edges lead from
node to node, an edge without direction is there both ways, no key is given twice, and no
edge has an attribute called `label` or `weight`. -/
structure ProperGraph : Prop where
  nodes : g.nodes.Nodup
  edges : g.edges.Nodup
  ends : ∀ e ∈ g.edges, e.1 ∈ g.nodes ∧ e.2 ∈ g.nodes
  sym : g.directed = false → ∀ u v, (u, v) ∈ g.edges → (v, u) ∈ g.edges ∧ g.label (v, u) = g.label (u, v) ∧
    g.weight (v, u) = g.weight (u, v) ∧ g.edgeAttrs (v, u) = g.edgeAttrs (u, v)
  free : FreeAttrs g
  nodeKeys : ∀ n ∈ g.nodes, ((g.nodeAttrs n).map (·.1)).Nodup
  edgeKeys : ∀ e ∈ g.edges, ((g.edgeAttrs e).map (·.1)).Nodup ∧ ∀ p ∈ g.edgeAttrs e, p.1 ≠ "label" ∧ p.1 ≠ "weight"

/-- The graph `g'` is `g` with the names of its nodes as nodes; only labels and weights may
have changed: a weight is known only if it was written, and then it is the label of an edge
that had none. -/
structure ReadBack (g' : Gr String) : Prop where
  directed : g'.directed = g.directed
  nodes : g'.nodes = g.nodes.map str
  nodeAttrs : ∀ n ∈ g.nodes, g'.nodeAttrs (str n) = g.nodeAttrs n
  once : g'.edges.Nodup
  edges : ∀ x y, (x, y) ∈ g'.edges ↔ ∃ u v, (u, v) ∈ g.edges ∧ str u = x ∧ str v = y
  edgeAttrs : ∀ u v, (u, v) ∈ g.edges → g'.edgeAttrs (str u, str v) = g.edgeAttrs (u, v)
  label : ∀ u v, (u, v) ∈ g.edges → g'.label (str u, str v) =
    if g.label (u, v) = "" ∧ weighted = true then g.weight (u, v) else g.label (u, v)
  weight : ∀ u v, (u, v) ∈ g.edges → g'.weight (str u, str v) = if weighted = true then g.weight (u, v) else "1"

/-- Two lines of a drawing between the same two nodes: in the same direction, or in either
if the drawing has no directions. -/
def SameLine (directed : Bool) (a b : DotEdge) : Prop :=
  (a.src = b.src ∧ a.dst = b.dst) ∨ (directed = false ∧ a.src = b.dst ∧ a.dst = b.src)

end Verif.Spec
