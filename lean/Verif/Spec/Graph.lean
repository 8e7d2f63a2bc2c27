/-! # Specification: paths and dominance in directed graphs -/

namespace Verif.Spec

/-- `Path succ a l b`: the blocks `l` are a path from `a` to `b`, both included. -/
inductive Path (succ : Nat → List Nat) : Nat → List Nat → Nat → Prop
  | single (a : Nat) : Path succ a [a] a
  | step {a b c : Nat} {l : List Nat} : b ∈ succ a → Path succ b l c → Path succ a (a :: l) c

/-- There is a path. -/
def Reach (succ : Nat → List Nat) (a b : Nat) : Prop := ∃ l, Path succ a l b

/-- `d` dominates `w`: it lies on every path from the root to `w`. -/
def Dom (succ : Nat → List Nat) (root d w : Nat) : Prop := ∀ l, Path succ root l w → d ∈ l

/-- `d` is the immediate dominator of `w`: a dominator other than `w` that is
dominated by every other one. -/
def Idom (succ : Nat → List Nat) (root d w : Nat) : Prop :=
  d ≠ w ∧ Dom succ root d w ∧ ∀ e, e ≠ w → Dom succ root e w → Dom succ root e d

/-- `n` is in the dominance frontier of `b`: `b` dominates a predecessor of `n`
that can be reached, but does not strictly dominate `n`. -/
def Frontier (succ : Nat → List Nat) (root b n : Nat) : Prop :=
  (∃ p, Reach succ root p ∧ n ∈ succ p ∧ Dom succ root b p) ∧ ¬ (b ≠ n ∧ Dom succ root b n)

/-- What is reached from a set of blocks through one or more frontiers. -/
inductive Iterated (F : Nat → Nat → Prop) (W : Nat → Prop) : Nat → Prop
  | first {b d : Nat} : W b → F b d → Iterated F W d
  | next {b d : Nat} : Iterated F W b → F b d → Iterated F W d

/-- A finite graph with a root: the nodes contain the root and the successors of
nodes, and the two neighbour lists describe the same edges. -/
structure Rooted (nodes : List Nat) (succ pred : Nat → List Nat) (root : Nat) : Prop where
  root_mem : root ∈ nodes
  closed : ∀ x ∈ nodes, ∀ y ∈ succ x, y ∈ nodes
  edges : ∀ w v, v ∈ pred w ↔ w ∈ succ v

end Verif.Spec
