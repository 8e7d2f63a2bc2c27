/-!
# Specification: control flow
-/

namespace Verif.Spec

/-- A path whose inner nodes are all in `K`. -/
inductive Via (E : Nat → Nat → Prop) (K : Nat → Prop) : Nat → Nat → Prop
  | direct {a b : Nat} : E a b → Via E K a b
  | thru {a k b : Nat} : E a k → K k → Via E K k b → Via E K a b

/-- In the sequence `l` of instructions, `i` is followed by nothing, by a branch or by
an instruction under another condition, or comes right after an instruction that is
no branch and has the same condition. -/
def SetApart (cond : Nat → Nat) (branch : Nat → Bool) (l : List Nat) (i : Nat) : Prop :=
  (∀ pre j post, l = pre ++ i :: j :: post → branch j = true ∨ cond j ≠ cond i) ∨
  ∃ pre k post, l = pre ++ k :: i :: post ∧ branch k = false ∧ cond k = cond i

/-- The instruction `j` follows `i` in a graph of blocks: in the same block, or by an
edge from the block that ends with `i` to the block that starts with `j`, which may
lead over a conditional node. -/
def Follows (nodes : List Nat) (insts : Nat → List Nat) (cond : Nat → Prop) (E : Nat → Nat → Prop) (i j : Nat) : Prop :=
  (∃ n ∈ nodes, ∃ p q, insts n = p ++ i :: j :: q) ∨
  ∃ u ∈ nodes, ∃ v ∈ nodes, (insts u).getLast? = some i ∧ (insts v).head? = some j ∧
    (E u v ∨ ∃ w, cond w ∧ E u w ∧ E w v)

end Verif.Spec
