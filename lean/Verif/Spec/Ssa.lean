/-!
# Specification: registers used across blocks

A block is a list of instructions, an instruction the pair of the registers it
reads and the registers it writes.
-/

namespace Verif.Spec

/-- A register is exposed: some block reads it before writing it. -/
def Exposed (nodes : List Nat) (insts : Nat → List (List Nat × List Nat)) (x : Nat) : Prop :=
  ∃ n ∈ nodes, ∃ pre i post, insts n = pre ++ i :: post ∧ x ∈ i.1 ∧ ∀ j ∈ pre, x ∉ j.2

/-- A block writes a register. -/
def Writer (nodes : List Nat) (insts : Nat → List (List Nat × List Nat)) (x n : Nat) : Prop :=
  n ∈ nodes ∧ ∃ i ∈ insts n, x ∈ i.2

/-- Some instruction writes a register that neither it nor an earlier instruction
reads. -/
def WrittenFirst (insts : List (List Nat × List Nat)) (x : Nat) : Prop :=
  ∃ u i v, insts = u ++ i :: v ∧ x ∈ i.2 ∧ ∀ j ∈ u ++ [i], x ∉ j.1

end Verif.Spec

namespace Verif.Spec

/-- The blocks met by always taking the first dominated block, down to a block
without dominated blocks. -/
inductive Leftmost (domSucc : Nat → List Nat) : Nat → List Nat → Prop
  | leaf {n : Nat} : domSucc n = [] → Leftmost domSucc n [n]
  | step {n c : Nat} {cs l : List Nat} : domSucc n = c :: cs → Leftmost domSucc c l → Leftmost domSucc n (n :: l)

/-- The blocks met by visiting some blocks one after the other, each before the blocks
below it, these in their order. -/
inductive Walk (domSucc : Nat → List Nat) : List Nat → List Nat → Prop
  | nil : Walk domSucc [] []
  | cons {n : Nat} {ns l m : List Nat} : Walk domSucc (domSucc n) l → Walk domSucc ns m →
      Walk domSucc (n :: ns) (n :: (l ++ m))

/-- A place where registers get values: the merge functions of a block, or an
instruction. -/
inductive Def
  | merge (b : Nat)
  | inst (i : Nat)

/-- The places along some blocks, in order. -/
def defLine (insts : Nat → List Nat) (bs : List Nat) : List Def :=
  bs.flatMap fun b => .merge b :: (insts b).map .inst

end Verif.Spec
