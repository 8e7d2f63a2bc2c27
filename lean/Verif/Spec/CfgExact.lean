import Verif.Spec.CfgEdges

/-!
# Specification: the control flow graph of a sequence of instructions, exactly

Everything here is said of the sequence of instructions only.
-/

namespace Verif.Spec

/-- A node as the end of an edge: an edge leaves a block by its last instruction and
enters it by its first one; a conditional node is known by the instruction it guards,
an unknown node by its branch. -/
inductive CfgEnd
  | root | fin
  | block (i : Nat)
  | cond (i : Nat)
  | unknown (i : Nat)
  deriving DecidableEq, Repr

/-- Of the instructions so far, last first, the one the current group is guarded by. -/
def guardRev (cond : Nat → Nat) (branch : Nat → Bool) : List Nat → Option Nat
  | [] => none
  | b :: d => if Opens cond branch d b then if cond b = condAlways then none else some b else guardRev cond branch d

/-- Where control is passed on from after some instructions, last first: from the last
one; from the one before when the last one is a branch without link that opens no
group; from the unknown place when it is a call of an unknown place that opens no
group. -/
def placeRev (cond : Nat → Nat) (branch link : Nat → Bool) (target : Nat → Option Nat) : List Nat → CfgEnd
  | [] => .root
  | b :: d =>
      if branch b && !Opens cond branch d b then
        if link b then match target b with
          | none => .unknown b
          | some _ => .block b
        else match d with
          | [] => .root
          | a :: _ => .block a
      else .block b

section
variable (L : Line)

/-- See `guardRev`. -/
def Line.guard (d : List Nat) : Option Nat := guardRev L.cond L.branch d.reverse

/-- See `placeRev`. -/
def Line.place (d : List Nat) : CfgEnd := placeRev L.cond L.branch L.link L.target d.reverse

/-- Control is not passed on from a block that ends with a branch. -/
def Line.passes : CfgEnd → Prop
  | .block a => L.branch a = false
  | _ => True

/-- How an instruction that opens a group is entered. -/
def Line.entry (k : Nat) : CfgEnd := if L.cond k = condAlways then .block k else .cond k

/-- A block starts with `x`: it opens a group, is a branch, or is the target of a branch
that does not come before it. -/
def Line.Starts (x : Nat) : Prop :=
  ∃ d r, L.line = d ++ x :: r ∧
    (L.opens d x = true ∨ L.branch x = true ∨ ∃ j ∈ x :: r, L.branch j = true ∧ L.target j = some x)

/-- There is a conditional node for `x`. -/
def Line.Guarded (x : Nat) : Prop := ∃ d r, L.line = d ++ x :: r ∧ L.opens d x = true ∧ L.cond x ≠ condAlways

/-- There is an unknown node for `i`. -/
def Line.Leaves (i : Nat) : Prop := i ∈ L.line ∧ L.branch i = true ∧ L.target i = none

/-- After `i` come, up to `j`, the instructions of its group that are no branches. -/
def Line.RunsTo (i j : Nat) : Prop :=
  ∃ d m r, L.line = d ++ i :: (m ++ r) ∧ (i :: m).getLast? = some j ∧
    (∀ m1 x m2, m = m1 ++ x :: m2 → L.branch x = false ∧ L.opens (d ++ i :: m1) x = false) ∧
    ∀ x r', r = x :: r' → L.branch x = true ∨ L.opens (d ++ i :: m) x = true

/-- The edges but for those that the end of the sequence adds. -/
inductive Line.Edge : CfgEnd → CfgEnd → Prop
  /-- To the next group, unless after a branch. -/
  | flow {d r : List Nat} {k : Nat} : L.line = d ++ k :: r → L.opens d k = true → L.passes (L.place d) →
      Edge (L.place d) (L.entry k)
  /-- To the next group when the condition fails. -/
  | skip {d r : List Nat} {k x : Nat} : L.line = d ++ k :: r → L.opens d k = true → L.guard d = some x →
      Edge (.cond x) (L.entry k)
  /-- The condition holds. -/
  | holds {x : Nat} : L.Guarded x → Edge (.cond x) (.block x)
  /-- To the next block of the same group. -/
  | cut {d r : List Nat} {a k : Nat} : L.line = d ++ a :: k :: r → L.opens (d ++ [a]) k = false → L.Starts k →
      Edge (.block a) (.block k)
  /-- A branch to an unknown place. -/
  | leave {i j : Nat} : L.Leaves i → L.RunsTo i j → Edge (.block j) (.unknown i)
  /-- The unknown place may be the end. -/
  | away {i : Nat} : L.Leaves i → Edge (.unknown i) .fin
  /-- A branch back or to itself. -/
  | jump {d r : List Nat} {i j t : Nat} : L.line = d ++ i :: r → L.branch i = true → L.target i = some t → t ∈ d ++ [i] →
      L.RunsTo i j → Edge (.block j) (.block t)

end

/-- The end by which edges leave a node. -/
def leavesBy (kind : BlockKind) (insts : List Nat) (first : Nat) : CfgEnd :=
  match kind with
  | .root => .root
  | .fin => .fin
  | .block => .block (insts.getLast?.getD 0)
  | .cond => .cond first
  | .unknown => .unknown first

/-- The end by which edges enter a node. -/
def entersBy (kind : BlockKind) (insts : List Nat) (first : Nat) : CfgEnd :=
  match kind with
  | .root => .root
  | .fin => .fin
  | .block => .block (insts.head?.getD 0)
  | .cond => .cond first
  | .unknown => .unknown first

end Verif.Spec
