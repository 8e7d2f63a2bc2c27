/-!
# Specification: what renaming does to the names of a register

Renaming keeps the names of every register.  Along the walk of the dominator tree it adds
a name, looks a name up, or drops a name.
-/

namespace Verif.Spec

/-- A step of renaming, for a register. -/
inductive Step
  | define (x : Nat)
  | use (x : Nat)
  | drop (x : Nat)
  deriving DecidableEq

/-- The register of a step. -/
def Step.reg : Step → Nat
  | define x => x
  | use x => x
  | drop x => x

section
variable (merged : Nat → List Nat) (insts : Nat → List Nat) (reads writes : Nat → List Nat)
  (succ domSucc : Nat → List Nat)

/-- Entering a block: the merged registers are defined, each instruction uses what it reads
and then defines what it writes, and the merged registers of the following blocks are
used. -/
def enterSteps (n : Nat) : List Step :=
  (merged n).map .define ++
    (insts n).flatMap (fun i => (reads i).map .use ++ (writes i).map .define) ++
    (succ n).flatMap fun b => (merged b).map .use

/-- Leaving a block: for every merged register of the last block it dominates (of itself if
there is none), a name is dropped for each instruction of that block that writes it, and
one more. -/
def leaveSteps (n : Nat) : List Step :=
  let m := (domSucc n).getLast?.getD n
  (merged m).flatMap fun x => ((insts m).filter fun i => decide (x ∈ writes i)).map (fun _ => .drop x) ++ [.drop x]

/-- The steps for some blocks one after the other, each with the blocks it dominates. -/
inductive Trace : List Nat → List Step → Prop
  | nil : Trace [] []
  | cons {n : Nat} {ns : List Nat} {t u : List Step} : Trace (domSucc n) t → Trace ns u →
      Trace (n :: ns) (enterSteps merged insts reads writes succ n ++ t ++ leaveSteps merged insts writes domSucc n ++ u)
end

/-- A step that cannot be made after some steps: the register is not one of the twenty, or
a name is needed and as many have been dropped as there were, the first name included. -/
inductive Stuck : List Step → Step → Bool → Prop
  | unknown {pre : List Step} {st : Step} : 20 ≤ st.reg → Stuck pre st true
  | use {pre : List Step} {x : Nat} : x < 20 → pre.count (.define x) + 1 ≤ pre.count (.drop x) → Stuck pre (.use x) false
  | drop {pre : List Step} {x : Nat} : x < 20 → pre.count (.define x) + 1 ≤ pre.count (.drop x) → Stuck pre (.drop x) false

/-- Every step can be made. -/
def Smooth (t : List Step) : Prop := ∀ pre st post b, t = pre ++ st :: post → ¬ Stuck pre st b

/-- The first step that cannot be made, and whether the register is unknown. -/
def StopsAt (t : List Step) (b : Bool) : Prop :=
  ∃ pre st post, t = pre ++ st :: post ∧ Stuck pre st b ∧ Smooth pre

end Verif.Spec
