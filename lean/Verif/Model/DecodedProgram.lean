import Verif.Model.Instruction
import Verif.Model.Pipeline

/-!
# Analysing decoded instructions

What the control flow graph and the SSA form ask of the instructions they are given,
answered by `CAPSInstruction` (capstone_instruction.py and instruction.py).  The graph
asks every defined instruction once and in order (cfg.py lines 260-284) and does not fail
itself, so its answers are collected first.  The lists of storages are collected before
the SSA form is built; when one of them cannot be computed, the code may raise the
`RuntimeError` of the dominator tree before the `KeyError` that is raised here.
-/

namespace Verif

/-- Conditions are only compared.  Capstone numbers them from 0; `cc - 1` is -1 for its
`ARM_CC_INVALID`, which is given a number of its own. -/
def condNumber (c : Int) : Nat :=
  if 0 ≤ c ∧ c < 16 then c.toNat else if c < 0 then 17 + 2 * c.natAbs else 16 + 2 * c.natAbs

/-- `branch_to`, instruction.py lines 209-218, with the position of the instruction
found; the target is asked for again at every instruction. -/
def CapsInst.branchPos (ids : CapIds) : CapsInst → List CapsInst → Nat → Py (Option Nat × CapsInst)
  | i, [], _ => .ok (none, i)
  | i, x :: xs, k => do
      let (a, i) ← i.jumpingAddress ids
      if a = some (x.address : Int) then .ok (some k, i) else CapsInst.branchPos ids i xs (k + 1)

/-- What the control flow graph asks of an instruction, cfg.py lines 170, 175, 181 and
260-284: `is_undefined` (capstone_instruction.py lines 159-164), `conditional_field` (lines
32-37), `is_branch` (lines 144-150), and of branches `branch_to` and `is_branch_with_link`
(instruction.py lines 205-207). -/
def CapsInst.answers (ids : CapIds) (prog : List CapsInst) (i : CapsInst) : Py CfgInst :=
  match i.cap with
  | none => .ok { undefined := true }
  | some _ => do
      let c ← i.condField
      let b ← i.isBranch ids
      if b then do
        let t ← CapsInst.branchPos ids i prog 0
        .ok { cond := condNumber c, branch := true, link := i.encoding.testBit 24, target := t.1 }
      else .ok { cond := condNumber c }

/-- `ARMControlFlowGraph(instructions).build()` for decoded instructions. -/
def decodedCfg (ids : CapIds) (prog : List CapsInst) : Py Cfg := do
  let l ← prog.mapM (CapsInst.answers ids prog)
  buildCfg l (-1)

/-- What the SSA form asks, ssa.py lines 41-42, 183 and 187: `storages_read` and
`storages_written`, instruction.py lines 155-183.  Undefined instructions are in no block. -/
def CapsInst.access (ids : CapIds) (i : CapsInst) : Py Access :=
  match i.cap with
  | none => .ok ⟨[], []⟩
  | some _ => do
      let r ← (i.query ids .read).1
      let w ← (i.query ids .written).1
      .ok ⟨r, w⟩

/-- From decoded instructions to the graph of their values. -/
def decodedValues (ids : CapIds) (prog : List CapsInst) (fuel : Nat) : Run NameGraph := do
  let l ← ofPy (prog.mapM (CapsInst.answers ids prog))
  let acc ← ofPy (prog.mapM (CapsInst.access ids))
  programValues l (fun n => acc[n]?.getD ⟨[], []⟩) fuel

end Verif
