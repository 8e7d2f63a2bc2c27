import Verif.Model.Cfg
import Verif.Model.Ssa

/-!
# From instructions to the graph of their values

The calls that use `static_analysis` from beginning to end, as `_build_ssa` of
tests/test_valueDependencySSABuilder.py lines 90-98 makes them: build the control flow
graph (cfg.py lines 224-288), remove its conditional nodes (cfg.py lines 208-222) and build
the SSA form with the graph of the values (ssa.py lines 109-144).  Reading the file and
printing are left out; `acc` is what the instructions say they read and write.
-/

namespace Verif

/-- The control flow graph as the analyses ask it (`neighbors` and `incidents`). -/
def Cfg.flow (c : Cfg) : FlowGraph := ⟨c.nodes, c.neighbors, c.incidents⟩

/-- A computation without loops to bound. -/
def ofPy {α : Type} (x : Py α) : Run α := (some x : Option (Except Err α))

/-- `SSAFormBuilder(instructions, cfg, cfg.root_node).build()`, ssa.py lines 104-122.  The
root is the block with index 1 (cfg.py line 257); when the list is empty the root is not
in the graph and pygraph's `incidents` raises `KeyError`. -/
def Cfg.values (c : Cfg) (acc : Nat → Access) (fuel : Nat) : Run NameGraph :=
  if 1 ∈ c.nodes then do
    let r ← ssaBuild c.flow c.insts acc (fun n => decide (c.kind n = .fin)) fuel 1
    ofPy (valueGraph r.1 c.nodes r.2)
  else raiseRun .key

/-- `_build_ssa`, tests/test_valueDependencySSABuilder.py lines 90-98. -/
def programValues (prog : List CfgInst) (acc : Nat → Access) (fuel : Nat) : Run NameGraph := do
  let c ← ofPy (buildCfg prog (-1))
  let c ← ofPy c.removeConditionals
  c.values acc fuel

end Verif
