import Verif.Model.Constraint
import Verif.Model.BitQueue
import Mathlib.Data.Nat.Log

/-!
# The forward builders of `semantic_codec/solution/solution_builders.py`

`self._program` is changed in place: the candidate lists of the addresses still
to be visited shrink.  `log(n, 2)` of the mathematical library is taken to be
exact where it is truncated; where it is only reported it is left out.
-/

namespace Verif

/-- What the builders ask an instruction for: `meta` holds the answers that
`MetadataCollector` reads too, `regs` is `registers_used()` and `str` the
printed text. -/
structure FInst where
  «meta» : MInst
  regs : List Nat
  str : Nat
  deriving DecidableEq, Repr

/-- The three counters of the metadata used here, as they are decremented. -/
structure Budget where
  instrs : List (Nat × Int)
  conds : List (Int × Int)
  stors : List (Nat × Int)
  deriving DecidableEq

/-- Absent or zero, solution_builders.py lines 131, 134 and 138. -/
def spent {K : Type} [DecidableEq K] (d : List (K × Int)) (k : K) : Bool :=
  match dictGet d k with
  | none => true
  | some n => decide (n = 0)

/-- `_comply_constraints`, solution_builders.py lines 121-141. -/
def comply (m : Budget) (inst : FInst) : Bool :=
  if inst.meta.ignore then false
  else if spent m.instrs inst.meta.opcode then false
  else if spent m.conds inst.meta.cond then false
  else !(inst.regs.any fun r => spent m.stors r)

/-- The loop of solution_builders.py lines 150-156 over one candidate list: the
element before index `i` is dropped or kept while `i` is inside the list, so
that the last one is never looked at. Written as a recursion on the part of the
list from index `i - 1` on. -/
def removeAt (m : Budget) : List FInst → List FInst
  | [] => []
  | [x] => [x]
  | x :: y :: t => if comply m x then x :: removeAt m (y :: t) else removeAt m (y :: t)

/-- `_remove_invalid_instructions`, solution_builders.py lines 143-156, for the
addresses after the first. -/
def removeInvalid (m : Budget) (program : List (Nat × List FInst)) :
    List Nat → List (Nat × List FInst)
  | [] => program
  | a :: t =>
      match dictGet program a with
      | none => removeInvalid m program t
      | some pa => removeInvalid m (dictSet program a (removeAt m pa)) t

/-- `if k in d: d[k] -= 1`. -/
def decKey {K : Type} [DecidableEq K] (d : List (K × Int)) (k : K) : List (K × Int) :=
  match dictGet d k with
  | none => d
  | some n => dictSet d k (n - 1)

/-- `_update_constraints`, solution_builders.py lines 158-170. -/
def updateBudget (m : Budget) (inst : FInst) : Budget :=
  if inst.meta.ignore then m
  else { instrs := decKey m.instrs inst.meta.opcode
         conds := decKey m.conds inst.meta.cond
         stors := inst.meta.used.foldl decKey m.stors }

/-- `_find_address_correct_index`, solution_builders.py lines 172-178: the
first candidate printed like the original. -/
def findIndex (pa : List FInst) (ori : FInst) : Py Nat :=
  let index := pa.findIdx fun c => c.str = ori.str
  if index = pa.length then .error .runtime else .ok index

/-- One visit of an address, kept to state the properties: the address, the
index used, the number of candidates, and whether it was skipped. -/
structure Visit where
  addr : Nat
  index : Nat
  ln : Nat
  skipped : Bool
  deriving DecidableEq, Repr

/-- The attributes that change during `build`, its local variable `addresses`,
and the visits so far. -/
structure FwdSt (σ : Type) where
  program : List (Nat × List FInst)
  budget : Budget
  addresses : List Nat
  sol : σ
  log : List Visit

/-- What the two subclasses supply: `_from_max_to_min`, `_forward_update` and
`_on_index_found(index, pa, ori, ln)`. -/
structure Builder (σ : Type) where
  fromMax : Bool
  forward : Bool
  onFound : σ → Nat → List FInst → FInst → Nat → Py σ

/-- The number of candidates at an address (`KeyError` cannot arise: the
addresses are keys of the program). -/
def candCount (program : List (Nat × List FInst)) (a : Nat) : Nat :=
  ((dictGet program a).getD []).length

/-- `addresses.sort(key=..., reverse=...)`, solution_builders.py lines 182 and
205; the sort is stable in both directions. -/
def sortAddresses (fromMax : Bool) (program : List (Nat × List FInst)) (as : List Nat) : List Nat :=
  if fromMax then as.insertionSort fun a b => candCount program b ≤ candCount program a
  else as.insertionSort fun a b => candCount program a ≤ candCount program b

/-- The end of the loop body, solution_builders.py lines 197-205. -/
def fwdFinish {σ : Type} (B : Builder σ) (s : FwdSt σ) (a : Nat) (rest : List Nat)
    (pa : List FInst) (index : Nat) (sol : σ) : Py (FwdSt σ) :=
  match pa[index]? with
  | none => .error .index
  | some chosen =>
      let budget := if B.forward then updateBudget s.budget chosen else s.budget
      let program := if B.forward then removeInvalid budget s.program rest else s.program
      .ok { program := program, budget := budget
            addresses := sortAddresses B.fromMax program rest
            sol := sol, log := s.log ++ [⟨a, index, pa.length, false⟩] }

/-- The body of the loop of `build`, solution_builders.py lines 185-205.
`_original` holds one instruction per address. -/
def fwdTurn {σ : Type} (B : Builder σ) (original : Nat → Option FInst) (s : FwdSt σ) :
    Py (FwdSt σ) :=
  match s.addresses with
  | [] => .error .index
  | a :: rest =>
      match dictGet s.program a, original a with
      | some pa, some ori =>
          if pa.length = 0 ∨ ori.meta.ignore = true then
            .ok { s with addresses := rest, log := s.log ++ [⟨a, 0, pa.length, true⟩] }
          else if 1 < pa.length then do
            let index ← findIndex pa ori
            let sol ← B.onFound s.sol index pa ori pa.length
            fwdFinish B s a rest pa index sol
          else fwdFinish B s a rest pa 0 s.sol
      | _, _ => .error .key

/-- `build`, solution_builders.py lines 180-205. -/
def fwdBuild {σ : Type} (B : Builder σ) (original : Nat → Option FInst) (fuel : Nat)
    (program : List (Nat × List FInst)) (budget : Budget) (sol : σ) : Option (Py (FwdSt σ)) :=
  whileLoop (fun s : FwdSt σ => decide (0 < s.addresses.length)) (fwdTurn B original) fuel
    { program := program, budget := budget
      addresses := sortAddresses B.fromMax program (program.map (·.1))
      sol := sol, log := [] }

/-- The constructor, solution_builders.py lines 101-111, as far as the counters
go: `MetadataCollector().collect(original_program)`. -/
def budgetOf (original : List FInst) : Budget :=
  let c := collectMeta {} (original.map (·.meta))
  { instrs := asInt c.instructionCnt, conds := asInt c.conditionCnt, stors := asInt c.storageCnt }

/-- `ForwardConstraintSolutionEnumerator`, solution_builders.py lines 213-230,
with `_solution` as its state, starting at 1. The index is never negative. -/
def enumBuilder : Builder Nat :=
  { fromMax := false, forward := true, onFound := fun sol index _ _ _ => .ok (sol * (index + 1)) }

/-- `ForwardConstraintSolutionBuilder`, solution_builders.py lines 235-260,
with `_solution` and `_solution_size` as its state; the queue is created with
the default word size. -/
def queueBuilder : Builder (BitQueue × Nat) :=
  { fromMax := false, forward := false
    onFound := fun s _ candList ori ln => do
      let size := if 1 < ln then Nat.log 2 ln else 0
      let index ← findIndex candList ori
      let q ← BitQueue.enqueue { s.1 with wordSize := size } index 0
      pure (q, s.2 + size) }

end Verif
