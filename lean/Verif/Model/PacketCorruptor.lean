import Verif.Model.Corruption
import Verif.Model.Predict
import Verif.Model.Packing
import Mathlib.Data.List.Sort

/-!
# `PacketCorruptor` of `semantic_codec/corruption/corruptors.py`

The progress bar and the saving of the result are left out (C69, C25).  A
corrupted word is turned into an instruction, which needs four bytes: larger
words raise `OverflowError`.
-/

namespace Verif

/-- `CAPSInstruction(encoding, address)`: `to_bytes(4, …)` of
capstone_instruction.py raises `OverflowError` for larger words. -/
def mkInst (encoding address : Nat) : Py CInst :=
  if encoding < 2 ^ 32 then .ok ⟨encoding, address⟩ else .error .overflow

/-- The two nested loops of `_corrupt_address`, corruptors.py lines 57-62, over
the instructions still to do.  `arm_inst in corrupted` compares fresh objects
by identity (`Instruction` has no `__eq__`) and is never true. -/
def corruptInsts (tuples : List (Nat × Nat)) (addr : Nat) : List CInst → Py (List CInst)
  | [] => .ok []
  | inst :: rest => do
      let cs ← corruptAllBitsTuples tuples inst.encoding
      let l ← cs.mapM fun c => mkInst c addr
      let r ← corruptInsts tuples addr rest
      pure (l ++ r)

/-- `_corrupt_address`, corruptors.py lines 56-63: all the new instructions get
the address of the first one that was there. -/
def corruptAddress (tuples : List (Nat × Nat)) (address : Nat) (prog : Program) : Py Program :=
  match dictGet prog address with
  | none => .error .key
  | some insts => do
      let r ← corruptInsts tuples ((insts.head?.map (·.address)).getD 0) insts
      pure (dictSet prog address r)

/-- The range appended for an error, corruptors.py lines 105-108. -/
def errRange (bpi : Nat) (e : ErrT) : Nat × Nat := (e.2.1, e.2.1 + e.2.2.getD bpi)

/-- corruptors.py lines 98-102: corrupt the current address with the ranges
gathered so far; the ranges are dropped only when there is such an address. -/
def flushRanges (addresses : List Nat) (current : Nat) (tuples : List (Nat × Nat)) (prog : Program) :
    Py (List (Nat × Nat) × Program) :=
  match addresses[current]? with
  | some a => if tuples ≠ [] then do
        let p ← corruptAddress tuples a prog
        pure ([], p)
      else .ok (tuples, prog)
  | none => .ok (tuples, prog)

/-- The grouping loop, corruptors.py lines 96-115, over the errors still to be
read.  When all are read the loop flushes once more (`k == len(errors)`) and
ends; the range it then appends is never used. -/
def groupLoop (bpi : Nat) (addresses : List Nat) :
    List ErrT → Nat → List (Nat × Nat) → Program → Py Program
  | [], current, tuples, prog => do
      let r ← flushRanges addresses current tuples prog
      pure r.2
  | e :: es, current, tuples, prog =>
      if current ≠ e.1 then do
        let r ← flushRanges addresses current tuples prog
        groupLoop bpi addresses es e.1 (r.1 ++ [errRange bpi e]) r.2
      else groupLoop bpi addresses es current (tuples ++ [errRange bpi e]) prog

/-- The sorting key of corruptors.py lines 84-85. -/
def errKey (vv : Nat) (e : ErrT) : Nat := e.1 * vv + e.2.1

/-- `errors.sort(key=…)`, corruptors.py lines 84-85.  Python's sort is stable,
and so is insertion sort. -/
def sortErrors (errors : List ErrT) : List ErrT :=
  errors.insertionSort fun a b => errKey (errors.length * 100) a ≤ errKey (errors.length * 100) b

/-- `v.sort(key=lambda x: x.encoding)`, corruptors.py lines 117-118. -/
def sortInsts (l : List CInst) : List CInst :=
  l.insertionSort fun a b => a.encoding ≤ b.encoding

/-- `PacketCorruptor.corrupt`, corruptors.py lines 65-123.  An empty or missing
`interleave` is replaced by the order built for `packet_count`. -/
def packetCorrupt (lg : Rat → Int) (fuel packetCount bpi dataSize : Nat) (order lost : List Nat)
    (prog : Program) : Option (Py Program) :=
  if lost = [] then some (.error .runtime)
  else
    let order' : Option (Py (List Nat)) :=
      if order = [] then buildInterleaveSp lg fuel packetCount else some (.ok order)
    match order' with
    | none => none
    | some (.error e) => some (.error e)
    | some (.ok order) =>
      match predictCorruption fuel packetCount bpi dataSize order lost with
      | none => none
      | some (.error e) => some (.error e)
      | some (.ok errors) =>
        match sortErrors errors with
        | [] => some (.error .index)
        | e :: es => some (do
            let addresses := (prog.map (·.1)).insertionSort (· ≤ ·)
            let p ← groupLoop bpi addresses (e :: es) e.1 [] prog
            pure (p.map fun q => (q.1, sortInsts q.2)))

end Verif
