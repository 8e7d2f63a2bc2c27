import Verif.Model.Basic
import Mathlib.Data.List.Sort
import Mathlib.Data.Rat.Defs

/-!
# `semantic_codec/metadata/metadata_collector.py`

An instruction object is kept as the answers it gives: whether it is ignored
(undefined or marked), its encoding, condition, opcode and the storages it
uses, reads and writes.  How Capstone yields those answers is the subject of
`Model/Instruction.lean`.
-/

namespace Verif

/-- What the collectors ask an instruction for. -/
structure MInst where
  ignore : Bool
  encoding : Nat
  cond : Int
  opcode : Nat
  used : List Nat
  read : List Nat
  written : List Nat
  deriving DecidableEq, Repr

/-- `AReg.STORAGE_COUNT`, arm_constants.py lines 32-34: eighteen register names
and two more. -/
def storageCount : Nat := 20

/-- `_inc_key`, metadata_collector.py lines 4-5. -/
def incKey {α : Type} [DecidableEq α] (d : List (α × Nat)) (key : α) : List (α × Nat) :=
  dictSet d key (match dictGet d key with
    | some n => n + 1
    | none => 1)

/-- `_inc_keys`, metadata_collector.py lines 8-10. -/
def incKeys {α : Type} [DecidableEq α] (d : List (α × Nat)) (keys : List α) : List (α × Nat) :=
  keys.foldl incKey d

/-- The collector's attributes, with the local variables of `collect`.  The
arrays `dist` and `defined` of `STORAGE_COUNT + 1` cells are functions. -/
structure Collector where
  storageCnt : List (Nat × Nat) := []
  conditionCnt : List (Int × Nat) := []
  instructionCnt : List (Nat × Nat) := []
  minDist : List (Nat × Nat) := []
  maxDist : List (Nat × Nat) := []
  meanDist : List (Nat × Rat) := []
  emptySpaces : List MInst := []
  encodings : List Nat := []
  dist : Nat → Nat := fun _ => 0
  defined : Nat → Bool := fun _ => false
  meanAcc : List (Nat × (Nat × Nat)) := []

/-- Array update. -/
def upd {α : Type} (f : Nat → α) (s : Nat) (v : α) : Nat → α := fun t => if t = s then v else f t

/-- Recording the distance of storage `s`, metadata_collector.py lines 81-95.
The `None` cases cannot occur: the three dictionaries get their keys together
(a missing key would raise `KeyError`; `C36_distances` shows that each key has all three). -/
def recordDist (c : Collector) (s : Nat) : Collector :=
  let d := c.dist s
  let c := match dictGet c.meanAcc s with
    | none => { c with minDist := dictSet c.minDist s d
                       maxDist := dictSet c.maxDist s d
                       meanAcc := dictSet c.meanAcc s (d, 1) }
    | some (t, n) =>
        { c with minDist := if (dictGet c.minDist s).getD 0 > d then dictSet c.minDist s d else c.minDist
                 maxDist := if (dictGet c.maxDist s).getD 0 < d then dictSet c.maxDist s d else c.maxDist
                 meanAcc := dictSet c.meanAcc s (t + d, n + 1) }
  { c with defined := upd c.defined s false, dist := upd c.dist s 0 }

/-- One turn of the loop over storages, metadata_collector.py lines 78-97. -/
def readTurn (read : List Nat) (c : Collector) (s : Nat) : Collector :=
  if c.defined s then
    if s ∈ read then recordDist c s
    else { c with dist := upd c.dist s (c.dist s + 1) }
  else c

/-- One turn of the loop over written storages, metadata_collector.py lines
100-105; a storage beyond the arrays is reported and skipped. -/
def writeTurn (c : Collector) (s : Nat) : Collector :=
  if s < storageCount + 1 then
    { c with defined := upd c.defined s true, dist := upd c.dist s 0 }
  else c

/-- One turn of the loop over instructions, metadata_collector.py lines 67-105. -/
def collectTurn (c : Collector) (inst : MInst) : Collector :=
  if inst.ignore then c
  else
    let c := if inst.encoding ∈ c.encodings then c
      else { c with encodings := c.encodings ++ [inst.encoding]
                    emptySpaces := c.emptySpaces ++ [inst] }
    let c := { c with conditionCnt := incKey c.conditionCnt inst.cond
                      instructionCnt := incKey c.instructionCnt inst.opcode
                      storageCnt := incKeys c.storageCnt inst.used }
    let c := (List.range storageCount).foldl (readTurn inst.read) c
    inst.written.foldl writeTurn c

/-- `collect`, metadata_collector.py lines 51-113.  The counters and the
distance dictionaries are those of earlier calls; the rest starts afresh.
`reverse=True` keeps the order of equal elements. -/
def collectMeta (c : Collector) (insts : List MInst) : Collector :=
  let c := insts.foldl collectTurn { c with
    emptySpaces := [], encodings := [], dist := fun _ => 0, defined := fun _ => false, meanAcc := [] }
  { c with
    meanDist := c.meanAcc.foldl (fun m p => dictSet m p.1 ((p.2.1 : Rat) / (p.2.2 : Rat))) c.meanDist
    emptySpaces := c.emptySpaces.insertionSort fun a b => b.encoding ≤ a.encoding }

/-- The three local dictionaries filled for one address,
metadata_collector.py lines 132-139. -/
def addressKeys (insts : List MInst) : List (Int × Nat) × List (Nat × Nat) × List (Nat × Nat) :=
  insts.foldl (fun s inst =>
    if inst.ignore then s
    else (dictSet s.1 inst.cond 1, dictSet s.2.1 inst.opcode 1,
          inst.used.foldl (fun r k => dictSet r k 1) s.2.2)) ([], [], [])

/-- `CorruptedProgramMetadataCollector.collect`, metadata_collector.py lines
125-147: the three counters of addresses. -/
def collectCorrupted {α : Type} (program : List (α × List MInst)) :
    List (Int × Nat) × List (Nat × Nat) × List (Nat × Nat) :=
  program.foldl (fun s q =>
    let k := addressKeys q.2
    (incKeys s.1 (k.1.map (·.1)), incKeys s.2.1 (k.2.1.map (·.1)),
      incKeys s.2.2 (k.2.2.map (·.1)))) ([], [], [])

end Verif
