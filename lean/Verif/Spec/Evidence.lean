import Verif.Model.Recuperator
import Verif.Spec.Metadata

/-! # Specification of the evidence and of the scores

Only the records of answers (`Cand`, `MInst`) and the names of the kinds of evidence
come from the model.  A program is a list of addresses with their candidates, a
function table a list of start addresses with the start and the final address. -/

namespace Verif.Spec

/-- All candidates of an address. -/
def candsAt (program : List (Int × List Cand)) (a : Int) : List Cand := (program.lookup a).getD []

/-- The defined candidates of an address. -/
def definedAt (program : List (Int × List Cand)) (a : Int) : List Cand :=
  (candsAt program a).filter fun c => !c.m.ignore

/-- The share of the candidates with a property. -/
def share (v : List Cand) (p : Cand → Bool) : Rat := (v.countP p : Rat) / (v.length : Rat)

/-- Occurrences in the original over addresses of the corrupted program. -/
def ratioTo (occurrences : Nat) (program : List (Int × List Cand)) (f : MInst → Bool) : Rat :=
  (occurrences : Rat) / ((addressesWith (program.map fun q => (q.1, q.2.map (·.m))) f : Nat) : Rat)

/-- How often a storage is used by the defined instructions. -/
def uses (orig : List MInst) (r : Nat) : Nat := ((defined orig).map fun i => i.used.count r).sum

/-- The function an address belongs to: the last function start up to it, or the
first address of the program if there is none. -/
def functionOf (fns : List (Int × (Int × Int))) (addrs : List Int) (i : Nat) : Int :=
  ((addrs.take (i + 1)).reverse.find? fun a => decide (a ∈ fns.map (·.1))).getD (addrs.headD 0)

/-- Evidence of a branch. -/
def jumpEvidence (fns : List (Int × (Int × Int))) (fn low high : Int) : Option Int → Rat
  | none => 2 / 1000
  | some j =>
      if fn ≤ j ∧ ∃ p ∈ fns.lookup fn, j ≤ p.2 then 67 / 100
      else if j ∈ fns.map (·.1) then 7 / 10
      else if j < low ∨ high < j then 1 / 1000
      else 2 / 1000

/-- A list of popped registers fits a list of pushed registers, up to the program
counter, the link register and the stack pointer. -/
def Restores (popped pushed : List Nat) : Prop :=
  (∀ r ∈ popped, r ∈ pushed ∨ r = 15) ∧ ∀ r ∈ pushed, r ∈ popped ∨ r = 14 ∨ r = 13

/-- Between the end of the function and the push at `a`, in steps of four: a pop, and
a branch that is not at the address next to the push. -/
def PopBefore (program : List (Int × List Cand)) (a last : Int) : Prop :=
  (∃ k : Nat, a < last - 4 * (k + 1 : Nat) ∧ ∃ c ∈ definedAt program (last - 4 * k), c.isBranch = true) ∧
  ∃ k : Nat, a < last - 4 * k ∧ ∃ c ∈ definedAt program (last - 4 * k), c.isPop = true

/-- `v` is the greatest of the values of the reasons that apply. -/
def Best (n : Nat) (atEnd middle equal : Prop) (v : Rat) : Prop :=
  (equal → 9999 / 10000 ≤ v) ∧ (¬ equal → 1 / (n : Rat) ≤ v) ∧ (atEnd → 7 / 10 ≤ v) ∧
  (middle → 65 / 100 ≤ v) ∧
  ((equal ∧ v = 9999 / 10000) ∨ (¬ equal ∧ v = 1 / (n : Rat)) ∨ (atEnd ∧ v = 7 / 10) ∨
    (middle ∧ v = 65 / 100))

/-- The share of defined candidates of an address that write `r`, if there are any. -/
def writeShare (program : List (Int × List Cand)) (r : Nat) (a : Int) : Option Rat :=
  if definedAt program a = [] then none
  else some (share (definedAt program a) fun i => decide (r ∈ i.m.written))

/-- The shares of defined candidates that write `r`, for the addresses from
`addr - 4 * hi` up to `addr - 4 * lo` that have defined candidates. -/
def writeShares (program : List (Int × List Cand)) (r : Nat) (addr : Int) (lo hi : Nat) : List Rat :=
  (List.range (4 * (hi - lo))).filterMap fun k : Nat => writeShare program r (addr - 4 * hi + k)

/-- The distances at which the original reads `r` after a write: from the least to one
more than the greatest, or one address when there is none. -/
def reach (orig : List MInst) (r : Nat) : Nat × Nat :=
  if r < 20 then
    match (distances (defined orig) r).min?, (distances (defined orig) r).max? with
    | some a, some b => (a, b + 1)
    | _, _ => (0, 1)
  else (0, 1)

/-- The chance that no address of the window writes `r`; it is one as soon as the first
address of the window has no writer. -/
def unwritten (orig : List MInst) (program : List (Int × List Cand)) (addr : Int) (r : Nat) : Rat :=
  let ws := writeShares program r addr (reach orig r).1 (reach orig r).2
  if ws.headD 0 = 0 then 1 else (ws.map fun w => 1 - w).prod

/-- The evidence from the neighbours: shares of the defined candidates before with
the same condition, writing the flags, or either, the share after with the same
condition, and the share of same conditions among all candidates before. -/
def neighbours (always : Bool) (same flag either after sameOfAll : Rat) : Rat :=
  match always, decide (0 < same), decide (0 < flag) with
  | false, true, true => max (85 / 100 * (either * after)) (65 / 100 * either)
  | _, true, false => max (7 / 10 * (same * after)) (65 / 100 * sameOfAll)
  | false, false, true => max (76 / 100 * (flag * after)) (6 / 10 * flag)
  | true, _, true => 4 / 10 * flag
  | true, false, false => if 0 < after then 65 / 100 * after else 1 / 1000
  | false, false, false => 1 / 1000

/-- The evidence of a defined candidate `x` of the address with index `i`; `old` and
`new` are the evidence before and after. -/
structure EvidenceOf (orig : List MInst) (fns : List (Int × (Int × Int))) (addrs : List Int)
    (program : List (Int × List Cand)) (i : Nat) (a : Int) (x : Cand) (old new : Evid → Option Rat) :
    Prop where
  cond : new .pc = some (ratioTo ((defined orig).countP fun y => decide (y.cond = x.m.cond)) program
    fun y => decide (y.cond = x.m.cond))
  opcode : new .po = some (ratioTo ((defined orig).countP fun y => decide (y.opcode = x.m.opcode)) program
    fun y => decide (y.opcode = x.m.opcode))
  regs : x.isBranch = false → x.isPush = false → x.isPop = false → ∃ v, new .pr = some v ∧ v ≤ 1 ∧
    (∀ r ∈ x.m.used, v ≤ ratioTo (uses orig r) program fun y => decide (r ∈ y.used)) ∧
    (v = 1 ∨ ∃ r ∈ x.m.used, v = ratioTo (uses orig r) program fun y => decide (r ∈ y.used))
  push : x.isPush = true → ∃ v, new .popu = some v ∧
    ((∃ p, fns.lookup a = some p ∧ Best (candsAt program a).length
        (∃ c ∈ definedAt program p.2, c.isPop = true) (PopBefore program a p.2)
        (∃ c ∈ definedAt program p.2, c.isPop = true ∧ Restores c.regsWritten x.regsRead) v) ∨
      (fns.lookup a = none ∧ v = 1 / ((candsAt program a).length : Rat)))
  pop : x.isPush = false → x.isPop = true → ∃ v, new .popu = some v ∧
    Best (candsAt program a).length
      (∃ c ∈ definedAt program (functionOf fns addrs i), c.isPush = true) False
      (∃ c ∈ definedAt program (functionOf fns addrs i), c.isPush = true ∧
        Restores c.regsWritten x.regsWritten) v
  jump : x.isBranch = true → new .pbd =
    some (jumpEvidence fns (functionOf fns addrs i) (addrs.headD 0) (addrs.getLastD 0) x.jump)
  distance : 0 < i → x.isBranch = false → x.isPush = false → x.isPop = false → ∃ v, new .prd = some v ∧
    ((∀ r ∈ x.m.read.head?, unwritten orig program a r = 1) → v = 1 / 1000) ∧
    ((∃ r ∈ x.m.read.head?, unwritten orig program a r ≠ 1) →
      (∀ r ∈ x.m.read, 1 - unwritten orig program a r ≤ v) ∧
      ∃ r ∈ x.m.read, v = 1 - unwritten orig program a r)
  near : 0 < i → new .pcfg = some (neighbours (decide (x.m.cond = 14))
    (share (definedAt program (a - 4)) fun c => decide (c.m.cond = x.m.cond))
    (share (definedAt program (a - 4)) fun c => decide (17 ∈ c.regsWritten))
    (share (definedAt program (a - 4)) fun c => decide (c.m.cond = x.m.cond) || decide (17 ∈ c.regsWritten))
    (share (definedAt program (a + 4)) fun c => decide (c.m.cond = x.m.cond))
    (((definedAt program (a - 4)).countP fun c => decide (c.m.cond = x.m.cond) : Nat) /
      ((candsAt program (a - 4)).length : Rat)))
  keep : ∀ k, (k = .pr → x.isBranch = true ∨ x.isPush = true ∨ x.isPop = true) →
    (k = .popu → x.isPush = false ∧ x.isPop = false) → (k = .pbd → x.isBranch = false) →
    (k = .prd → i = 0 ∨ x.isBranch = true ∨ x.isPush = true ∨ x.isPop = true) →
    (k = .pcfg → i = 0) → k ≠ .pc → k ≠ .po → new k = old k

/-- The score that decides about removal, from the stored evidence `e`, where `zero`
tells that some evidence is zero. -/
def removalScore (x : Cand) (e : Evid → Option Rat) (zero : Bool) : Rat :=
  if zero then 0
  else if e .pc = some 1 ∨ e .po = some 1 ∨ e .pr = some 1 then 1
  else
    let shared := (e .pc).getD 1 * (e .po).getD 1 * (e .pcfg).getD 1
    if x.isBranch then shared * (e .pbd).getD 1
    else if x.isPush || x.isPop then shared * (e .popu).getD 1
    else shared * ((e .pr).getD 1 * (e .prd).getD 1)

end Verif.Spec
