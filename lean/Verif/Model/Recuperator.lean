import Verif.Model.Metadata
import Verif.Model.Recovery

/-!
# `semantic_codec/metadata/recuperator.py`

A candidate is kept as the answers it gives (`Cand`, which never change) and the
evidence stored in it (`Scored`).  The evidence computed for one candidate
depends only on the answers of the candidates of the program, never on evidence:
the functions below take the program without evidence.  Probabilities are exact
rationals instead of floating-point numbers.  The program dictionary is kept in
the order of its addresses; the only loop over the dictionary in its own order
is the counting of `Model/Metadata.lean`, whose values do not depend on it.
The progress bar is left out (see `Model/Report.lean`).
-/

namespace Verif

/-- What the recuperator asks a candidate for: the answers of the collector, and
whether it is a branch, a push (`is_a('push')`) or a pop, the registers it reads
and writes, and the address it jumps to, if known. -/
structure Cand where
  m : MInst
  isBranch : Bool
  isPush : Bool
  isPop : Bool
  regsRead : List Nat
  regsWritten : List Nat
  jump : Option Int
  deriving DecidableEq

/-- `is_push_pop`, capstone_instruction.py lines 152-154. -/
def Cand.isPushPop (c : Cand) : Bool := c.isPush || c.isPop

/-- The keys of `scores_by_rule` that are written or read. -/
inductive Evid
  | pc | po | pr | popu | pbd | prd | pcfg | pupo
  deriving DecidableEq, Repr

/-- A candidate with its evidence; `scored` tells that its score function is
`probabilistic_rules_remove_step` and no more the initial sum. -/
structure Scored where
  c : Cand
  scores : List (Evid × Rat) := []
  scored : Bool := false
  deriving DecidableEq

/-- A program without evidence, in the order of addresses. -/
abbrev CProg := List (Int × List Cand)

/-- Division of numbers. -/
def pyDiv (a b : Rat) : Py Rat := if b = 0 then .error .zeroDiv else .ok (a / b)

/-- The first evidence of a counter, recuperator.py lines 189-192 and 202-205. -/
def ratioOr0 {κ : Type} [DecidableEq κ] (num den : List (κ × Nat)) (k : κ) : Py Rat :=
  match dictGet num k, dictGet den k with
  | some n, some d => pyDiv n d
  | _, _ => .ok 0

/-- Counters of the corrupted program: conditions, opcodes, storages. -/
abbrev Counters := List (Int × Nat) × List (Nat × Nat) × List (Nat × Nat)

/-- The counters of a program, recuperator.py lines 533-534. -/
def counters (prog : CProg) : Counters :=
  collectCorrupted (prog.map fun q => (q.1, q.2.map (·.m)))

/-- The loop of `_compute_registers`, recuperator.py lines 216-223; `none` is the
`KeyError` that is caught. -/
def regMin (num den : List (Nat × Nat)) : List Nat → Rat → Py (Option Rat)
  | [], av => .ok (some av)
  | r :: rs, av =>
      match dictGet num r, dictGet den r with
      | some n, some d => do
          let q ← pyDiv n d
          regMin num den rs (min av q)
      | _, _ => .ok none

/-- `_compute_registers`, recuperator.py lines 208-224. -/
def computeRegisters (coll : Collector) (cp : Counters) (x : Cand) : Py (Option Rat) :=
  if x.isBranch || x.isPushPop then .ok none
  else do
    let r ← regMin coll.storageCnt cp.2.2 x.m.used 1
    pure (some (r.getD 0))

/-- `AReg.SP`, `LR`, `PC`, `CPSR`, arm_constants.py. -/
def regSP : Nat := 13
/-- See `regSP`. -/
def regLR : Nat := 14
/-- See `regSP`. -/
def regPC : Nat := 15
/-- See `regSP`. -/
def regCPSR : Nat := 17

/-- Whether the register lists match, recuperator.py lines 252-261. -/
def regsMatch (popRegs pushRegs : List Nat) : Bool :=
  popRegs.all (fun r => decide (r ∈ pushRegs ∨ r = regPC)) &&
  pushRegs.all (fun r => decide (r ∈ popRegs ∨ r = regLR ∨ r = regSP))

/-- `_op_prob_and_check_equal_registers`, recuperator.py lines 236-265; `isOp` is
`is_a(opcode)`. -/
def opProb (prog : CProg) (isOp : Cand → Bool) (addr : Int) (regs : List Nat) : Py (Rat × Bool) :=
  match dictGet prog addr with
  | none => .error .key
  | some insts =>
      let valid := insts.filter fun i => !i.m.ignore
      let c := valid.countP isOp
      let eq := valid.any fun i => isOp i && regsMatch i.regsWritten regs
      do
        let p ← pyDiv c valid.length
        pure (p, eq)

/-- `range(last, first, -4)`. -/
def downRange (last first : Int) : List Int :=
  (List.range ((last - first + 3) / 4).toNat).map fun k : Nat => last - 4 * (k : Int)

/-- The search for a pop followed by a branch, recuperator.py lines 295-312:
`cb1`, `cp1`, `tb1` and `p2`. -/
def popLoop (prog : CProg) : List Int → Nat → Nat → Nat → Rat → Py Rat
  | [], _, _, _, p2 => .ok p2
  | a :: as, cb1, cp1, tb1, p2 =>
      match dictGet prog a with
      | none => .error .key
      | some insts =>
          let valid := insts.filter fun i => !i.m.ignore
          let tb1' := tb1 + valid.length
          let cb1' := cb1 + valid.countP (·.isBranch)
          let cp1' := cp1 + valid.countP (·.isPop)
          let p2 := if tb1 > 0 ∧ tb1' > 0 then ((cp1' : Rat) / tb1' * cb1) / tb1 else p2
          if p2 > 0 then .ok p2 else popLoop prog as cb1' cp1' tb1' p2

/-- Functions by start address: start and final address. -/
abbrev Fns := List (Int × (Int × Int))

/-- The combination of the three values, recuperator.py lines 321-329, with the
constants of probabilistic_model.py lines 13-19. -/
def pushPopValue (n : Nat) (p1 p2 : Rat) (eq : Bool) : Py Rat := do
  let p3 ← pyDiv 1 n
  let p3 := if eq then 9999 / 10000 else p3
  let p1 := if p1 > 0 then 7 / 10 else p1
  let p2 := if p2 > 0 then 65 / 100 else p2
  pure (max (max p1 p2) p3)

/-- `_compute_push_pop`, recuperator.py lines 267-329. -/
def computePushPop (prog : CProg) (fns : Fns) (x : Cand) (addr currentFn : Int) : Py (Option Rat) :=
  match dictGet prog addr with
  | none => .error .key
  | some here =>
      if x.isPush then
        match dictGet fns addr with
        | some (_, last) => do
            let (p1, eq) ← opProb prog (·.isPop) last x.regsRead
            let p2 ← popLoop prog (downRange last addr) 0 0 0 0
            some <$> pushPopValue here.length p1 p2 eq
        | none => some <$> pushPopValue here.length 0 0 false
      else if x.isPop then do
        let (p1, eq) ← opProb prog (·.isPush) currentFn x.regsWritten
        some <$> pushPopValue here.length p1 0 eq
      else .ok none

/-- Candidates of the neighbouring addresses that are not ignored. -/
def validAt (prog : CProg) (a : Int) : List Cand :=
  ((dictGet prog a).getD []).filter fun i => !i.m.ignore

/-- All candidates of the neighbouring address. -/
def allAt (prog : CProg) (a : Int) : List Cand := (dictGet prog a).getD []

/-- `a ≥ b` of the two values when the second exists, `max(p1, p2)` where `p1`
is zero unless a candidate of the next address has the condition. -/
def maxIf (after : Nat) (p1 p2 : Py Rat) : Py Rat := do
  let p1 ← if after > 0 then p1 else .ok 0
  let p2 ← p2
  pure (max p1 p2)

/-- `p` times a constant of the model. -/
def scaled (k : Rat) (p : Py Rat) : Py Rat := do
  let p ← p
  pure (p * k)

/-- `_compute_proper_cfg`, recuperator.py lines 331-441, from the counted
numbers: same condition before, flag writers before, both, same condition after,
valid candidates before and after, all candidates before. -/
def cfgValue (always : Bool) (same flag both after lnPrev lnPost lenPrev : Nat) : Py Rat :=
  if !always then
    if same > 0 ∧ flag > 0 then
      maxIf after
        (scaled (85 / 100) (pyDiv (((same : Rat) + flag - both) * after) ((lnPrev : Rat) * lnPost)))
        (scaled (65 / 100) (pyDiv ((same : Rat) + flag - both) lnPrev))
    else if same > 0 then
      maxIf after
        (scaled (7 / 10) (pyDiv ((same : Rat) * after) ((lnPrev : Rat) * lnPost)))
        (scaled (65 / 100) (pyDiv same lenPrev))
    else if flag > 0 then
      maxIf after
        (scaled (76 / 100) (pyDiv ((flag : Rat) * after) ((lnPrev : Rat) * lnPost)))
        (scaled (6 / 10) (pyDiv flag lnPrev))
    else .ok 0
  else
    if flag > 0 then scaled (1 - 6 / 10) (pyDiv flag lnPrev)
    else if same > 0 then
      maxIf after
        (scaled (7 / 10) (pyDiv ((same : Rat) * after) ((lnPrev : Rat) * lnPost)))
        (scaled (65 / 100) (pyDiv same lenPrev))
    else if after > 0 then scaled (65 / 100) (pyDiv after lnPost)
    else .ok 0

/-- The end of `_compute_proper_cfg`, recuperator.py lines 436-439. -/
def cfgClamp (p : Rat) : Py Rat :=
  if p = 0 then .ok (1 / 1000) else if p > 1 then .error .runtime else .ok p

/-- `_compute_proper_cfg`, recuperator.py lines 331-441. -/
def computeCfg (prog : CProg) (x : Cand) (addr : Int) : Py Rat := do
  let prev := validAt prog (addr - 4)
  let post := validAt prog (addr + 4)
  let same := prev.countP fun i => decide (i.m.cond = x.m.cond)
  let flag := prev.countP fun i => decide (regCPSR ∈ i.regsWritten)
  let both := prev.countP fun i => decide (i.m.cond = x.m.cond ∧ regCPSR ∈ i.regsWritten)
  let after := post.countP fun i => decide (i.m.cond = x.m.cond)
  let p ← cfgValue (decide (x.m.cond = 14)) same flag both after prev.length post.length
    (allAt prog (addr - 4)).length
  cfgClamp p

/-- The loop over addresses of one read storage, recuperator.py lines 465-480. -/
def distLoop (prog : CProg) (r : Nat) : List Int → Rat → Rat
  | [], p => p
  | a :: as, p =>
      match dictGet prog a with
      | none => distLoop prog r as p
      | some insts =>
          let valid := insts.filter fun i => !i.m.ignore
          if valid.length > 0 then
            let p := p * (1 - (valid.countP fun i => decide (r ∈ i.m.written) : Nat) / (valid.length : Rat))
            if p = 1 then p else distLoop prog r as p
          else distLoop prog r as p

/-- `range(addr - 4 * b, addr - 4 * a)`. -/
def distRange (addr : Int) (a b : Nat) : List Int :=
  (List.range (4 * (b - a))).map fun k : Nat => addr - 4 * b + (k : Int)

/-- The bounds of the distance, recuperator.py lines 457-460. -/
def distBounds (coll : Collector) (r : Nat) : Nat × Nat :=
  match dictGet coll.minDist r, dictGet coll.maxDist r with
  | some a, some b => (a, b + 1)
  | _, _ => (0, 1)

/-- The loop over read storages, recuperator.py lines 454-485. -/
def readLoop (coll : Collector) (prog : CProg) (addr : Int) : List Nat → Rat → Rat
  | [], prd => prd
  | r :: rs, prd =>
      let b := distBounds coll r
      let p := distLoop prog r (distRange addr b.1 b.2) 1
      let prd := min p prd
      if prd ≥ 1 then 999 / 1000 else readLoop coll prog addr rs prd

/-- `_compute_register_distance`, recuperator.py lines 443-489. -/
def computeDistance (coll : Collector) (prog : CProg) (x : Cand) (addr : Int) : Option Rat :=
  if x.isBranch || x.isPushPop then none
  else
    let prd := 1 - readLoop coll prog addr x.m.read 1
    some (if prd ≤ 0 then 1 / 1000 else prd)

/-- `_compute_branch_address`, recuperator.py lines 501-527. -/
def computeBranch (fns : Fns) (x : Cand) (currentFn low high : Int) : Py (Option Rat) :=
  if x.m.ignore || !x.isBranch then .ok none
  else match x.jump with
    | none => .ok (some (2 / 1000))
    | some j =>
        if currentFn ≤ j then
          match dictGet fns currentFn with
          | none => .error .key
          | some (_, last) =>
              if j ≤ last then .ok (some (67 / 100)) else .ok (some (elsewhere j))
        else .ok (some (elsewhere j))
where
  /-- Lines 519-527. -/
  elsewhere (j : Int) : Rat :=
    if (dictGet fns j).isSome then 7 / 10
    else if high < j ∨ j < low then 1 / 1000
    else 2 / 1000

/-- Storing evidence, when there is some. -/
def setEvid (s : List (Evid × Rat)) (k : Evid) : Option Rat → List (Evid × Rat)
  | none => s
  | some v => dictSet s k v

/-- What the recuperator has at hand for one address. -/
structure Place where
  addr : Int
  currentFn : Int
  low : Int
  high : Int
  first : Bool

/-- The evidence of one candidate, recuperator.py lines 549-562. -/
def scoreCand (coll : Collector) (fns : Fns) (prog : CProg) (cp : Counters) (pl : Place) (x : Scored) :
    Py Scored :=
  if x.c.m.ignore then .ok x
  else do
    let pc ← ratioOr0 coll.conditionCnt cp.1 x.c.m.cond
    let s := dictSet x.scores .pc pc
    let po ← ratioOr0 coll.instructionCnt cp.2.1 x.c.m.opcode
    let s := dictSet s .po po
    let pr ← computeRegisters coll cp x.c
    let s := setEvid s .pr pr
    let pp ← computePushPop prog fns x.c pl.addr pl.currentFn
    let s := setEvid s .popu pp
    let pb ← computeBranch fns x.c pl.currentFn pl.low pl.high
    let s := setEvid s .pbd pb
    if pl.first then pure ⟨x.c, s, true⟩
    else do
      let s := setEvid s .prd (computeDistance coll prog x.c pl.addr)
      let pg ← computeCfg prog x.c pl.addr
      pure ⟨x.c, dictSet s .pcfg pg, true⟩

/-- An element of `scores_by_rule`, or its default. -/
def evid (s : List (Evid × Rat)) (k : Evid) (d : Rat) : Rat := (dictGet s k).getD d

/-- The last factor of both score functions, recuperator.py lines 91-96 and
136-141. -/
def lastFactor (x : Cand) (s : List (Evid × Rat)) (prDefault : Rat) : Rat :=
  if x.isBranch then evid s .pbd 1
  else if x.isPushPop then evid s .pr prDefault * evid s .pupo 1
  else evid s .pr prDefault * evid s .prd 1

/-- Lines 97-99 and 143-146: a score outside [0,1] raises. -/
def checkScore (v : Rat) : Py Rat := if v > 1 ∨ v < 0 then .error .runtime else .ok v

/-- `probabilistic_rules`, recuperator.py lines 73-99. -/
def probRules (s : List (Evid × Rat)) (x : Cand) : Py Rat :=
  checkScore (evid s .pc 1 * evid s .po 1 * evid s .pcfg 1 * lastFactor x s 1)

/-- `probabilistic_rules_remove_step`, recuperator.py lines 102-146. -/
def removeStep (s : List (Evid × Rat)) (x : Cand) : Py Rat :=
  let lo := s.foldl (fun lo p => if p.2 < lo then p.2 else lo) 2
  let hi := max (max (evid s .pc 1) (evid s .po 1)) (evid s .pr 0)
  checkScore (
    if hi = 1 ∧ lo ≠ 0 then 1
    else if lo = 0 ∨ x.m.ignore then 0
    else evid s .pc 1 * evid s .po 1 * evid s .pcfg 1 * lastFactor x s 0)

/-- `score`, instruction.py lines 46-54: the sum of the evidence until the
recuperator has set its own function. -/
def scoreOf (x : Scored) : Py Rat :=
  if x.scored then removeStep x.scores x.c else .ok ((x.scores.map (·.2)).sum)

/-- Scoring one candidate, and the score it has then. -/
def scoreOne (coll : Collector) (fns : Fns) (prog : CProg) (cp : Counters) (pl : Place)
    (x : RInst Scored) : Py (RInst Scored) := do
  let d ← scoreCand coll fns prog cp pl x.data
  let v ← scoreOf d
  pure { x with data := d, score := v }

/-- The loop over addresses, recuperator.py lines 544-563; `cur` is `current_fn`. -/
def scoreLoop (coll : Collector) (fns : Fns) (prog : CProg) (cp : Counters) (low high : Int) :
    Bool → Int → List (Int × List (RInst Scored)) → Py (List (List (RInst Scored)))
  | _, _, [] => .ok []
  | first, cur, q :: qs => do
      let cur := if (dictGet fns q.1).isSome then q.1 else cur
      let insts ← q.2.mapM (scoreOne coll fns prog cp ⟨q.1, cur, low, high, first⟩)
      let rest ← scoreLoop coll fns prog cp low high false cur qs
      pure (insts :: rest)

/-- The program without evidence. -/
def bare (addrs : List Int) (prog : List (List (RInst Scored))) : CProg :=
  addrs.zip (prog.map fun v => v.map (·.data.c))

/-- `ProbabilisticRecuperator._recover`, recuperator.py lines 529-563, followed by
asking every candidate for its score, as the report and the pruning do (an
invalid score thus raises before the report's own division by zero does).
`addrs` are the keys of the program in order. -/
def recuperate (coll : Collector) (fns : Fns) (addrs : List Int) (prog : List (List (RInst Scored))) :
    Py (List (List (RInst Scored))) :=
  let p := bare addrs prog
  match addrs, addrs.getLast? with
  | a :: _, some z => scoreLoop coll fns p (counters p) a z true a (addrs.zip prog)
  | _, _ => .error .index

end Verif
