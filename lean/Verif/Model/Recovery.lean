import Verif.Model.Basic
import Mathlib.Data.List.Sort
import Mathlib.Algebra.Order.Field.Rat

/-!
# `recover_program.py`

A candidate is kept as its encoding, its printed text and its present score.
The comparison of single rules printed for a losing candidate (lines 56-64),
which cannot raise and changes nothing but the printed text, is left out.
-/

namespace Verif

variable {α : Type}

/-- What the report and the pruning ask a candidate for. -/
structure RInst (α : Type) where
  enc : Nat
  str : Nat
  score : Rat
  data : α
  deriving DecidableEq

/-! ### `remove_bad_candidates_at_addr`, lines 126-154 -/

/-- State of the two loops: the list, the index and the two counters. -/
structure PruneSt (α : Type) where
  v : List (RInst α)
  i : Nat
  one : Nat
  less : Nat
  deriving DecidableEq

/-- The first loop body, recover_program.py lines 132-143. -/
def pruneTurn1 (s : PruneSt α) : Py (PruneSt α) :=
  match s.v[s.i]? with
  | none => .error .index
  | some x =>
      if x.score = 1 then .ok { s with one := s.one + 1, i := s.i + 1 }
      else if x.score = 0 then .ok { s with v := s.v.eraseIdx s.i }
      else if s.one > 0 then .ok { s with less := s.less + 1, v := s.v.eraseIdx s.i }
      else .ok { s with less := s.less + 1, i := s.i + 1 }

/-- The second loop body, recover_program.py lines 148-152. -/
def pruneTurn2 (s : PruneSt α) : Py (PruneSt α) :=
  match s.v[s.i]? with
  | none => .error .index
  | some x =>
      if x.score < 1 ∧ s.one > 0 then .ok { s with v := s.v.eraseIdx s.i }
      else .ok { s with i := s.i + 1 }

/-- The condition of both loops. -/
def pruneCond (s : PruneSt α) : Bool := decide (s.i < s.v.length)

/-- `remove_bad_candidates_at_addr`, recover_program.py lines 126-154: the
remaining candidates (the list is changed in place) and the number removed. -/
def removeBad (fuel : Nat) (v : List (RInst α)) : Option (Py (List (RInst α) × Nat)) :=
  match whileLoop pruneCond pruneTurn1 fuel ⟨v, 0, 0, 0⟩ with
  | none => none
  | some (.error e) => some (.error e)
  | some (.ok s) =>
      if s.less > 0 then
        (whileLoop pruneCond pruneTurn2 fuel { s with i := 0 }).map fun r => do
          let s' ← r
          pure (s'.v, v.length - s'.v.length)
      else some (.ok (s.v, v.length - s.v.length))

/-! ### `print_report`, lines 14-123 -/

/-- `instructions.sort(key=score, reverse=True)` keeps the order of equals. -/
def sortScore (l : List (RInst α)) : List (RInst α) := l.insertionSort fun a b => b.score ≤ a.score

/-- The numbers of the report. -/
structure Report where
  errors : Nat := 0
  recovered : Nat := 0
  looses : Nat := 0
  tide : Nat := 0
  depths : List (Nat × Nat) := []
  deriving DecidableEq

/-- The depth of the original among the sorted candidates, recover_program.py
lines 81-97: `this_depth`, `count_depth` and the counters per depth. -/
def depthTurn (orig : RInst α) (s : Nat × Bool × List (Nat × Nat)) (x : RInst α) :
    Nat × Bool × List (Nat × Nat) :=
  if x.enc = orig.enc then
    (s.1, false, dictSet s.2.2 s.1 (match dictGet s.2.2 s.1 with | none => 1 | some n => n + 1))
  else (if s.2.1 then s.1 + 1 else s.1, s.2.1, s.2.2)

/-- The report of one address with its sorted candidates, recover_program.py
lines 39-97. -/
def reportAddr (r : Report) (orig : RInst α) (insts : List (RInst α)) : Py (Report × List (RInst α)) :=
  if insts.length > 1 then
    match sortScore insts with
    | c1 :: c2 :: rest =>
        let insts := c1 :: c2 :: rest
        let r := { r with errors := r.errors + 1 }
        let r :=
          if c1.str ≠ orig.str ∧ c1.enc ≠ c2.enc then { r with looses := r.looses + 1 }
          else if c1.score = c2.score ∧ c1.str ≠ c2.str then { r with tide := r.tide + 1 }
          else { r with recovered := r.recovered + 1 }
        .ok ({ r with depths := (insts.foldl (depthTurn orig) (0, true, r.depths)).2.2 }, insts)
    | _ => .error .index
  else .ok (r, insts)

/-- The loop over addresses, recover_program.py lines 27-102; a shorter
recovered program raises `IndexError`. -/
def reportLoop (r : Report) : List (RInst α) → List (List (RInst α)) → Py (Report × List (List (RInst α)))
  | [], insts => .ok (r, insts)
  | _ :: _, [] => .error .index
  | o :: os, is :: iss => do
      let (r, is) ← reportAddr r o is
      let (r, iss) ← reportLoop r os iss
      pure (r, is :: iss)

/-- `print_report`, recover_program.py lines 14-123: the numbers printed and the
sorted candidates; the ratio of line 119 raises `ZeroDivisionError`. -/
def printReport (orig : List (RInst α)) (recovered : List (List (RInst α))) :
    Py (Report × List (List (RInst α))) := do
  let (r, iss) ← reportLoop {} orig recovered
  if r.errors = 0 then .error .zeroDiv else pure (r, iss)

/-! ### The loop of `run_recovery`, lines 181-203 -/

/-- Pruning all addresses, recover_program.py lines 193-197: the candidates and
whether something was removed. -/
def pruneAll (fuel : Nat) : List (List (RInst α)) → Option (Py (List (List (RInst α)) × Bool))
  | [] => some (.ok ([], false))
  | v :: vs =>
      match removeBad fuel v, pruneAll fuel vs with
      | some (.error e), _ => some (.error e)
      | some (.ok _), some (.error e) => some (.error e)
      | some (.ok (v', n)), some (.ok (vs', b)) => some (.ok (v' :: vs', decide (n > 0) || b))
      | none, _ => none
      | some (.ok _), none => none

/-- One pass, recover_program.py lines 183-203.  `score p` is what the
recuperator does in pass `p`: it gives every candidate a new score, or raises.
The printed solution quality is left out (see `Model/SolutionQuality.lean`). -/
def recoveryPass (score : Nat → List (List (RInst α)) → Py (List (List (RInst α)))) (orig : List (RInst α))
    (s : Nat × List (List (RInst α)) × Bool) : Py (Nat × List (List (RInst α)) × Bool) := do
  let prog ← score s.1 s.2.1
  let (_, prog) ← printReport orig prog
  match pruneAll ((prog.map List.length).sum + 1) prog with
  | none => .error .runtime
  | some r => do
      let (prog, removed) ← r
      pure (s.1 + 1, prog, removed)

/-- `while True: …; if stable: break`, recover_program.py lines 181-203. -/
def recoveryLoop (score : Nat → List (List (RInst α)) → Py (List (List (RInst α)))) (orig : List (RInst α))
    (fuel : Nat) (prog : List (List (RInst α))) : Option (Py (Nat × List (List (RInst α)) × Bool)) :=
  whileLoop (fun s => s.2.2) (recoveryPass score orig) fuel (1, prog, true)

end Verif
