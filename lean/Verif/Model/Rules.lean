import Verif.Model.Recuperator

/-!
# `semantic_codec/metadata/probabilistic_rules/*.py` and the deprecated `Recuperator`

A candidate is kept as the answers it gives (`RuleInst`) and the scores stored in
it (`RuleCand`); different candidates are different objects.  The scores that a
rule computes depend on answers only.  Floating-point numbers are exact
rationals; 0.00000000000001 is 1/10^14.  What is printed is left out.
-/

namespace Verif

/-! ### Representations of a program -/

/-- `program[k]`. -/
def dictAt {β : Type} (program : List (Int × β)) (k : Int) : Py β :=
  match dictGet program k with
  | some v => .ok v
  | none => .error .key

/-- `from_instruction_dict_to_list`, rules.py lines 8-14. -/
def dictToList {β : Type} (program : List (Int × β)) : Py (List β) :=
  ((program.map (·.1)).insertionSort (· ≤ ·)).mapM (dictAt program)

/-- `from_instruction_list_to_dict`, rules.py lines 17-24; `address` is the
attribute of an instruction. -/
def listToDict {α : Type} (address : α → Int) (instructions : List α) : List (Int × List α) :=
  instructions.foldl (fun d i => dictSet d (address i) [i]) []

/-- `ElfFunction.start_addr`, functions.py lines 11-15. -/
def startAddr {α : Type} (address : α → Int) : List α → Int
  | [] => 0
  | i :: _ => address i

/-- `ElfFunction.final_addr`, functions.py lines 17-24. -/
def finalAddr {α : Type} (address : α → Int) : List α → Int
  | [] => 0
  | i :: is => address i + ((i :: is).length * 4 : Nat) - 4

/-- `from_functions_to_list_and_addr`, rules.py lines 27-38; a function is its
list of instructions. -/
def functionsToList {α : Type} (address : α → Int) (functions : List (List α)) :
    List α × List (Int × (Int × Int)) :=
  (functions.flatten.insertionSort (fun a b => address a ≤ address b),
   functions.foldl
    (fun d f => dictSet d (startAddr address f) (startAddr address f, finalAddr address f)) [])

/-! ### Rules -/

/-- The answers a candidate gives to the rules: those of `Cand`, `modifies_flags`
and `registers_used`. -/
structure RuleInst where
  c : Cand
  flags : Bool
  regsUsed : List Nat
  deriving DecidableEq

/-- A candidate with its `scores_by_rule`. -/
structure RuleCand where
  a : RuleInst
  scores : List (String × Rat) := []
  deriving DecidableEq

/-- A program as the rules are given it. -/
abbrev RuleProg := List (Int × List RuleCand)

/-- The answers of a program. -/
def answers (prog : RuleProg) : List (Int × List RuleInst) :=
  prog.map fun q => (q.1, q.2.map (·.a))

/-- 0.00000000000001, rules.py line 118 and distance_rule.py line 63. -/
def ruleEps : Rat := 1 / 10 ^ 14

/-- `candidate_count`, rules.py lines 53-63. -/
def candidateCount (insts : List RuleInst) : Nat := insts.countP fun i => !i.c.m.ignore

/-- `_update_candidate_score`, rules.py lines 81-86; `k` is the name of the rule
followed by the pass. -/
def updateCandidate (k : String) (x : RuleCand) (v : Rat) : RuleCand × Bool :=
  if dictGet x.scores k = some v then (x, false)
  else ({ x with scores := dictSet x.scores k v }, true)

/-- `_update_scores`, rules.py lines 88-100. -/
def updateScores (k : String) : List Rat → List RuleCand → Py (List RuleCand × Bool)
  | _, [] => .ok ([], false)
  | [], _ :: _ => .error .index
  | v :: vs, x :: xs => do
      let (xs, u) ← updateScores k vs xs
      let (x, u') := updateCandidate k x v
      pure (x :: xs, u' || u)

/-- The state of the counting loops, rules.py lines 132-134. -/
structure CfgCounts where
  conds : List Rat := List.replicate 16 ruleEps
  flagMod : Nat := 0
  t : Nat := 0

/-- The counting loops, rules.py lines 135-146. -/
def cfgCount (insts : List RuleInst) : Py CfgCounts :=
  insts.foldlM (fun s i =>
    if i.c.m.ignore then pure s
    else do
      let x ← pyGet s.conds i.c.m.cond
      let conds ← pySet s.conds i.c.m.cond (x + 1)
      pure { conds := conds, flagMod := s.flagMod + (if i.flags then 1 else 0), t := s.t + 1 }) {}

/-- The score of each condition, rules.py lines 131-156, with the constants of
probabilistic_model.py lines 34 and 37. -/
def cfgCondScores (prev post : CfgCounts) : List Rat :=
  let s0 := List.replicate 16 ruleEps
  let s1 :=
    if prev.t > 0 then
      List.zipWith (fun s n : Rat => s + 7 / 10 * n / prev.t)
        (s0.set 14 (ruleEps - 6 / 10 * prev.flagMod / prev.t)) prev.conds
    else s0
  if post.t > 0 then List.zipWith (fun s n : Rat => s + 7 / 10 * n / post.t) s1 post.conds else s1

/-- The new scores of the candidates, rules.py lines 123-172. -/
def cfgRuleScores (prog : List (Int × List RuleInst)) (position : Int) : Py (List Rat) := do
  let prev ← cfgCount ((dictGet prog (position - 4)).getD [])
  let post ← cfgCount ((dictGet prog (position + 4)).getD [])
  let conds := cfgCondScores prev post
  match dictGet prog position with
  | none => .error .key
  | some insts => insts.mapM fun i =>
      if i.c.m.ignore then .ok 0
      else do
        let s ← pyGet conds i.c.m.cond
        if i.c.isBranch ∧ (i.c.jump.any fun j => (dictGet prog j).isSome) then pure (s + 1 / 1000)
        else pure s

/-- `ControlFlowBehavior.recover`, rules.py lines 117-173: the program after it
and its answer. -/
def cfgRecover (pass : Int) (prog : RuleProg) (position : Int) : Py (RuleProg × Bool) := do
  let scores ← cfgRuleScores (answers prog) position
  match dictGet prog position with
  | none => .error .key
  | some insts => do
      let (insts, u) ← updateScores ("CFG" ++ toString pass) scores insts
      pure (dictSet prog position insts, u)

/-- What distinguishes the counting rules, counting_rules.py lines 83-147. -/
structure CountRule (κ : Type) where
  name : String
  field : RuleInst → List κ
  extra : RuleInst → Rat

/-- `ConditionalCount`, counting_rules.py lines 83-101. -/
def conditionalCount : CountRule Int := ⟨"COND_COUNT", fun i => [i.c.m.cond], fun _ => 0⟩

/-- `RegisterCount`, counting_rules.py lines 103-127. -/
def registerCount : CountRule Nat :=
  ⟨"REG_COUNT", fun i => i.regsUsed, fun i => if i.c.isBranch then 1 / 1000000 else 0⟩

/-- `InstructionCount`, counting_rules.py lines 129-147. -/
def instructionCount : CountRule Nat := ⟨"INST_COUNT", fun i => [i.c.m.opcode], fun _ => 0⟩

section Counting

variable {κ : Type} [DecidableEq κ]

/-- `remaining[v] -= 1`. -/
def ruleDecKey (d : List (κ × Int)) (v : κ) : Py (List (κ × Int)) :=
  match dictGet d v with
  | none => .error .key
  | some n => .ok (dictSet d v (n - 1))

/-- `_compute_remaining_candidate_probability`, counting_rules.py lines 21-46. -/
def remainingScores (r : CountRule κ) (counts : List (κ × Nat)) (prog : List (Int × List RuleInst)) :
    Py (List (κ × Rat)) := do
  let (remaining, cands) ← prog.foldlM
    (fun (s : List (κ × Int) × List (κ × Nat)) q =>
      if candidateCount q.2 = 1 then
        match q.2 with
        | [] => .error .index
        | i :: _ =>
            if i.c.m.ignore then .ok s
            else do
              let d ← (r.field i).foldlM ruleDecKey s.1
              pure (d, s.2)
      else .ok (s.1, incKeys s.2 ((q.2.filter fun i => !i.c.m.ignore).flatMap r.field)))
    (counts.map (fun p => (p.1, (p.2 : Int))), [])
  remaining.foldlM (fun scores p =>
    match dictGet cands p.1 with
    | some n => do
        let q ← pyDiv p.2 n
        pure (dictSet scores p.1 q)
    | none => pure (dictSet scores p.1 0)) []

/-- The new score of a candidate, counting_rules.py lines 57-61. -/
def countScore (r : CountRule κ) (scores : List (κ × Rat)) (i : RuleInst) : Rat :=
  (r.field i).foldl (fun s v => s + match dictGet scores v with
    | some x => x / (r.field i).length
    | none => 0) (r.extra i)

/-- The loop over candidates, counting_rules.py lines 55-63. -/
def countUpdate (r : CountRule κ) (k : String) (scores : List (κ × Rat)) :
    List RuleCand → List RuleCand × Bool
  | [] => ([], false)
  | x :: xs =>
      let rest := countUpdate r k scores xs
      if x.a.c.m.ignore then (x :: rest.1, rest.2)
      else
        let u := updateCandidate k x (countScore r scores x.a)
        (u.1 :: rest.1, u.2 || rest.2)

/-- The scores of fields, counting_rules.py lines 50-51; `cache` is `_scores`. -/
def countCache (r : CountRule κ) (counts : List (κ × Nat)) (cache : List (κ × Rat)) (prog : RuleProg) :
    Py (List (κ × Rat)) :=
  if cache.length = 0 then remainingScores r counts (answers prog) else .ok cache

/-- `CountingRule.recover`, counting_rules.py lines 48-63; `cache` is `_scores`.
The new cache, the program and the answer. -/
def countRecover (r : CountRule κ) (counts : List (κ × Nat)) (pass : Int) (cache : List (κ × Rat))
    (prog : RuleProg) (position : Int) : Py (List (κ × Rat) × RuleProg × Bool) := do
  let scores ← countCache r counts cache prog
  match dictGet prog position with
  | none => .error .key
  | some insts =>
      let u := countUpdate r (r.name ++ toString pass) scores insts
      .ok (scores, dictSet prog position u.1, u.2)

end Counting

/-- `sys.maxsize`. -/
def maxSize : Int := 2 ^ 63 - 1

/-- The range of distances, distance_rule.py lines 87-90. -/
def ruleRange (coll : Collector) (storages : List Nat) : Int × Int :=
  storages.foldl (fun m v =>
    ((match dictGet coll.minDist v with
      | some d => if (d : Int) < m.1 then (d : Int) else m.1
      | none => m.1),
     (match dictGet coll.maxDist v with
      | some d => if (d : Int) > m.2 then (d : Int) else m.2
      | none => m.2))) (maxSize, -maxSize)

/-- The positions visited going backwards, distance_rule.py lines 94-95, 100 and
139. -/
def backPositions (position : Int) (m : Int × Int) : List Int :=
  (List.range (m.2 - m.1 + 1).toNat).map fun k => position - 4 * m.1 - 4 * (k : Int)

/-- The contribution of one previous candidate, distance_rule.py lines 105-122.
The second component is the loop variable `w`, which outlives its loop; an
`UnboundLocalError` or an `IndexError` of line 118 is caught. -/
def prevStep (storages : List Nat) (count : Nat) (s : List Rat × Option Nat) (p : RuleInst) :
    Py (List Rat × Option Nat) :=
  if p.c.m.ignore then .ok s
  else do
    let arr ← p.c.m.written.foldlM
      (fun (arr : List Rat) w =>
        if w ∈ storages then
          match arr[w]? with
          | none => .error .index
          | some x => do
              let q ← pyDiv 1 ((p.c.m.written.length : Rat) * count)
              pure (arr.set w (x + q))
        else .ok arr) (List.replicate storageCount ruleEps)
    match p.c.m.written.getLast?.or s.2 with
    | none => pure s
    | some w =>
        match s.1[w]?, arr[w]? with
        | some a, some b => pure (s.1.set w (max a b), some w)
        | _, _ => pure (s.1, some w)

/-- Going backwards, distance_rule.py lines 100-141: the scores given to the
candidate one after the other, and `w`. -/
def backLoop (prog : List (Int × List RuleInst)) (storages : List Nat) :
    List Int → List Rat → Rat → Option Nat → Py (List Rat × Option Nat)
  | [], _, _, w => .ok ([], w)
  | a :: as, reg, best, w =>
      match dictGet prog a with
      | none => backLoop prog storages as reg best w
      | some insts => do
          let (reg, w) ← insts.foldlM (prevStep storages (candidateCount insts)) (reg, w)
          let s := (storages.map fun r => (reg[r]?).getD 0).sum
          let q ← pyDiv s storages.length
          let best := max q best
          if best ≥ 1 then pure ([1], w)
          else do
            let (rest, w) ← backLoop prog storages as reg best w
            pure (best :: rest, w)

/-- The scores that a candidate is given one after the other, distance_rule.py
lines 76-141, and `w`. -/
def distanceScores (coll : Collector) (prog : List (Int × List RuleInst)) (position : Int)
    (w : Option Nat) (i : RuleInst) : Py (List Rat × Option Nat) :=
  if i.c.m.ignore then .ok ([0], w)
  else if i.c.m.used.length = 0 then .ok ([ruleEps], w)
  else backLoop prog i.c.m.read (backPositions position (ruleRange coll i.c.m.read))
    (List.replicate storageCount ruleEps) 0 w

/-- The scores of all candidates, distance_rule.py line 76. -/
def distanceAll (coll : Collector) (prog : List (Int × List RuleInst)) (position : Int) :
    Option Nat → List RuleInst → Py (List (List Rat))
  | _, [] => .ok []
  | w, i :: is => do
      let (vs, w) ← distanceScores coll prog position w i
      let rest ← distanceAll coll prog position w is
      pure (vs :: rest)

/-- Giving a candidate scores one after the other. -/
def giveScores (k : String) (x : RuleCand) (vs : List Rat) : RuleCand × Bool :=
  vs.foldl (fun s v => ((updateCandidate k s.1 v).1, s.2 || (updateCandidate k s.1 v).2)) (x, false)

/-- `RegisterReadDistance.recover`, distance_rule.py lines 62-143.  A change of an
ignored candidate is not reported (line 79). -/
def distanceRecover (coll : Collector) (pass : Int) (prog : RuleProg) (position : Int) :
    Py (RuleProg × Bool) :=
  match dictGet prog position with
  | none => .error .key
  | some insts => do
      let vss ← distanceAll coll (answers prog) position none (insts.map (·.a))
      let us := insts.zipWith (giveScores ("REG_DIST" ++ toString pass)) vss
      pure (dictSet prog position (us.map (·.1)), us.any fun u => u.2 && !u.1.a.c.m.ignore)

/-! ### The deprecated recuperator -/

/-- The rules of one pass with their caches, recuperator.py lines 37-41 and 45-47:
the rules in order on one address. -/
structure Caches where
  cond : List (Int × Rat) := []
  inst : List (Nat × Rat) := []
  reg : List (Nat × Rat) := []

/-- All five rules on one address, recuperator.py lines 45-47. -/
def rulesAt (coll : Collector) (pass : Int) (s : Caches × RuleProg) (position : Int) :
    Py (Caches × RuleProg) := do
  let (prog, _) ← cfgRecover pass s.2 position
  let (c1, prog, _) ← countRecover conditionalCount coll.conditionCnt pass s.1.cond prog position
  let (c2, prog, _) ← countRecover instructionCount coll.instructionCnt pass s.1.inst prog position
  let (c3, prog, _) ← countRecover registerCount coll.storageCnt pass s.1.reg prog position
  let (prog, _) ← distanceRecover coll pass prog position
  pure (⟨c1, c2, c3⟩, prog)

/-- Setting `ignore`, recuperator.py lines 52-55. -/
def markIgnored (x : RuleCand) : RuleCand :=
  if x.scores.any (fun p => decide (p.2 ≤ 0)) then
    { x with a := { x.a with c := { x.a.c with m := { x.a.c.m with ignore := true } } } }
  else x

/-- One address, recuperator.py lines 43-55. -/
def oldTurn (coll : Collector) (passes : Nat) (pass : Int) (s : Caches × RuleProg) (position : Int) :
    Py (Caches × RuleProg) :=
  match dictGet s.2 position with
  | none => .error .key
  | some insts =>
      if insts.length > 1 then do
        let s ← rulesAt coll pass s position
        if passes > 1 then
          match dictGet s.2 position with
          | none => .error .key
          | some insts => pure (s.1, dictSet s.2 position (insts.map markIgnored))
        else pure s
      else .ok s

/-- `Recuperator._recover`, recuperator.py lines 35-58, without the progress bar. -/
def oldRecover (coll : Collector) (passes : Nat) (prog : RuleProg) : Py RuleProg :=
  (List.range passes).foldlM (fun prog (i : Nat) => do
    let s ← (prog.map (·.1)).foldlM (oldTurn coll passes (i : Int)) (({} : Caches), prog)
    pure s.2) prog

end Verif
