import Verif.Model.Metadata

/-!
# The count constraint of `semantic_codec/solution/solution_builders.py`

The constraint is called by the third-party package `constraint`.  What matters
of that package is its class `Domain`, a list with the method
`hideValue(value)`, which removes one occurrence with `list.remove` and so
raises `ValueError` when the value is no longer there.  Instructions are
compared by identity, so the type of values is kept abstract with decidable
equality; the dictionaries `assignments` and `domains` are functions of the
variable.
-/

namespace Verif

variable {V I K : Type} [DecidableEq V] [DecidableEq I] [DecidableEq K]

/-- What the constraint asks a value for: whether it is ignored, and the field
values (`_field_fn`) to be counted. -/
structure CountField (I K : Type) where
  ignore : I → Bool
  field : I → List K

/-- `sum[v] = 1` or `sum[v] += 1`, solution_builders.py lines 42-46. -/
def addField (sum : List (K × Int)) (v : K) : List (K × Int) :=
  match dictGet sum v with
  | none => dictSet sum v 1
  | some n => dictSet sum v (n + 1)

/-- One turn of the loop over variables, solution_builders.py lines 36-48. -/
def sumTurn (f : CountField I K) (assignments : V → Option I) (s : List (K × Int) × Bool)
    (var : V) : List (K × Int) × Bool :=
  match assignments var with
  | some inst => if f.ignore inst then s else ((f.field inst).foldl addField s.1, s.2)
  | none => (s.1, true)

/-- `sum` and `missing` after solution_builders.py lines 31-48. -/
def sumFields (f : CountField I K) (exactsum : List (K × Int)) (vars : List V)
    (assignments : V → Option I) : List (K × Int) × Bool :=
  vars.foldl (sumTurn f assignments) (exactsum.foldl (fun s p => dictSet s p.1 0) [], false)

/-- `domain.hideValue(value)` of the package `constraint`. -/
def hideValue (domain : List I) (value : I) : Py (List I) :=
  if value ∈ domain then .ok (domain.erase value) else .error .value

/-- The test of solution_builders.py line 62. `sum` has every key of
`exactsum`, so that `sum[v]` is defined (`KeyError` otherwise). -/
def tooMany (sum exactsum : List (K × Int)) (v : K) : Py Bool :=
  match dictGet exactsum v with
  | none => .ok true
  | some e =>
      match dictGet sum v with
      | none => .error .key
      | some s => .ok (decide (s + 1 > e))

/-- The loop over the field values of one value, solution_builders.py lines 61-63. -/
def hideFields (sum exactsum : List (K × Int)) (value : I) : List K → List I → Py (List I)
  | [], domain => .ok domain
  | v :: vs, domain => do
      if ← tooMany sum exactsum v then
        let d ← hideValue domain value
        hideFields sum exactsum value vs d
      else hideFields sum exactsum value vs domain

/-- The loop over a copy of the domain, solution_builders.py lines 58-63.  A
value is an object and therefore true. -/
def hideValues (f : CountField I K) (sum exactsum : List (K × Int)) : List I → List I → Py (List I)
  | [], domain => .ok domain
  | value :: rest, domain => do
      if f.ignore value then hideValues f sum exactsum rest domain
      else
        let d ← hideFields sum exactsum value (f.field value) domain
        hideValues f sum exactsum rest d

/-- The forward check, solution_builders.py lines 55-65: the new domains, and
`false` when the call returns `False` on the way. -/
def forwardCheck (f : CountField I K) (sum exactsum : List (K × Int)) (assignments : V → Option I) :
    List V → (V → List I) → Py (Bool × (V → List I))
  | [], domains => .ok (true, domains)
  | v :: vs, domains =>
      match assignments v with
      | some _ => forwardCheck f sum exactsum assignments vs domains
      | none => do
          let d ← hideValues f sum exactsum (domains v) (domains v)
          let domains := fun w => if w = v then d else domains w
          if d.isEmpty then .ok (false, domains)
          else forwardCheck f sum exactsum assignments vs domains

/-- `for k in sum: if test: return False`, with `exactsum[k]` raising
`KeyError` for an unknown key, solution_builders.py lines 67-69 and 71-73. -/
def checkSums (exactsum : List (K × Int)) (bad : Int → Int → Bool) : List (K × Int) → Py Bool
  | [] => .ok true
  | (k, s) :: t =>
      match dictGet exactsum k with
      | none => .error .key
      | some e => if bad s e then .ok false else checkSums exactsum bad t

/-- The last part of the constraint, solution_builders.py lines 66-74. -/
def finalCheck (exactsum sum : List (K × Int)) (missing : Bool) : Py Bool :=
  if missing then checkSums exactsum (fun s e => decide (s > e)) sum
  else checkSums exactsum (fun s e => decide (s ≠ e)) sum

/-- The test of solution_builders.py lines 50-52. -/
def overflows (exactsum sum : List (K × Int)) : Bool :=
  sum.any fun p =>
    match dictGet exactsum p.1 with
    | none => true
    | some e => decide (p.2 > e)

/-- `ExactFieldSumConstraint.__call__`, solution_builders.py lines 27-74: the
answer and the domains afterwards. -/
def constraintCall (f : CountField I K) (exactsum : List (K × Int)) (vars : List V)
    (domains : V → List I) (assignments : V → Option I) (forwardcheck : Bool) :
    Py (Bool × (V → List I)) :=
  let s := sumFields f exactsum vars assignments
  if overflows exactsum s.1 then .ok (false, domains)
  else do
    let r ← if forwardcheck && s.2 then forwardCheck f s.1 exactsum assignments vars domains
      else .ok (true, domains)
    if r.1 then
      let b ← finalCheck exactsum s.1 s.2
      .ok (b, r.2)
    else .ok r

/-! ### `ProblemBuilder` -/

/-- The variables, domains and constraints handed to the package. -/
structure CProblem where
  vars : List (Nat × List MInst)
  conditions : List (Int × Int)
  opcodes : List (Nat × Int)
  storages : List (Nat × Int)

/-- `lambda x: [x.conditional_field]`, solution_builders.py line 83. -/
def condField : CountField MInst Int := ⟨MInst.ignore, fun x => [x.cond]⟩

/-- `lambda x: [x.opcode_field]`, solution_builders.py line 84. -/
def opcodeField : CountField MInst Nat := ⟨MInst.ignore, fun x => [x.opcode]⟩

/-- `lambda x: x.storages_used()`, solution_builders.py line 85. -/
def storageField : CountField MInst Nat := ⟨MInst.ignore, MInst.used⟩

/-- A collected counter as the constraint reads it. -/
def asInt (d : List (K × Nat)) : List (K × Int) := d.map fun p => (p.1, (p.2 : Int))

/-- `ProblemBuilder.build`, solution_builders.py lines 78-89. The package
rejects an empty domain and a repeated variable; neither arises from the items
of a dictionary filtered by line 81. -/
def buildProblem (program : List (Nat × List MInst)) (metadata : Collector) : CProblem :=
  { vars := program.filter fun p => decide (0 < p.2.length)
    conditions := asInt metadata.conditionCnt
    opcodes := asInt metadata.instructionCnt
    storages := asInt metadata.storageCnt }

/-- The answers of the three constraints of a problem to an assignment, none of
them asked to check forward (the package does so only for complete answers). -/
def problemAnswers (p : CProblem) (assignments : Nat → Option MInst) : List (Py Bool) :=
  let vars := p.vars.map (·.1)
  let domains := fun a => (dictGet p.vars a).getD []
  [(constraintCall condField p.conditions vars domains assignments false).map (·.1),
   (constraintCall opcodeField p.opcodes vars domains assignments false).map (·.1),
   (constraintCall storageField p.storages vars domains assignments false).map (·.1)]

end Verif
