import Verif.Model.Recuperator
import Verif.Model.Rules
import Verif.Model.ForwardBuilder
import Verif.Model.SolutionIO

/-!
# `run_recovery`, recover_program.py lines 156-227

The whole run: metadata, corruption, the loop of scoring and pruning, the forward
enumeration and the two solution files.  What an instruction answers is a function
`dec` of its address and encoding.  The corruptor is a function from programs to
programs; it returns the dictionary in the order of addresses, as those of the
repository do, which change the dictionary made from the sorted list in place.  The
printed lines are left out, among them those of `SolutionQuality.report`, which only
counts (lines 175, 199 and 217).  The text files of the reports are left out.
-/

namespace Verif

/-- What a disassembled instruction answers: `cand` to the recuperator, `regs` to
`registers_used` and `str` is its printed text. -/
structure Answers where
  cand : Cand
  regs : List Nat
  str : Nat
  deriving DecidableEq

/-- The two files of a run, if they were opened: `initial_solution.sol` and
`final_solution.sol`. -/
structure Files where
  initial : Option Bytes := none
  final : Option Bytes := none
  deriving DecidableEq

section Run

variable (dec : Nat → Nat → Answers)

/-- A new instruction at an address, with the score of no evidence. -/
def decoded (a e : Nat) : RInst Scored := ⟨e, (dec a e).str, 0, ⟨(dec a e).cand, [], false⟩⟩

/-- The instruction as the forward builder sees it. -/
def toForward (a : Nat) (x : RInst Scored) : FInst := ⟨x.data.c.m, (dec a x.enc).regs, x.str⟩

/-- `from_instruction_list_to_dict`, rules.py lines 17-24. -/
def toDict (l : List CInst) : Program := l.foldl (fun d i => dictSet d i.address [i]) []

/-- The candidates as the solution writer sees them. -/
def toSolution (addrs : List Nat) (prog : List (List (RInst Scored))) : Program :=
  (addrs.zip prog).map fun q => (q.1, q.2.map fun x => ⟨x.enc, q.1⟩)

/-- `inst.score_function = probabilistic_rules`, lines 207-209, and the scores asked for
when the candidates of the address are sorted. -/
def continuous (v : List (RInst Scored)) : Py (List (RInst Scored)) :=
  if 1 < v.length then
    v.mapM fun x => do
      let p ← probRules x.data.scores x.data.c
      pure { x with score := p }
  else .ok v

/-- The candidates that the builder has left of a list: the model of the builder keeps
the answers and the text only, so they are found again in the order of the list.
Candidates with the same answers and text at one address are not told apart. -/
def leftOf (a : Nat) : List (RInst Scored) → List FInst → List (RInst Scored)
  | [], _ => []
  | _ :: _, [] => []
  | x :: xs, f :: fs => if toForward dec a x = f then x :: leftOf a xs fs else leftOf a xs (f :: fs)

/-- The originals by address as the forward builder keeps them: `_original[a][0]`. -/
def originalAt (orig : List CInst) (a : Nat) : Option FInst :=
  ((dictGet (toDict orig) a).bind List.head?).map fun i => toForward dec i.address (decoded dec i.address i.encoding)

/-- The end of a run, recover_program.py lines 206-223, up to the last report. -/
def finishRun (orig : List CInst) (addrs : List Nat) (prog : List (List (RInst Scored))) :
    Option (Py (List (List (RInst Scored)))) :=
  let os := orig.map fun i => decoded dec i.address i.encoding
  match (do
      let prog ← prog.mapM continuous
      let r ← printReport os prog
      pure r.2 : Py (List (List (RInst Scored)))) with
  | .error e => some (.error e)
  | .ok prog =>
      match fwdBuild enumBuilder (originalAt dec orig) (addrs.length + 1)
          ((addrs.zip prog).map fun q => (q.1, q.2.map (toForward dec q.1)))
          (budgetOf (orig.map fun i => toForward dec i.address (decoded dec i.address i.encoding))) 1 with
      | none => none
      | some (.error e) => some (.error e)
      | some (.ok s) =>
          some (do
            let r ← printReport os ((addrs.zip prog).map fun q =>
              leftOf dec q.1 q.2 ((dictGet s.program q.1).getD []))
            pure r.2)

/-- `run_recovery`, recover_program.py lines 156-227: the files written and the
candidates at the end, or the exception.  `functions` are the instructions of the
functions of the program. -/
def runRecovery (corrupt : Program → Py Program) (fuel : Nat) (functions : List (List CInst)) :
    Option (Files × Py (Program)) :=
  let r := functionsToList (fun i : CInst => (i.address : Int)) functions
  let orig := r.1
  let os := orig.map fun i => decoded dec i.address i.encoding
  let coll := collectMeta {} (os.map (·.data.c.m))
  match corrupt (toDict orig) with
  | .error e => some ({}, .error e)
  | .ok corrupted =>
      let addrs := corrupted.map (·.1)
      match printReport os (corrupted.map fun q => q.2.map fun i => decoded dec q.1 i.encoding) with
      | .error e => some ({}, .error e)
      | .ok (_, prog) =>
          let first := writeBinary (toDict orig) (toSolution addrs prog)
          match first.2 with
          | .error e => some ({ initial := some first.1 }, .error e)
          | .ok _ =>
              match recoveryLoop (fun _ p => recuperate coll r.2 (addrs.map fun a : Nat => (a : Int)) p) os fuel prog with
              | none => none
              | some (.error e) => some ({ initial := some first.1 }, .error e)
              | some (.ok s) =>
                  match finishRun dec orig addrs s.2.1 with
                  | none => none
                  | some (.error e) => some ({ initial := some first.1 }, .error e)
                  | some (.ok prog) =>
                      let last := writeBinary (toDict orig) (toSolution addrs prog)
                      some ({ initial := some first.1, final := some last.1 },
                        do let _ ← last.2; pure (toSolution addrs prog))

end Run

end Verif
