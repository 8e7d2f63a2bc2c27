import Verif.Model.Huffman
import Verif.Model.Modifier
import Verif.Model.Corruption
import Verif.Model.Report

/-!
# `InstructionPartFrequencyChanger` of `semantic_codec/compressor/huffman.py`

The quality-of-service function may remember what it was asked: its answer is a function
of all the calls so far, the last one being the present one.  A part is an integer, an
instruction has an encoding and an address.
-/

namespace Verif

/-- A call `qos.run(new_enc, address)`. -/
abbrev QosCall := Nat × Nat

/-- The frequency dictionary and the calls made so far. -/
structure ChangeState where
  freq : List (Int × Int)
  calls : List QosCall := []
  deriving DecidableEq

section Change

variable (qos : List QosCall → Bool) (changer : CInst → Int → Int → Py (Nat × Bool))

/-- `while has_next: …`, huffman.py lines 63-78: the flag `any_correct` and the state. -/
def changeAll (inst : CInst) (part newPart : Int) : Nat → Bool → ChangeState → Option (Py (Bool × ChangeState))
  | 0, _, _ => none
  | fuel + 1, anyCorrect, s =>
      match changer inst part newPart with
      | .error e => some (.error e)
      | .ok (enc, hasNext) =>
          let calls := s.calls ++ [(enc, inst.address)]
          let correct := qos calls
          let freq :=
            if correct then
              match dictGet s.freq part with
              | some f => dictSet s.freq part (f - 1)
              | none => s.freq
            else s.freq
          let s := { freq := freq, calls := calls }
          if hasNext then changeAll inst part newPart fuel (anyCorrect || correct) s
          else some (.ok (anyCorrect || correct, s))

/-- `while not any_correct and index > part: …`, huffman.py lines 56-83, with
`index = part + n` and `any_correct` still false. -/
def changeDown (fuel : Nat) (sorted : List Int) (inst : CInst) (part : Int) :
    Nat → ChangeState → Option (Py ChangeState)
  | 0, s => some (.ok s)
  | n + 1, s =>
      match pyGet sorted (part + (n + 1)) with
      | .error e => some (.error e)
      | .ok newPart =>
          match changeAll qos changer inst part newPart fuel false s with
          | none => none
          | some (.error e) => some (.error e)
          | some (.ok (true, s)) => some (.ok s)
          | some (.ok (false, s)) => changeDown fuel sorted inst part n s

/-- The loop over the instructions with a part, huffman.py lines 47-54: the search
starts at `index = len(freq_sorted) - 1`. -/
def changeInsts (fuel : Nat) (sorted : List Int) (part : Int) : List CInst → ChangeState → Option (Py ChangeState)
  | [], s => some (.ok s)
  | inst :: rest, s =>
      match changeDown qos changer fuel sorted inst part ((sorted.length : Int) - 1 - part).toNat s with
      | none => none
      | some (.error e) => some (.error e)
      | some (.ok s) => changeInsts fuel sorted part rest s

/-- The loop over the parts, huffman.py lines 42-48. -/
def changeEach (fuel : Nat) (sorted : List Int) (withPart : List (Int × List CInst)) :
    List Int → ChangeState → Option (Py ChangeState)
  | [], s => some (.ok s)
  | part :: rest, s =>
      match dictGet withPart part with
      | none => some (.error .key)
      | some insts =>
          match changeInsts qos changer fuel sorted part insts s with
          | none => none
          | some (.error e) => some (.error e)
          | some (.ok s) => changeEach fuel sorted withPart rest s

/-- `freq_sorted.sort(key=lambda k: frequency[k])`, huffman.py lines 39-40. -/
def freqSorted (freq : List (Int × Int)) : List Int :=
  (freq.map (·.1)).insertionSort fun a b => (dictGet freq a).getD 0 ≤ (dictGet freq b).getD 0

/-- `_change_parts`, huffman.py lines 27-83. -/
def changeParts (fuel : Nat) (withPart : List (Int × List CInst)) (freq : List (Int × Int)) :
    Option (Py ChangeState) :=
  changeEach qos changer fuel (freqSorted freq) withPart (freqSorted freq) { freq := freq }

/-- `change_registers`, huffman.py lines 20-25, with the counter it was given. -/
def changeRegisters (fuel : Nat) (withPart : List (Int × List CInst)) (freq : List (Int × Int)) :
    Option (Py ChangeState) :=
  changeParts qos (fun i r r' => modifyRegister i.encoding r.toNat r'.toNat) fuel withPart freq

end Change

/-- `MockQoSFunction.run` as the answer to the last of some calls. -/
def mockQos (calls : List QosCall) : Bool := qosAnswer (calls.length - 1)

end Verif
