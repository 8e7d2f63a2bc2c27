import Verif.Model.Recuperator

/-!
# Two helpers of `ProbabilisticRecuperator` that its passes do not call

`_instruction_range_probs` and `_prob_of_a` of `semantic_codec/metadata/recuperator.py`.  A
candidate is reduced to what the helpers ask of it: whether it is ignored, its score, and the
answer to the question they are given.  The question and the score function do not raise.
Scores are exact numbers.
-/

namespace Verif

/-- A candidate as the helpers see it. -/
structure Asked where
  ignored : Bool
  score : Rat
  answer : Bool
  deriving DecidableEq

/-- `range(a, b, -1 if b < a else 1)`, recuperator.py lines 168-169. -/
def rangeEither (a b : Int) : List Int :=
  if b < a then (List.range (a - b).toNat).map fun n : Nat => a - (n : Int)
  else (List.range (b - a).toNat).map fun n : Nat => a + (n : Int)

/-- The loop over the candidates of one address, recuperator.py lines 171-177. -/
def unionOf : List Asked → Nat × Rat → Nat × Rat
  | [], s => s
  | x :: xs, s =>
      if !x.ignored && decide (x.score > 0) && x.answer then unionOf xs (s.1 + 1, s.2 + x.score)
      else unionOf xs s

/-- `_instruction_range_probs`, recuperator.py lines 159-180. -/
def rangeProbs (prog : List (Int × List Asked)) (addr a b : Int) : List Rat :=
  (rangeEither a b).foldl (fun ph k =>
    match dictGet prog (addr - 4 * k) with
    | none => ph
    | some l =>
        let s := unionOf l (0, 0)
        if s.2 > 0 then ph ++ [s.2 / s.1] else ph) []

/-- The loop of `_prob_of_a`, recuperator.py lines 228-233: the candidates of the kind and
all that are not ignored. -/
def kindCount : List Asked → Nat × Nat → Nat × Nat
  | [], s => s
  | x :: xs, s =>
      if x.ignored then kindCount xs s
      else kindCount xs (if x.answer then s.1 + 1 else s.1, s.2 + 1)

/-- `_prob_of_a`, recuperator.py lines 226-234. -/
def probOfA (prog : List (Int × List Asked)) (addr : Int) : Py Rat :=
  match dictGet prog addr with
  | none => .error .key
  | some l =>
      let s := kindCount l (0, 0)
      if s.2 > 0 then .ok ((s.1 : Rat) / s.2) else .ok 0

end Verif
