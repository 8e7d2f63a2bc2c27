import Verif.Model.Basic
import Mathlib.Data.List.Sort

/-!
# `semantic_codec/compressor/huffman.py`

Symbols are integers, codes are lists of bits (`'0'` is `false`, `'1'` is
`true`).  `heapq` is external: a heap is a list, and popping takes the least
entry in Python's order on lists.  Entries start with the weight, then comes
their first symbol; the symbols of different entries differ, so that nothing
after the first symbol is ever compared.
-/

namespace Verif

/-- A heap entry `[weight, [symbol, code], …]`. -/
structure HItem where
  wt : Nat
  pairs : List (Int × List Bool)
  deriving DecidableEq, Repr

/-- Python's `a < b` on two heap entries with different symbols. -/
def itemLt (a b : HItem) : Bool :=
  decide (a.wt < b.wt) || (decide (a.wt = b.wt) &&
    decide ((a.pairs.head?.map (·.1)).getD 0 < (b.pairs.head?.map (·.1)).getD 0))

/-- `heappop`: the least entry and the others. -/
def popLeast : List HItem → Option (HItem × List HItem)
  | [] => none
  | x :: xs =>
      match popLeast xs with
      | none => some (x, [])
      | some (m, r) => if itemLt m x then some (m, x :: r) else some (x, xs)

/-- `for pair in item[1:]: pair[1] = bit + pair[1]`, huffman.py lines 143-146. -/
def addBit (b : Bool) (ps : List (Int × List Bool)) : List (Int × List Bool) :=
  ps.map fun p => (p.1, b :: p.2)

/-- One turn of the loop, huffman.py lines 140-147. -/
def huffTurn (heap : List HItem) : Py (List HItem) :=
  match popLeast heap with
  | none => .error .index
  | some (lo, h1) =>
      match popLeast h1 with
      | none => .error .index
      | some (hi, h2) =>
          .ok (⟨lo.wt + hi.wt, addBit false lo.pairs ++ addBit true hi.pairs⟩ :: h2)

/-- The initial heap, huffman.py line 138. -/
def huffHeap (tbl : List (Int × Nat)) : List HItem := tbl.map fun p => ⟨p.2, [(p.1, [])]⟩

/-- The order of line 148: shorter codes first, then by symbol. -/
def codeLe (a b : Int × List Bool) : Prop :=
  a.2.length < b.2.length ∨ (a.2.length = b.2.length ∧ a.1 ≤ b.1)

instance : DecidableRel codeLe := fun _ _ => inferInstanceAs (Decidable (_ ∨ _))

/-- `encode`, huffman.py lines 136-148; popping from the empty heap of an empty
table raises `IndexError`. -/
def huffEncode (fuel : Nat) (tbl : List (Int × Nat)) : Option (Py (List (Int × List Bool))) :=
  (whileLoop (fun h => decide (h.length > 1)) huffTurn fuel (huffHeap tbl)).map fun r => do
    let h ← r
    match popLeast h with
    | none => .error .index
    | some (it, _) => pure (it.pairs.insertionSort codeLe)

/-- The sum of huffman.py lines 154-157; `KeyError` for an unknown symbol. -/
def huffSum (tbl : List (Int × Nat)) : List (Int × List Bool) → Nat → Py Nat
  | [], size => .ok size
  | p :: ps, size =>
      match dictGet tbl p.1 with
      | none => .error .key
      | some f => huffSum tbl ps (size + f * p.2.length)

/-- `huffman_size`, huffman.py lines 151-157; an empty code is computed. -/
def huffmanSize (fuel : Nat) (tbl : List (Int × Nat)) (huff : List (Int × List Bool)) :
    Option (Py Nat) :=
  if huff = [] then
    (huffEncode fuel tbl).map fun r => do
      let h ← r
      huffSum tbl h 0
  else some (huffSum tbl huff 0)

/-- `Counter(l).items()`: the different values in order of first occurrence,
with their number of occurrences. -/
def counterItems (l : List Int) : List (Int × Nat) :=
  l.foldl (fun d x => dictSet d x ((dictGet d x).getD 0 + 1)) []

/-- The inner loop of `freq_info`, huffman.py lines 116-123, for instruction `p`
and its counted parts. -/
def freqInner (p : Nat) (s : List (Int × Nat) × List (Int × List Nat)) (kr : Int × Nat) :
    List (Int × Nat) × List (Int × List Nat) :=
  let w :=
    match dictGet s.2 kr.1 with
    | none => dictSet s.2 kr.1 [p]
    | some l => if p ∈ l then s.2 else dictSet s.2 kr.1 (l ++ [p])
  let freq := if (dictGet s.1 kr.1).isNone then dictSet s.1 kr.1 0 else s.1
  (dictSet freq kr.1 ((dictGet freq kr.1).getD 0 + kr.2), w)

/-- `freq_info`, huffman.py lines 102-125.  Instructions are objects compared
by identity, here numbers; `x` lists the parts of an instruction. -/
def freqInfo (x : Nat → List Int) (program : List Nat) :
    List (Int × Nat) × List (Int × List Nat) :=
  program.foldl (fun s p => (counterItems (x p)).foldl (freqInner p) s) ([], [])

end Verif
