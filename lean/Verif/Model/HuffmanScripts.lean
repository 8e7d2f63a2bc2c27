import Verif.Model.FreqChange

/-!
# `huffman_test` and the script `huffman_improver.py`

What is printed is a list of rows and sizes; the fixed words around them are left out.
The program of the script comes from a reader (`Verif.Model.Readers`); here it is any
list of instructions, numbers standing for the objects, with the parts of each one.
-/

namespace Verif

/-- A row `symbol, weight, code` of the printed table. -/
abbrev HuffRow := Int × Nat × List Bool

/-- The loop of huffman.py lines 165-167.  A `Counter` answers 0 for a symbol it does not
have. -/
def huffRows (tbl : List (Int × Nat)) : List (Int × List Bool) → List HuffRow × Nat → List HuffRow × Nat
  | [], s => s
  | p :: ps, s =>
      let f := (dictGet tbl p.1).getD 0
      huffRows tbl ps (s.1 ++ [(p.1, f, p.2)], s.2 + f * p.2.length)

/-- `huffman_test`, huffman.py lines 160-168: the printed rows and the printed size. -/
def huffmanTest (fuel : Nat) (txt : List Int) : Option (Py (List HuffRow × Nat)) :=
  (huffEncode fuel (counterItems txt)).map fun r => do
    let huff ← r
    pure (huffRows (counterItems txt) huff ([], 0))

/-- The printed sizes and the exception the script ends with, if any. -/
abbrev Printed := List Nat × Option Err

/-- `print(…format(huffman_size(table)))` followed by the rest of the script. -/
def printSize (fuel : Nat) (tbl : List (Int × Nat)) (rest : Option Printed) : Option Printed :=
  match huffmanSize fuel tbl [] with
  | none => none
  | some (.error e) => some ([], some e)
  | some (.ok a) => rest.map fun r => (a :: r.1, r.2)

/-- `InstructionPartFrequencyCounter.count`, huffman.py lines 127-133, then
`huffman_improver.py` lines 26-40.  The table of the registers is the one the changer
works on; its weights are counts, so that none is negative. -/
def improver (fuel : Nat) (regs : Nat → List Int) (opcode cond : Nat → Int) (inst : Nat → CInst)
    (program : List Nat) : Option Printed :=
  let reg := freqInfo regs program
  let op := freqInfo (fun p => [opcode p]) program
  let cd := freqInfo (fun p => [cond p]) program
  printSize fuel reg.1 <| printSize fuel op.1 <| printSize fuel cd.1 <|
    match changeRegisters mockQos fuel (reg.2.map fun e => (e.1, e.2.map inst)) (reg.1.map fun e => (e.1, (e.2 : Int))) with
    | none => none
    | some (.error e) => some ([], some e)
    | some (.ok s) => printSize fuel (s.freq.map fun e => (e.1, e.2.toNat)) (some ([], none))

end Verif
