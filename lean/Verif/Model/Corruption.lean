import Verif.Model.Bits
import Verif.Model.Random
import Mathlib.Data.Rat.Floor

/-!
# `semantic_codec/corruption/corruption.py`

Instructions are kept as their encoding and address; what Capstone says about
them does not matter here, except the `ignore` flag, which is a parameter.
-/

namespace Verif

/-- An instruction object: its encoding and address. -/
structure CInst where
  encoding : Nat
  address : Nat
  deriving DecidableEq, Repr

/-- A program: address to candidate instructions, in insertion order. -/
abbrev Program := List (Nat × List CInst)

/-- The body of the loop of `corrupt_all_bits` for bit `i`, corruption.py lines
52-57.  The list only grows at its end, so `result[j]` for `j` below the old
length is the `j`-th old element. -/
def flipBit (result : List Nat) (i : Nat) : List Nat :=
  result.foldl (fun r x => if x ^^^ bitsOn i ∈ r then r else r ++ [x ^^^ bitsOn i]) result

/-- `corrupt_all_bits`, corruption.py lines 42-59. -/
def corruptAllBits (lo hi : Nat) (inst : Nat) : List Nat :=
  forRange lo hi flipBit [inst]

/-- `for k in range(0, kk): result[kk + k] = result[k] ^ Bits.on(i)`,
corruption.py lines 81-82. -/
def fillHalf (i kk : Nat) : List Nat → List Nat → Py (List Nat)
  | [], result => .ok result
  | k :: ks, result => do
      let v ← pyGet result k
      let result ← pySet result ((kk : Int) + k) (v ^^^ bitsOn i)
      fillHalf i kk ks result

/-- The loop over the bits of all ranges, corruption.py lines 78-83. -/
def fillBits : List Nat → Nat → List Nat → Py (List Nat)
  | [], _, result => .ok result
  | i :: is, kk, result => do
      let result ← fillHalf i kk (List.range kk) result
      fillBits is (kk * 2) result

/-- The checks and the size, corruption.py lines 71-75. -/
def tuplesSize : List (Nat × Nat) → Py Nat
  | [] => .ok 0
  | (l, h) :: ts => do
      checkRange l h
      let n ← tuplesSize ts
      pure (h - l + n)

/-- The bits `range(l, h)` of all tuples, in order. -/
def tuplesBits (ts : List (Nat × Nat)) : List Nat :=
  ts.flatMap fun t => List.range' t.1 (t.2 - t.1)

/-- `corrupt_all_bits_tuples`, corruption.py lines 62-84. -/
def corruptAllBitsTuples (ts : List (Nat × Nat)) (inst : Nat) : Py (List Nat) := do
  let size ← tuplesSize ts
  fillBits (tuplesBits ts) 1 (List.replicate (2 ^ size) inst)

/-- The choice of positions in `corrupt_bits`, corruption.py lines 98-101:
`while len(bits) < amount`. -/
def pickBits (lo hi amount : Nat) : List Nat → Rnd (List Nat)
  | bits, [] =>
      if bits.length < amount then (if hi < lo then some (.error .value) else none)
      else some (.ok (bits, []))
  | bits, d :: ds =>
      if bits.length < amount then
        if hi < lo then some (.error .value)
        else
          let x := lo + d % (hi - lo + 1)
          pickBits lo hi amount (if x ∈ bits then bits else bits ++ [x]) ds
      else some (.ok (bits, d :: ds))

/-- The noise for `i`, corruption.py lines 104-107.  `j` takes the values 1, 2,
4, ... while `j <= log2(i) + 1`; as `j` is whole this is `j <= Nat.log2 i + 1`
(the floating-point logarithm is exact or errs upwards at the powers of two
that matter). -/
def noise (i : Nat) (bits : List Nat) : Py Nat :=
  (List.range ((Nat.log2 i + 1).log2 + 1)).foldlM (fun n e =>
    if 2 ^ e &&& i ≠ 0 then do
      let b ← pyGet bits ((2 : Int) ^ e - 1)
      pure (n + bitsOn b)
    else pure n) 0

/-- The second loop of `corrupt_bits`, corruption.py lines 103-110. -/
def noiseAll (inst : Nat) (bits : List Nat) : List Nat → List Nat → Py (List Nat)
  | [], result => .ok result
  | i :: is, result => do
      let n ← noise i bits
      noiseAll inst bits is (if inst ^^^ n ∈ result then result else result ++ [inst ^^^ n])

/-- `corrupt_bits`, corruption.py lines 87-111. -/
def corruptBits (hi lo amount inst : Nat) : Rnd (List Nat) := do
  let bits ← pickBits lo hi amount []
  Rnd.lift (noiseAll inst bits (List.range' 1 (2 ^ amount - 1)) [inst])

/-- `corrupt_conditional`, `corrupt_registers`, `corrupt_opcode`, corruption.py
lines 114-123. -/
def corruptConditional (amount inst : Nat) : Rnd (List Nat) := corruptBits 31 28 amount inst
@[inherit_doc corruptConditional]
def corruptRegisters (amount inst : Nat) : Rnd (List Nat) := corruptBits 10 0 amount inst
@[inherit_doc corruptConditional]
def corruptOpcode (amount inst : Nat) : Rnd (List Nat) := corruptBits 27 20 amount inst

/-- The second loop of `distribute_random_amount`, corruption.py lines 137-141,
over the shuffled indexes. -/
def spread : List Nat → List Nat → Nat → Rnd (List Nat)
  | [], result, _ => pure result
  | k :: ks, result, amount => do
      let x ← randint 0 amount
      let result ← Rnd.lift (pySet result k x)
      if amount - x ≤ 0 then pure result else spread ks result (amount - x)

/-- `distribute_random_amount`, corruption.py lines 126-142.  The first loop
(lines 131-135) appends `bin_count` different indexes, each drawn until it is
new: the same loop as in `corrupt_bits`. -/
def distribute (amount bins : Nat) : Rnd (List Nat) :=
  if bins = 1 then pure [amount]
  else do
    let index ← pickBits 0 (bins - 1) bins []
    spread index (List.replicate bins 0) amount

/-- `if _encoding_not_in_list(r, program[p]): program[p].append(...)`,
corruption.py lines 175-177 and 181-185. -/
def addNew (address : Nat) (insts : List CInst) (rs : List Nat) : List CInst :=
  rs.foldl (fun l r => if (l.any fun c => c.encoding == r) then l else l ++ [⟨r, address⟩]) insts

/-- The loop of `corrupt_program`, corruption.py lines 171-178, with fuel (the
theorems give one unit per draw, which is never exhausted before the draws). -/
def cpLoop (maxAmount len minAddr : Nat) : Nat → Nat → Program → Rnd Program
  | _, 0, prog => pure prog
  | 0, _ + 1, _ => fun _ => none
  | fuel + 1, n + 1, prog => do
      let r ← randint 0 len
      let p := r * 4 + minAddr
      match dictGet prog p with
      | some [c] => do
          let a ← randint 1 maxAmount
          let rs ← corruptBits 31 0 a c.encoding
          cpLoop maxAmount len minAddr fuel n (dictSet prog p (addNew c.address [c] rs))
      | _ => cpLoop maxAmount len minAddr fuel (n + 1) prog

/-- `min_addr`, corruption.py lines 165-168. -/
def minAddr (prog : Program) : Nat :=
  prog.foldl (fun m p => if m > p.1 then p.1 else m) (2 ^ 63 - 1)

/-- The test `0 > err_percent > 100`, corruption.py line 154. -/
def badPercent (p : Rat) : Bool := decide (0 > p) && decide (p > 100)

/-- `math.ceil(max(1, x))`, corruption.py line 162, where `x` is the
floating-point value of `len_program * err_percent / 100`. -/
def corruptedAmount (x : Rat) : Nat := (max 1 x).ceil.toNat

/-- `corrupt_program`, corruption.py lines 145-178.  `prod` is the
floating-point product of line 162, a parameter. -/
def corruptProgram (prog : Program) (percent prod : Rat) (maxAmount : Int) : Rnd Program := fun ds =>
  if badPercent percent then some (.error .runtime)
  else cpLoop (max 1 maxAmount).toNat prog.length (minAddr prog) ds.length
    (corruptedAmount prod) prog ds

/-- `for c in corrupted: r.extend([cc for cc in f(c) if cc not in r])`,
corruption.py lines 200-202 and 206-208. -/
def extendAll (f : Nat → Rnd (List Nat)) : List Nat → List Nat → Rnd (List Nat)
  | [], r => pure r
  | c :: cs, r => do
      let l ← f c
      extendAll f cs (r ++ l.filter fun cc => decide (cc ∉ r))

/-- One of the three steps `if flag: k -= 1; … amount[k] …`, corruption.py
lines 195-197, 198-203 and 204-209; a step that is off keeps the list. -/
def corruptStep (flag : Bool) (am : List Nat) (k : Int) (f : Nat → List Nat → Rnd (List Nat))
    (cs : List Nat) : Rnd (List Nat) :=
  if flag then do
    let a ← Rnd.lift (pyGet am k)
    f a cs
  else pure cs

/-- `corrupt_instruction`, corruption.py lines 187-218; `existing` is
`program[address]` and `ignore` is what Capstone says of an encoding. -/
def corruptInstruction (ignore : Nat → Bool) (existing : List CInst) (orig : CInst)
    (conditional registers opcode : Bool) (amount : Nat) : Rnd (List CInst) := do
  let bins := conditional.toNat + registers.toNat + opcode.toNat
  let am ← distribute amount bins
  let k1 : Int := if conditional then (bins : Int) - 1 else bins
  let c1 ← corruptStep conditional am k1 (fun a _ => corruptConditional a orig.encoding)
    [orig.encoding]
  let k2 : Int := if registers then k1 - 1 else k1
  let c2 ← corruptStep registers am k2 (fun a cs => extendAll (corruptRegisters a) cs []) c1
  let k3 : Int := if opcode then k2 - 1 else k2
  let c3 ← corruptStep opcode am k3 (fun a cs => extendAll (corruptOpcode a) cs []) c2
  pure (existing ++ (c3.tail.filter fun e => !ignore e).map fun e => ⟨e, orig.address⟩)

end Verif
