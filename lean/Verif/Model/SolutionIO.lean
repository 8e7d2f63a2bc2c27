import Verif.Model.PacketCorruptor

/-!
# Binary solution files, `semantic_codec/solution/solution_io.py`

A file is a list of bytes.  Writing returns the bytes that have reached the
file together with the result, so that the file left behind by an exception is
known.  `struct.pack`/`unpack` with `<L` and `<Q` are little-endian numbers of
four and eight bytes.
-/

namespace Verif

abbrev Bytes := List UInt8

/-- `n` in `k` bytes, least significant first. -/
def leBytes : Nat → Nat → Bytes
  | 0, _ => []
  | k + 1, n => UInt8.ofNat (n % 256) :: leBytes k (n / 256)

/-- The number kept in some bytes, least significant first. -/
def leVal : Bytes → Nat
  | [] => 0
  | b :: bs => b.toNat + 256 * leVal bs

/-- `SolutionWriter.MAGIC_WORD`, solution_io.py line 43. -/
def magicWord : Nat := 0xA0C1E2F3A4C5E6F7

/-- A computation that writes: bytes written so far and result. -/
abbrev Wr (α : Type) := Bytes × Py α

/-- Sequencing of writers: an exception stops the writing. -/
def Wr.seq {α β : Type} (m : Wr α) (f : α → Wr β) : Wr β :=
  match m.2 with
  | .error e => (m.1, .error e)
  | .ok a => (m.1 ++ (f a).1, (f a).2)

/-- `write_int`, solution_io.py lines 48-49: `struct.error` when the value does
not fit. -/
def writeInt (n : Nat) : Wr Unit :=
  if n < 2 ^ 32 then (leBytes 4 n, .ok ()) else ([], .error .struct)

/-- The search of lines 68-73, over the candidates still to look at; `none`
when the end is reached.  `original_program[k][0]` is evaluated for each. -/
def findOri (orig : Program) (k : Nat) : List CInst → Nat → Py (Option Nat)
  | [], _ => .ok none
  | c :: cs, index =>
      match dictGet orig k with
      | none => .error .key
      | some [] => .error .index
      | some (o :: _) =>
          if c.encoding = o.encoding then .ok (some index) else findOri orig k cs (index + 1)

/-- Lines 80-81. -/
def writeAll : List Nat → Wr Unit
  | [] => ([], .ok ())
  | n :: ns => (writeInt n).seq fun _ => writeAll ns

/-- One turn of the loop, solution_io.py lines 62-81. -/
def writeEntry (orig : Program) (k : Nat) (v : List CInst) : Wr Unit :=
  (writeInt k).seq fun _ =>
    match findOri orig k v 0 with
    | .error e => ([], .error e)
    | .ok none => ([], .error .runtime)
    | .ok (some ori) =>
        (writeInt (ori + 1)).seq fun _ => writeAll ((v.take (ori + 1)).map (·.encoding))

/-- The loop of lines 62-81. -/
def writeEntries (orig : Program) : Program → Wr Unit
  | [] => ([], .ok ())
  | (k, v) :: rest => (writeEntry orig k v).seq fun _ => writeEntries orig rest

/-- `write_binary`, solution_io.py lines 51-83, for an original program given
as a dictionary. -/
def writeBinary (orig prog : Program) : Wr Unit :=
  Wr.seq (leBytes 8 magicWord, .ok ()) fun _ =>
    (writeInt prog.length).seq fun _ => writeEntries orig prog

/-- `struct.unpack` of `fin.read(k)`, solution_io.py lines 9-13: `struct.error`
when fewer bytes are left. -/
def readLE (k : Nat) (bs : Bytes) : Py (Nat × Bytes) :=
  if bs.length < k then .error .struct else .ok (leVal (bs.take k), bs.drop k)

/-- The list of line 33. -/
def readInsts (addr : Nat) : Nat → Bytes → Py (List CInst × Bytes)
  | 0, bs => .ok ([], bs)
  | n + 1, bs => do
      let x ← readLE 4 bs
      let c ← mkInst x.1 addr
      let r ← readInsts addr n x.2
      pure (c :: r.1, r.2)

/-- The loop of lines 29-34 over the entries still to be read; the state is
`(original, program)`. -/
def readEntries : Nat → Bytes → Program × Program → Py ((Program × Program) × Bytes)
  | 0, bs, s => .ok (s, bs)
  | n + 1, bs, s => do
      let a ← readLE 4 bs
      let c ← readLE 4 a.2
      if c.1 > 0 then
        let r ← readInsts a.1 c.1 c.2
        let last ← pyGet r.1 ((c.1 : Int) - 1)
        let o ← mkInst last.encoding a.1
        readEntries n r.2 (dictSet s.1 a.1 [o], dictSet s.2 a.1 r.1)
      else readEntries n c.2 s

/-- `SolutionReader.read`, solution_io.py lines 15-38, with the bytes that are
left unread. -/
def readFrom (bs : Bytes) : Py ((Program × Program) × Bytes) := do
  let m ← readLE 8 bs
  if m.1 ≠ magicWord then .error .runtime
  else
    let n ← readLE 4 m.2
    readEntries n.1 n.2 ([], [])

/-- `SolutionReader.read`, solution_io.py lines 15-38: `(original, program)`.
Bytes after the last entry are ignored. -/
def readSolution (bs : Bytes) : Py (Program × Program) := (readFrom bs).map (·.1)

end Verif
