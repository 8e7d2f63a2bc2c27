import Verif.Model.Json
import Verif.Model.RunRecovery

/-!
# The corruptors of `semantic_codec/corruption/corruptors.py` and the main program

The corruption itself is that of `Model/Corruption` and `Model/PacketCorruptor`; here are
the settings of the corruptors, the saving and loading of the corrupted program, and the
settings of the main program of recover_program.py.  Files are kept by path as the JSON
objects they denote; opening a path for writing always works (a missing directory or a
full disk is not modelled), opening a path that was never written raises
`FileNotFoundError`.
-/

namespace Verif

/-- The files on the disk. -/
abbrev Disk := List (List Char × JObj)

/-- The attributes of `Corruptor`, corruptors.py lines 8-10. -/
structure Saving where
  save : Bool := false
  path : Option (List Char) := none
  deriving DecidableEq

/-- What a call of `corrupt` leaves behind: the dictionary that was passed to it, the
disk, and the program returned or the exception. -/
structure AfterCorrupt where
  program : Program
  disk : Disk
  result : Py Program
  deriving DecidableEq

/-- The path when `if not self.corrupted_program_path` is not taken: neither `None` nor
empty. -/
def usablePath : Option (List Char) → Option (List Char)
  | some (c :: cs) => some (c :: cs)
  | _ => none

/-- `_save_corrupted_program`, corruptors.py lines 15-19. -/
def saveCorrupted (path : Option (List Char)) (prog : Program) (disk : Disk) : Disk × Py Unit :=
  match usablePath path with
  | none => (disk, .error .runtime)
  | some p => (dictSet disk p (saveJson prog), .ok ())

/-- `if self.save_corrupted_program: …; return program`, corruptors.py lines 120-123 and
137-139. -/
def finishCorrupt (s : Saving) (prog : Program) (disk : Disk) : AfterCorrupt :=
  if s.save then
    let r := saveCorrupted s.path prog disk
    ⟨prog, r.1, r.2.map fun _ => prog⟩
  else ⟨prog, disk, .ok prog⟩

/-- `JSONCorruptor.corrupt`, corruptors.py lines 31-34.  Its constructor (lines 27-29)
calls `super(JSONCorruptor).__init__()`, which sets nothing; the attribute it leaves out
is never read. -/
def jsonCorrupt (path : Option (List Char)) (prog : Program) (disk : Disk) : AfterCorrupt :=
  match usablePath path with
  | none => ⟨prog, disk, .error .runtime⟩
  | some p =>
      match dictGet disk p with
      | none => ⟨prog, disk, .error .os⟩
      | some data => ⟨prog, disk, loadJson data⟩

/-- The settings of a `RandomCorruptor`, corruptors.py lines 129-133: it saves unless it
is told not to, and has no path. -/
def randomSaving (saveCorrupted : Bool := true) : Saving := { save := saveCorrupted }

/-- `RandomCorruptor.corrupt`, corruptors.py lines 135-139. -/
def randomCorrupt (s : Saving) (percent prod : Rat) (maxAmount : Int) (disk : Disk) (prog : Program)
    (draws : Draws) : Option AfterCorrupt :=
  match corruptProgram prog percent prod maxAmount draws with
  | none => none
  | some (.error e) => some ⟨prog, disk, .error e⟩
  | some (.ok r) => some (finishCorrupt s r.1 disk)

/-- The settings of a `PacketCorruptor`, corruptors.py lines 53-54. -/
def packetSaving (path : Option (List Char)) : Saving := { save := path.isSome, path := path }

/-- `PacketCorruptor.corrupt` with the saving at its end, corruptors.py lines 65-123: the
disk and the program returned. -/
def packetCorruptSave (s : Saving) (lg : Rat → Int) (fuel packetCount bpi dataSize : Nat)
    (order lost : List Nat) (disk : Disk) (prog : Program) : Option (Disk × Py Program) :=
  match packetCorrupt lg fuel packetCount bpi dataSize order lost prog with
  | none => none
  | some (.error e) => some (disk, .error e)
  | some (.ok p) =>
      let r := finishCorrupt s p disk
      some (r.disk, r.result)

/-- `math.ceil(packet_count)`, corruptors.py line 48, for a count that is not negative. -/
def ceilCount (count : Rat) : Nat := count.ceil.toNat

/-- `corruptor.corrupted_program_path = …`, recover_program.py line 262. -/
def setPath (s : Saving) (path : List Char) : Saving := { s with path := some path }

/-- The main program, recover_program.py lines 231-264, with its settings: packet 3 is
lost, there is one packet for 32 instructions.  `functions` are the instructions of the
functions that were read.  The path is set after the corruptor was made. -/
def mainProgram (dec : Nat → Nat → Answers) (lg : Rat → Int) (fuel : Nat) (path : List Char)
    (functions : List (List CInst)) (disk : Disk) : Option (Disk × Files × Py Program) :=
  let ll := (functions.map List.length).sum
  let s := setPath (packetSaving none) path
  let orig := (functionsToList (fun i : CInst => (i.address : Int)) functions).1
  match packetCorruptSave s lg fuel (ceilCount ((ll : Rat) / 32)) 2 ll [] [3] disk (toDict orig) with
  | none => none
  | some (disk', r) => (runRecovery dec (fun _ => r) fuel functions).map fun o => (disk', o)

end Verif
