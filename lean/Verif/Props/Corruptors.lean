import Verif.Model.Corruptors
import Verif.Props.Corruption
import Verif.Props.PacketCorruptor
import Verif.Props.Json
import Verif.Props.Packing
import Verif.Props.RunRecovery

/-! # C95 and C96: corruptors, replaying a corruption and the main program -/

namespace Verif
namespace Spec

/-- A program as a listing gives it: different addresses, words of 32 bits, every
instruction knows its address. -/
structure PlainProgram (prog : Program) : Prop where
  keys : (prog.map (·.1)).Nodup
  words : ∀ q ∈ prog, ∀ i ∈ q.2, i.encoding < 2 ^ 32
  placed : ∀ q ∈ prog, ∀ i ∈ q.2, i.address = q.1

/-- A corrupted program was saved under a path and nothing else on the disk has changed:
loading that path gives the same program, whatever program is passed to the loading
corruptor, which leaves it as it is. -/
def SavedAs (p : List Char) (prog : Program) (before after : Disk) : Prop :=
  (∀ other, jsonCorrupt (some p) other after = ⟨other, after, .ok prog⟩) ∧
  ∀ p', p' ≠ p → dictGet after p' = dictGet before p'

end Spec
open Spec

theorem usablePath_some {p : List Char} (h : p ≠ []) : usablePath (some p) = some p := by
  cases p with
  | nil => exact absurd rfl h
  | cons _ _ => rfl

theorem savedAs_of_plain {p : List Char} (hp : p ≠ []) {prog : Program} (h : PlainProgram prog) (disk : Disk) :
    SavedAs p prog disk (dictSet disk p (saveJson prog)) := by
  constructor
  · intro other
    obtain ⟨prog', h1, _, _, _, h5⟩ := C25_save_load prog h.keys h.words
    rw [h5 h.placed] at h1
    simp only [jsonCorrupt, usablePath_some hp, dictGet_dictSet, if_true, h1]
  · intro p' hp'
    rw [dictGet_dictSet, if_neg (fun h => hp' h.symm)]

theorem plain_random {prog prog' : Program} (h : PlainProgram prog) {percent prod : Rat} {maxAmount : Int}
    {ds ds' : Draws} (hc : corruptProgram prog percent prod maxAmount ds = some (.ok (prog', ds'))) :
    PlainProgram prog' := by
  obtain ⟨h1, h2, _⟩ := C22_corrupt_program prog h.keys percent prod maxAmount ds prog' ds' hc
  have hk' : (prog'.map (·.1)).Nodup := h1 ▸ h.keys
  have key : ∀ q ∈ prog', ∃ cs, (q.1, cs) ∈ prog ∧
      (q.2 = cs ∨ corruptedFrom (2 ^ (max 1 maxAmount).toNat) cs q.2) := by
    intro q hq
    have hm : q.1 ∈ prog.map (·.1) := by rw [← h1]; exact List.mem_map.2 ⟨q, hq, rfl⟩
    obtain ⟨cs, hcs⟩ := Option.isSome_iff_exists.1 ((dictGet_isSome prog q.1).2 hm)
    obtain ⟨cs', h3, h4⟩ := h2 q.1 cs hcs
    rw [dictGet_of_mem hk' hq, Option.some.injEq] at h3
    subst h3
    exact ⟨cs, dictGet_mem hcs, h4⟩
  refine ⟨hk', ?_, ?_⟩
  · intro q hq i hi
    obtain ⟨cs, hcs, h4 | ⟨c, l, rfl, h5, _, _, _, h6⟩⟩ := key q hq
    · exact h.words _ hcs i (h4 ▸ hi)
    · have hc := h.words _ hcs c (by simp)
      rw [h5] at hi
      rcases List.mem_cons.1 hi with rfl | hi
      · exact hc
      · exact lt_of_agree (fun j hj => by omega) hc (h6 i hi).2
  · intro q hq i hi
    obtain ⟨cs, hcs, h4 | ⟨c, l, rfl, h5, _, _, _, h6⟩⟩ := key q hq
    · exact h.placed _ hcs i (h4 ▸ hi)
    · have hc := h.placed _ hcs c (by simp)
      rw [h5] at hi
      rcases List.mem_cons.1 hi with rfl | hi
      · exact hc
      · rw [(h6 i hi).1]; exact hc

/-- A packet corruption that returned: the order it used and the errors it predicted. -/
theorem packetCorrupt_inv {lg : Rat → Int} {fuel count bpi size : Nat} {order lost : List Nat}
    {prog prog' : Program} (h : packetCorrupt lg fuel count bpi size order lost prog = some (.ok prog')) :
    ∃ order' es, order' ≠ [] ∧ lost ≠ [] ∧ es ≠ [] ∧
      (if order = [] then buildInterleaveSp lg fuel count else some (.ok order)) = some (.ok order') ∧
      predictCorruption fuel count bpi size order' lost = some (.ok es) ∧
      packetCorrupt lg fuel count bpi size order' lost prog = some (.ok prog') := by
  have hl : lost ≠ [] := by
    rintro rfl
    simp [packetCorrupt] at h
  have h' := h
  unfold packetCorrupt at h'
  rw [if_neg hl] at h'
  dsimp only at h'
  cases ho : (if order = [] then buildInterleaveSp lg fuel count else some (.ok order)) with
  | none => rw [ho] at h'; simp at h'
  | some o =>
    cases o with
    | error e => rw [ho] at h'; simp at h'
    | ok order' =>
      rw [ho] at h'
      dsimp only at h'
      cases hes : predictCorruption fuel count bpi size order' lost with
      | none => rw [hes] at h'; simp at h'
      | some o =>
        cases o with
        | error e => rw [hes] at h'; simp at h'
        | ok es =>
          rw [hes] at h'
          dsimp only at h'
          have hne : es ≠ [] := by
            rintro rfl
            simp [sortErrors] at h'
          have ho' : order' ≠ [] := by
            rintro rfl
            rw [(C15_rejections fuel count bpi size [] lost).2 (by
              obtain ⟨x, hx⟩ := List.exists_mem_of_ne_nil _ hl
              exact ⟨x, hx, by simp⟩)] at hes
            simp at hes
          refine ⟨order', es, ho', hl, hne, rfl, hes, ?_⟩
          unfold packetCorrupt
          rw [if_neg hl]
          simp only [if_neg ho', hes]
          exact h'

/-- What packet corruption leaves at the addresses of a listing. -/
theorem packet_at {lg : Rat → Int} {fuel count bpi size : Nat} {order lost : List Nat}
    {prog prog' : Program} (hb : bpi ≤ 32) (hp : PlainProgram prog)
    (h : packetCorrupt lg fuel count bpi size order lost prog = some (.ok prog')) :
    prog'.map (·.1) = prog.map (·.1) ∧
    ∀ q ∈ prog', ∃ l, (q.1, l) ∈ prog ∧ (∀ c ∈ q.2, c.address = q.1) ∧ (∀ c ∈ q.2, c.encoding < 2 ^ 32) ∧
      ∀ c ∈ l, ∃ d ∈ q.2, d.encoding = c.encoding := by
  obtain ⟨order', es, ho, hl, hne, _, hes, h⟩ := packetCorrupt_inv h
  obtain ⟨p, h1, h2, h3⟩ := C24_packet_loss lg fuel count bpi size order' lost prog hb ho hl es hes
    hne hp.keys hp.words
  rw [h, Option.some.injEq, Except.ok.injEq] at h1
  subst h1
  refine ⟨h2, fun q hq => ?_⟩
  have hk' : (prog'.map (·.1)).Nodup := h2 ▸ hp.keys
  have hm : q.1 ∈ prog.map (·.1) := by rw [← h2]; exact List.mem_map.2 ⟨q, hq, rfl⟩
  obtain ⟨l, hcs⟩ := Option.isSome_iff_exists.1 ((dictGet_isSome prog q.1).2 hm)
  have hmem : q.1 ∈ (prog.map (·.1)).insertionSort (· ≤ ·) := by
    rw [List.mem_insertionSort]; exact hm
  obtain ⟨w, hw⟩ := List.mem_iff_getElem?.1 hmem
  obtain ⟨l', h4, _, h5, h6, _⟩ := h3 _ (List.perm_insertionSort _ _) (List.pairwise_insertionSort _ _)
    w q.1 l hw hcs
  rw [dictGet_of_mem hk' hq, Option.some.injEq] at h4
  subst h4
  refine ⟨l, dictGet_mem hcs, ?_, ?_, ?_⟩
  · intro c hc
    rcases h6 c hc with h6 | h6
    · exact hp.placed _ (dictGet_mem hcs) c h6
    · cases l with
      | nil => simp at h6
      | cons x xs =>
        simp only [List.head?_cons, Option.map_some, Option.some.injEq] at h6
        rw [h6]
        exact hp.placed _ (dictGet_mem hcs) x (by simp)
  · intro c hc
    obtain ⟨u, hu, hag⟩ := (h5 c.encoding).1 (List.mem_map.2 ⟨c, hc, rfl⟩)
    obtain ⟨i, hi, rfl⟩ := List.mem_map.1 hu
    exact lt_of_agree (fun j hj => hj.1) (hp.words _ (dictGet_mem hcs) i hi) hag
  · intro c hc
    have := (h5 c.encoding).2 ⟨c.encoding, List.mem_map.2 ⟨c, hc, rfl⟩, fun _ _ => rfl⟩
    obtain ⟨j, hj, hj'⟩ := List.mem_map.1 this
    exact ⟨j, hj, hj'⟩

theorem plain_packet {lg : Rat → Int} {fuel count bpi size : Nat} {order lost : List Nat}
    {prog prog' : Program} (hb : bpi ≤ 32) (hp : PlainProgram prog)
    (h : packetCorrupt lg fuel count bpi size order lost prog = some (.ok prog')) : PlainProgram prog' := by
  obtain ⟨h1, h2⟩ := packet_at hb hp h
  refine ⟨h1 ▸ hp.keys, ?_, ?_⟩
  · intro q hq i hi
    obtain ⟨_, _, _, h4, _⟩ := h2 q hq
    exact h4 i hi
  · intro q hq i hi
    obtain ⟨_, _, h3, _⟩ := h2 q hq
    exact h3 i hi

/-- **C95, random corruption.**  A random corruptor that is told to save and has a path
returns the program it has changed in place and has saved it. -/
theorem C95_random_saved_partial (s : Saving) (hs : s.save = true) (p : List Char) (hp : p ≠ [])
    (hpath : s.path = some p) (percent prod : Rat) (maxAmount : Int) (disk : Disk) (prog : Program)
    (h : PlainProgram prog) (ds : Draws) (o : AfterCorrupt)
    (ho : randomCorrupt s percent prod maxAmount disk prog ds = some o) :
    o.result = .ok o.program ∧ SavedAs p o.program disk o.disk ∧
      o.program.map (·.1) = prog.map (·.1) ∧ o.program ≠ prog := by
  unfold randomCorrupt at ho
  split at ho
  · simp at ho
  · rename_i e he
    exact absurd he (C23_refuted.1 _ _ _ _ _ _)
  · rename_i r hr
    obtain ⟨prog', ds'⟩ := r
    rw [Option.some.injEq] at ho
    subst ho
    obtain ⟨h1, _, h3⟩ := C22_corrupt_program prog h.keys percent prod maxAmount ds prog' ds' hr
    simp only [finishCorrupt, hs, if_true, hpath, saveCorrupted, usablePath_some hp, Except.map]
    refine ⟨trivial, savedAs_of_plain hp (plain_random h hr) disk, h1, ?_⟩
    rintro rfl
    rw [List.countP_eq_zero.2 (by simp)] at h3
    have h4 : (1 : Rat) ≤ max 1 prod := le_max_left _ _
    have h5 : (0 : Int) < (max 1 prod).ceil := by
      rw [Rat.lt_ceil_iff] <;> simp
    omega

/-- **C95, packet losses.**  A packet corruptor made with a path returns a program it has
saved. -/
theorem C95_packet_saved_partial (p : List Char) (hp : p ≠ []) (lg : Rat → Int) (fuel count bpi size : Nat)
    (hb : bpi ≤ 32) (order lost : List Nat) (disk disk' : Disk) (prog prog' : Program) (h : PlainProgram prog)
    (ho : packetCorruptSave (packetSaving (some p)) lg fuel count bpi size order lost disk prog =
      some (disk', .ok prog')) :
    packetCorrupt lg fuel count bpi size order lost prog = some (.ok prog') ∧ SavedAs p prog' disk disk' := by
  unfold packetCorruptSave at ho
  split at ho
  · simp at ho
  · simp at ho
  · rename_i r hr
    simp only [finishCorrupt, packetSaving, Option.isSome_some, if_true, saveCorrupted, usablePath_some hp,
      Except.map, Option.some.injEq, Prod.mk.injEq, Except.ok.injEq] at ho
    obtain ⟨rfl, rfl⟩ := ho
    exact ⟨hr, savedAs_of_plain hp (plain_packet hb h hr) disk⟩

/-- C95, exceptions: a corruptor that cannot corrupt saves nothing; the loading corruptor
raises without a path and for a file that was never saved; nothing else is touched. -/
theorem C95_rejections (s : Saving) (lg : Rat → Int) (fuel count bpi size : Nat) (order lost : List Nat)
    (disk : Disk) (prog : Program) :
    (∀ e, packetCorrupt lg fuel count bpi size order lost prog = some (.error e) →
      packetCorruptSave s lg fuel count bpi size order lost disk prog = some (disk, .error e)) ∧
    jsonCorrupt none prog disk = ⟨prog, disk, .error .runtime⟩ ∧
    jsonCorrupt (some []) prog disk = ⟨prog, disk, .error .runtime⟩ ∧
    ∀ p, p ≠ [] → p ∉ disk.map (·.1) → jsonCorrupt (some p) prog disk = ⟨prog, disk, .error .os⟩ := by
  refine ⟨?_, rfl, rfl, ?_⟩
  · intro e he
    simp only [packetCorruptSave, he]
  · intro p hp hd
    have : dictGet disk p = none := by
      cases hg : dictGet disk p with
      | none => rfl
      | some x => exact absurd ((dictGet_isSome disk p).1 (by rw [hg]; rfl)) hd
    simp only [jsonCorrupt, usablePath_some hp, this]

/-- **C95 is false of the code**: a random corruptor as it is made by default has been
told to save and has no path; it raises, but only after it has changed the program. -/
theorem C95_default_refuted (percent prod : Rat) (maxAmount : Int) (disk : Disk) (prog : Program)
    (h : PlainProgram prog) (ds : Draws) (o : AfterCorrupt)
    (ho : randomCorrupt randomSaving percent prod maxAmount disk prog ds = some o) :
    o.result = .error .runtime ∧ o.disk = disk ∧ o.program ≠ prog := by
  -- the corruption is that of a corruptor with a path
  obtain ⟨o', ho', hprog⟩ : ∃ o', randomCorrupt ⟨true, some ['x']⟩ percent prod maxAmount disk prog ds = some o' ∧
      o'.program = o.program := by
    unfold randomCorrupt at ho ⊢
    split at ho
    · simp at ho
    · rename_i e he
      exact absurd he (C23_refuted.1 _ _ _ _ _ _)
    · rw [Option.some.injEq] at ho
      subst ho
      exact ⟨_, rfl, rfl⟩
  refine ⟨?_, ?_, ?_⟩
  · unfold randomCorrupt at ho
    split at ho
    · simp at ho
    · rename_i e he
      exact absurd he (C23_refuted.1 _ _ _ _ _ _)
    · rw [Option.some.injEq] at ho
      subst ho
      rfl
  · unfold randomCorrupt at ho
    split at ho
    · simp at ho
    · rename_i e he
      exact absurd he (C23_refuted.1 _ _ _ _ _ _)
    · rw [Option.some.injEq] at ho
      subst ho
      rfl
  · rw [← hprog]
    exact (C95_random_saved_partial ⟨true, some ['x']⟩ rfl ['x'] (by simp) rfl percent prod maxAmount disk prog h
      ds o' ho').2.2.2

/-- **C95 is false of the code**: a packet corruptor whose path is set after it was made,
as the main program does, saves nothing, whatever it returns. -/
theorem C95_path_set_later_refuted (p : List Char) (lg : Rat → Int) (fuel count bpi size : Nat)
    (order lost : List Nat) (disk : Disk) (prog : Program) :
    packetCorruptSave (setPath (packetSaving none) p) lg fuel count bpi size order lost disk prog =
      (packetCorrupt lg fuel count bpi size order lost prog).map fun r => (disk, r) := by
  unfold packetCorruptSave
  split
  · rename_i h; rw [h]; rfl
  · rename_i h; rw [h]; rfl
  · rename_i h; rw [h]; rfl

/-- One random corruption of two instructions, saved and loaded again while another
program is passed. -/
example : randomCorrupt ⟨true, some ['c']⟩ 20 (2 / 5) 1 [] [(100, [⟨7, 100⟩]), (104, [⟨9, 104⟩])] [1, 0, 3] =
      some ⟨[(100, [⟨7, 100⟩]), (104, [⟨9, 104⟩, ⟨1, 104⟩])], [(['c'], [(['1', '0', '0'], [7]), (['1', '0', '4'], [9, 1])])],
        .ok [(100, [⟨7, 100⟩]), (104, [⟨9, 104⟩, ⟨1, 104⟩])]⟩ ∧
    (jsonCorrupt (some ['c']) [(0, [])] [(['c'], [(['1', '0', '0'], [7]), (['1', '0', '4'], [9, 1])])]).result =
      .ok [(100, [⟨7, 100⟩]), (104, [⟨9, 104⟩, ⟨1, 104⟩])] := by decide +kernel

/-- A program that meets the assumptions. -/
example : PlainProgram [(100, [⟨7, 100⟩]), (104, [⟨9, 104⟩])] :=
  ⟨by decide, by decide, by decide⟩

end Verif
