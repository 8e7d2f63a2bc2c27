import Verif.Props.RunRecovery
import Verif.Props.MainProgram

/-! # C94: which files a recovery run leaves behind -/

namespace Verif
open Spec

theorem reportAddr_errors {α : Type} (r : Report) (o : RInst α) (v : List (RInst α)) :
    ∃ r' v', reportAddr r o v = .ok (r', v') ∧ r'.errors = r.errors + if 1 < v.length then 1 else 0 := by
  unfold reportAddr
  by_cases h : v.length > 1
  · rw [if_pos h, if_pos h]
    have hl : (sortScore v).length = v.length := List.length_insertionSort _ _
    match hs : sortScore v with
    | [] => rw [hs] at hl; simp at hl; omega
    | [_] => rw [hs] at hl; simp at hl; omega
    | c1 :: c2 :: rest =>
      refine ⟨_, _, rfl, ?_⟩
      dsimp only
      split
      · rfl
      · split <;> rfl
  · rw [if_neg h, if_neg h]
    exact ⟨_, _, rfl, rfl⟩

theorem reportLoop_errors {α : Type} : ∀ (os : List (RInst α)) (prog : List (List (RInst α))) (r : Report),
    (prog.length < os.length → reportLoop r os prog = .error .index) ∧
    (os.length ≤ prog.length → ∃ r' prog', reportLoop r os prog = .ok (r', prog') ∧
      r'.errors = r.errors + (prog.take os.length).countP fun v => decide (1 < v.length)) := by
  intro os
  induction os with
  | nil => intro prog r; exact ⟨fun h => by simp at h, fun _ => ⟨r, prog, by simp [reportLoop], by simp⟩⟩
  | cons o os ih =>
    intro prog r
    cases prog with
    | nil => exact ⟨fun _ => rfl, fun h => by simp at h⟩
    | cons v prog =>
      obtain ⟨r1, v', h1, h2⟩ := reportAddr_errors r o v
      obtain ⟨ih1, ih2⟩ := ih prog r1
      rw [reportLoop, h1]
      constructor
      · intro h
        simp only [List.length_cons] at h
        show (do let (r, iss) ← reportLoop r1 os prog; pure (r, v' :: iss)) = _
        rw [ih1 (by omega)]
        rfl
      · intro h
        simp only [List.length_cons] at h
        obtain ⟨r2, p2, h3, h4⟩ := ih2 (by omega)
        refine ⟨r2, v' :: p2, ?_, ?_⟩
        · show (do let (r, iss) ← reportLoop r1 os prog; pure (r, v' :: iss)) = _
          rw [h3]
          rfl
        · rw [h4, h2, List.length_cons, List.take_succ_cons, List.countP_cons]
          by_cases hv : 1 < v.length <;> simp [hv] <;> omega

theorem report_raises_iff {α : Type} (os : List (RInst α)) (prog : List (List (RInst α))) :
    (∃ e, printReport os prog = .error e) ↔
      prog.length < os.length ∨ ∀ v ∈ prog.take os.length, v.length ≤ 1 := by
  obtain ⟨h1, h2⟩ := reportLoop_errors os prog {}
  unfold printReport
  by_cases hl : prog.length < os.length
  · rw [h1 hl]
    exact ⟨fun _ => Or.inl hl, fun _ => ⟨_, rfl⟩⟩
  · obtain ⟨r, p, h3, h4⟩ := h2 (by omega)
    rw [h3]
    have h4' : r.errors = (prog.take os.length).countP fun v => decide (1 < v.length) := by rw [h4]; simp
    show (∃ e, (if r.errors = 0 then Except.error Err.zeroDiv else pure (r, p)) = Except.error e) ↔ _
    by_cases hz : r.errors = 0
    · rw [if_pos hz]
      refine ⟨fun _ => Or.inr ?_, fun _ => ⟨_, rfl⟩⟩
      rw [h4', List.countP_eq_zero] at hz
      intro v hv
      simpa using hz v hv
    · rw [if_neg hz]
      refine ⟨fun ⟨e, he⟩ => (by cases he), ?_⟩
      rintro (h | h)
      · exact absurd h hl
      · exfalso
        apply hz
        rw [h4', List.countP_eq_zero]
        intro v hv
        have := h v hv
        simp; omega

/-- What `struct.pack("<Q", MAGIC_WORD)` is. -/
def magicBytes : Bytes := [0xF7, 0xE6, 0xC5, 0xA4, 0xF3, 0xE2, 0xC1, 0xA0]

theorem written_magic (orig prog : Program) : ∃ rest, (writeBinary orig prog).1 = magicBytes ++ rest := by
  have : leBytes 8 magicWord = magicBytes := by decide +kernel
  exact ⟨_, by unfold writeBinary Wr.seq; rw [this]⟩

/-- **C94, the files.**  A run that ends leaves no initial solution exactly when the corruptor
raises or its report does: an instruction has no address in the corrupted program, or no address
has several candidates.  Otherwise the initial solution is there, cut short if writing it raised.
There is a final solution only beside an initial one, always when the run completes, and every
file starts with the magic word. -/
theorem C94_files (dec : Nat → Nat → Answers) (corrupt : Program → Py Program) (fuel : Nat)
    (functions : List (List CInst)) (hd : DistinctAddresses functions) (files : Files) (res : Py Program)
    (h : runRecovery dec corrupt fuel functions = some (files, res)) :
    (files.initial = none ↔ (∃ e, corrupt (programOf functions) = .error e) ∨
      ∃ corrupted, corrupt (programOf functions) = .ok corrupted ∧
        (corrupted.length < functions.flatten.length ∨ ∀ q ∈ corrupted.take functions.flatten.length, q.2.length ≤ 1)) ∧
    (files.final.isSome → files.initial.isSome) ∧ (∀ left, res = .ok left → files.final.isSome) ∧
    ∀ f, files.initial = some f ∨ files.final = some f → ∃ rest, f = magicBytes ++ rest := by
  unfold runRecovery at h
  dsimp only at h
  rw [programOf_eq functions hd] at h
  have hol : (functionsToList (fun i : CInst => (i.address : Int)) functions).1.length = functions.flatten.length :=
    List.length_insertionSort _ _
  cases hc : corrupt (programOf functions) with
  | error e =>
    rw [hc] at h
    cases h
    exact ⟨⟨fun _ => Or.inl ⟨e, rfl⟩, fun _ => rfl⟩, fun x => (by cases x), fun _ x => (by cases x), fun f x => by
      rcases x with x | x <;> cases x⟩
  | ok corrupted =>
    rw [hc] at h
    dsimp only at h
    have hrep := report_raises_iff ((functionsToList (fun i : CInst => (i.address : Int)) functions).1.map
      fun i => decoded dec i.address i.encoding) (corrupted.map fun q => q.2.map fun i => decoded dec q.1 i.encoding)
    have hcond : ((corrupted.map fun q => q.2.map fun i => decoded dec q.1 i.encoding).length <
          ((functionsToList (fun i : CInst => (i.address : Int)) functions).1.map
            fun i => decoded dec i.address i.encoding).length ∨
        ∀ v ∈ (corrupted.map fun q => q.2.map fun i => decoded dec q.1 i.encoding).take
          ((functionsToList (fun i : CInst => (i.address : Int)) functions).1.map
            fun i => decoded dec i.address i.encoding).length, v.length ≤ 1) ↔
        (corrupted.length < functions.flatten.length ∨ ∀ q ∈ corrupted.take functions.flatten.length, q.2.length ≤ 1) := by
      rw [List.length_map, List.length_map, hol, ← List.map_take]
      simp only [List.forall_mem_map, List.length_map]
    have hiff : (∃ e, (Except.ok corrupted : Py Program) = .error e) ∨ (∃ c, (Except.ok corrupted : Py Program) = .ok c ∧
        (c.length < functions.flatten.length ∨ ∀ q ∈ c.take functions.flatten.length, q.2.length ≤ 1)) ↔
        (corrupted.length < functions.flatten.length ∨ ∀ q ∈ corrupted.take functions.flatten.length, q.2.length ≤ 1) := by
      constructor
      · rintro (⟨e, he⟩ | ⟨c, he, hx⟩)
        · cases he
        · cases he; exact hx
      · exact fun hx => Or.inr ⟨corrupted, rfl, hx⟩
    rw [hiff, ← hcond, ← hrep]
    cases hr : printReport ((functionsToList (fun i : CInst => (i.address : Int)) functions).1.map
      fun i => decoded dec i.address i.encoding) (corrupted.map fun q => q.2.map fun i => decoded dec q.1 i.encoding) with
    | error e =>
      rw [hr] at h
      cases h
      exact ⟨⟨fun _ => ⟨e, rfl⟩, fun _ => rfl⟩, fun x => (by cases x), fun _ x => (by cases x), fun f x => by
        rcases x with x | x <;> cases x⟩
    | ok rp =>
      obtain ⟨rep, prog⟩ := rp
      rw [hr] at h
      dsimp only at h
      have hno : ∀ {P : Prop}, (∃ e, (Except.ok (rep, prog) : Py _) = .error e) → P := fun ⟨_, e⟩ => by cases e
      have hmag := written_magic (programOf functions) (toSolution (corrupted.map (·.1)) prog)
      have key : ∀ e : Err, some (({ initial := some (writeBinary (programOf functions)
            (toSolution (corrupted.map (·.1)) prog)).1 } : Files), (Except.error e : Py Program)) = some (files, res) →
          (files.initial = none ↔ ∃ e, (Except.ok (rep, prog) : Py _) = .error e) ∧
          (files.final.isSome → files.initial.isSome) ∧ (∀ left, res = .ok left → files.final.isSome) ∧
          ∀ f, files.initial = some f ∨ files.final = some f → ∃ rest, f = magicBytes ++ rest := by
        intro e he
        cases he
        refine ⟨⟨fun x => (by cases x), hno⟩, fun _ => rfl, fun _ x => (by cases x), fun f x => ?_⟩
        rcases x with x | x <;> cases x
        exact hmag
      split at h
      · exact key _ h
      · split at h
        · cases h
        · exact key _ h
        · split at h
          · cases h
          · exact key _ h
          · rename_i prog' _
            cases h
            refine ⟨⟨fun x => (by cases x), hno⟩, fun _ => rfl, fun _ _ => rfl, fun f x => ?_⟩
            rcases x with x | x <;> cases x
            · exact hmag
            · exact written_magic _ _

/-- An address whose original is not among its candidates: the initial solution is there, but
only as far as it could be written. -/
example : runRecovery exDec (fun _ => .ok [(0, [⟨30, 0⟩, ⟨11, 0⟩]), (4, [⟨20, 4⟩])]) 100 exFunctions =
    some ({ initial := some (magicBytes ++ [2, 0, 0, 0] ++ [0, 0, 0, 0]) }, .error .runtime) := by decide +kernel

end Verif
