import Mathlib.Data.List.Forall2
import Verif.Props.Metadata

/-!
# C147: the statistics of an original program, of its corruptions and of parts of them
-/

namespace Verif

open Spec

/-- What a table of counters says of a key; a key that is not there counts nothing. -/
def counted {κ : Type} [DecidableEq κ] (m : List (κ × Nat)) (k : κ) : Nat := (dictGet m k).getD 0

theorem counted_of {κ : Type} [DecidableEq κ] {m : List (κ × Nat)} {k : κ} {n : Nat}
    (h : dictGet m k = if n = 0 then none else some n) : counted m k = n := by
  unfold counted
  rw [h]
  split <;> simp_all

/-- The three counters of an original program in the words of the specification. -/
theorem counted_original (insts : List MInst) :
    (∀ k, counted (collectMeta {} insts).conditionCnt k = (defined insts).countP fun x => decide (x.cond = k)) ∧
    (∀ k, counted (collectMeta {} insts).instructionCnt k = (defined insts).countP fun x => decide (x.opcode = k)) ∧
    ∀ k, counted (collectMeta {} insts).storageCnt k = ((defined insts).map fun x => x.used.count k).sum := by
  obtain ⟨h1, h2, h3, _⟩ := C35_counts insts
  exact ⟨fun k => counted_of (h1 k), fun k => counted_of (h2 k), fun k => counted_of (h3 k)⟩

/-- The three counters of a corrupted program. -/
theorem counted_corrupted {α : Type} (program : List (α × List MInst)) :
    (∀ k, counted (collectCorrupted program).1 k = addressesWith program fun i => decide (i.cond = k)) ∧
    (∀ k, counted (collectCorrupted program).2.1 k = addressesWith program fun i => decide (i.opcode = k)) ∧
    ∀ k, counted (collectCorrupted program).2.2 k = addressesWith program fun i => decide (k ∈ i.used) := by
  obtain ⟨h1, h2, h3⟩ := C37_addresses program
  exact ⟨fun k => counted_of (h1 k), fun k => counted_of (h2 k), fun k => counted_of (h3 k)⟩

/-- The instruction is defined and has the property. -/
def has (f : MInst → Bool) (i : MInst) : Bool := !i.ignore && f i

/-- The addresses where the original does not have the property and a candidate does. -/
def onlyCorrupted {α : Type} (orig : List MInst) (prog : List (α × List MInst)) (f : MInst → Bool) : Nat :=
  (orig.zip prog).countP fun p => !has f p.1 && p.2.2.any (has f)

theorem addresses_split {α : Type} (f : MInst → Bool) {orig : List MInst} {prog : List (α × List MInst)}
    (h : List.Forall₂ (fun i q => i ∈ q.2) orig prog) :
    addressesWith prog f = (defined orig).countP f + onlyCorrupted orig prog f := by
  induction h with
  | nil => rfl
  | cons hiq _ ih =>
    rename_i i q orig prog _
    have e : addressesWith (q :: prog) f = addressesWith prog f + if q.2.any (has f) then 1 else 0 := by
      unfold addressesWith
      rw [List.countP_cons]
      rfl
    have e2 : (defined (i :: orig)).countP f = (defined orig).countP f + if has f i then 1 else 0 := by
      unfold defined has
      cases hi : i.ignore <;> simp [hi, List.countP_cons]
    have e3 : onlyCorrupted (i :: orig) (q :: prog) f =
        onlyCorrupted orig prog f + if !has f i && q.2.any (has f) then 1 else 0 := by
      unfold onlyCorrupted
      rw [List.zip_cons_cons, List.countP_cons]
    rw [e, e2, e3, ih]
    cases hh : has f i with
    | false => simp; omega
    | true =>
      have : q.2.any (has f) = true := List.any_eq_true.2 ⟨i, hiq, hh⟩
      simp [this]
      omega

theorem used_countP {orig : List MInst} (hn : ∀ i ∈ orig, i.used.Nodup) (k : Nat) :
    ((defined orig).map fun x => x.used.count k).sum = (defined orig).countP fun i => decide (k ∈ i.used) := by
  have hd : ∀ i ∈ defined orig, i.used.Nodup := fun i hi => hn i (List.mem_filter.1 hi).1
  generalize defined orig = l at hd
  induction l with
  | nil => rfl
  | cons i l ih =>
    rw [List.map_cons, List.sum_cons, List.countP_cons, ih fun j hj => hd j (List.mem_cons_of_mem _ hj),
      count_of_nodup (hd i List.mem_cons_self)]
    simp only [decide_eq_true_eq]
    omega

/-- **C147.**  The counters of a corrupted program that has the original among its
candidates are those of the original, and for each condition, opcode and storage one more
for each address where only a wrong candidate has it. -/
theorem C147_difference {α : Type} {orig : List MInst} {prog : List (α × List MInst)}
    (h : List.Forall₂ (fun i q => i ∈ q.2) orig prog) (hn : ∀ i ∈ orig, i.used.Nodup) :
    (∀ k, counted (collectCorrupted prog).1 k = counted (collectMeta {} orig).conditionCnt k +
      onlyCorrupted orig prog fun i => decide (i.cond = k)) ∧
    (∀ k, counted (collectCorrupted prog).2.1 k = counted (collectMeta {} orig).instructionCnt k +
      onlyCorrupted orig prog fun i => decide (i.opcode = k)) ∧
    ∀ k, counted (collectCorrupted prog).2.2 k = counted (collectMeta {} orig).storageCnt k +
      onlyCorrupted orig prog fun i => decide (k ∈ i.used) := by
  obtain ⟨a1, a2, a3⟩ := counted_corrupted prog
  obtain ⟨b1, b2, b3⟩ := counted_original orig
  refine ⟨fun k => ?_, fun k => ?_, fun k => ?_⟩
  · rw [a1, b1, addresses_split _ h]
  · rw [a2, b2, addresses_split _ h]
  · rw [a3, b3, addresses_split _ h, used_countP hn]

/-- **C147.**  A program with the original as the only candidate of every address has the
counters of the original. -/
theorem C147_uncorrupted {α : Type} {orig : List MInst} {prog : List (α × List MInst)}
    (h : List.Forall₂ (fun i q => q.2 = [i]) orig prog) (hn : ∀ i ∈ orig, i.used.Nodup) :
    (∀ k, dictGet (collectCorrupted prog).1 k = dictGet (collectMeta {} orig).conditionCnt k) ∧
    (∀ k, dictGet (collectCorrupted prog).2.1 k = dictGet (collectMeta {} orig).instructionCnt k) ∧
    ∀ k, dictGet (collectCorrupted prog).2.2 k = dictGet (collectMeta {} orig).storageCnt k := by
  have hm : List.Forall₂ (fun i q => i ∈ q.2) orig prog := h.imp fun i q e => by rw [e]; exact List.mem_singleton_self i
  have hz : ∀ f, onlyCorrupted orig prog f = 0 := by
    intro f
    clear hm hn
    unfold onlyCorrupted
    induction h with
    | nil => rfl
    | cons e _ ih =>
      rw [List.zip_cons_cons, List.countP_cons, ih, e]
      simp
  obtain ⟨a1, a2, a3⟩ := C37_addresses prog
  obtain ⟨b1, b2, b3, _⟩ := C35_counts orig
  refine ⟨fun k => ?_, fun k => ?_, fun k => ?_⟩
  · rw [a1, b1, addresses_split _ hm, hz, Nat.add_zero]
  · rw [a2, b2, addresses_split _ hm, hz, Nat.add_zero]
  · rw [a3, b3, addresses_split _ hm, hz, Nat.add_zero, used_countP hn]

/-- **C147.**  Taking candidates away never raises a counter, and the order of the
candidates and how often they are listed do not matter. -/
theorem C147_fewer {α : Type} {prog prog' : List (α × List MInst)}
    (h : List.Forall₂ (fun q q' => q'.2 ⊆ q.2) prog prog') :
    (∀ k, counted (collectCorrupted prog').1 k ≤ counted (collectCorrupted prog).1 k) ∧
    (∀ k, counted (collectCorrupted prog').2.1 k ≤ counted (collectCorrupted prog).2.1 k) ∧
    (∀ k, counted (collectCorrupted prog').2.2 k ≤ counted (collectCorrupted prog).2.2 k) := by
  have key : ∀ f, addressesWith prog' f ≤ addressesWith prog f := by
    intro f
    unfold addressesWith
    induction h with
    | nil => exact le_rfl
    | cons hs _ ih =>
      rw [List.countP_cons, List.countP_cons]
      refine Nat.add_le_add ih ?_
      split
      · rename_i hb
        obtain ⟨i, hi, hf⟩ := List.any_eq_true.1 hb
        rw [if_pos (List.any_eq_true.2 ⟨i, hs hi, hf⟩)]
      · exact Nat.zero_le _
  obtain ⟨a1, a2, a3⟩ := counted_corrupted prog
  obtain ⟨b1, b2, b3⟩ := counted_corrupted prog'
  exact ⟨fun k => by rw [a1, b1]; exact key _, fun k => by rw [a2, b2]; exact key _, fun k => by rw [a3, b3]; exact key _⟩

/-- **C147.**  The order of the addresses does not matter, the counters of a program in
two parts are the sums of those of the parts, and no counter is larger than the number of
addresses. -/
theorem C147_parts {α : Type} (prog rest : List (α × List MInst)) :
    (∀ prog', prog.Perm prog' →
      (∀ k, dictGet (collectCorrupted prog').1 k = dictGet (collectCorrupted prog).1 k) ∧
      (∀ k, dictGet (collectCorrupted prog').2.1 k = dictGet (collectCorrupted prog).2.1 k) ∧
      ∀ k, dictGet (collectCorrupted prog').2.2 k = dictGet (collectCorrupted prog).2.2 k) ∧
    (∀ k, counted (collectCorrupted (prog ++ rest)).1 k =
      counted (collectCorrupted prog).1 k + counted (collectCorrupted rest).1 k) ∧
    (∀ k, counted (collectCorrupted (prog ++ rest)).2.1 k =
      counted (collectCorrupted prog).2.1 k + counted (collectCorrupted rest).2.1 k) ∧
    (∀ k, counted (collectCorrupted (prog ++ rest)).2.2 k =
      counted (collectCorrupted prog).2.2 k + counted (collectCorrupted rest).2.2 k) ∧
    (∀ k, counted (collectCorrupted prog).1 k ≤ prog.length) ∧
    (∀ k, counted (collectCorrupted prog).2.1 k ≤ prog.length) ∧
    ∀ k, counted (collectCorrupted prog).2.2 k ≤ prog.length := by
  obtain ⟨a1, a2, a3⟩ := counted_corrupted prog
  obtain ⟨b1, b2, b3⟩ := counted_corrupted rest
  obtain ⟨c1, c2, c3⟩ := counted_corrupted (prog ++ rest)
  have happ : ∀ f, addressesWith (prog ++ rest) f = addressesWith prog f + addressesWith rest f := fun f =>
    List.countP_append
  refine ⟨?_, fun k => by rw [a1, b1, c1, happ], fun k => by rw [a2, b2, c2, happ], fun k => by rw [a3, b3, c3, happ],
    fun k => by rw [a1]; exact List.countP_le_length, fun k => by rw [a2]; exact List.countP_le_length,
    fun k => by rw [a3]; exact List.countP_le_length⟩
  intro prog' hp
  have hperm : ∀ f, addressesWith prog' f = addressesWith prog f := fun f => hp.symm.countP_eq _
  obtain ⟨d1, d2, d3⟩ := C37_addresses prog
  obtain ⟨e1, e2, e3⟩ := C37_addresses prog'
  exact ⟨fun k => by rw [d1, e1, hperm], fun k => by rw [d2, e2, hperm], fun k => by rw [d3, e3, hperm]⟩

/-- The demonstration program with wrong candidates: condition 0 is had by a wrong
candidate of the first address, register 3 by one of the third. -/
def demoCorrupted : List (Nat × List MInst) :=
  [(0, [⟨false, 11, 0, 3, [1], [], [1]⟩, ⟨false, 10, 14, 3, [1, 2], [2], [1]⟩]),
   (4, [⟨true, 99, 0, 0, [], [], []⟩]),
   (8, [⟨false, 30, 14, 5, [4], [], [4]⟩, ⟨false, 31, 14, 5, [3], [], [3]⟩]),
   (12, [⟨false, 20, 0, 3, [3, 1], [1], [3]⟩])]

theorem C147_case :
    List.Forall₂ (fun i q => i ∈ q.2) demoProgram demoCorrupted ∧ (∀ i ∈ demoProgram, i.used.Nodup) ∧
    (collectMeta {} demoProgram).conditionCnt = [(14, 2), (0, 1)] ∧
    counted (collectCorrupted demoCorrupted).1 0 = 2 ∧ counted (collectCorrupted demoCorrupted).1 14 = 2 ∧
    onlyCorrupted demoProgram demoCorrupted (fun i => decide (i.cond = 0)) = 1 ∧
    counted (collectMeta {} demoProgram).storageCnt 3 = 1 ∧ counted (collectCorrupted demoCorrupted).2.2 3 = 2 ∧
    onlyCorrupted demoProgram demoCorrupted (fun i => decide (3 ∈ i.used)) = 1 := by
  refine ⟨?_, by decide, by decide +kernel, by decide +kernel, by decide +kernel, by decide, by decide +kernel,
    by decide +kernel, by decide⟩
  simp [demoProgram, demoCorrupted]

end Verif
