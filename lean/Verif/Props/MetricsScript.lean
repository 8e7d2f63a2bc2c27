import Verif.Model.MetricsScript
import Verif.Props.Metadata

/-!
# C111: what the metrics script prints and draws
-/

namespace Verif
open Spec

theorem getD_ite (n : Nat) : ((if n = 0 then none else some n : Option Nat)).getD 0 = n := by
  split <;> simp_all

/-- **C111.**  The bars of the three charts: of the storages 0 to 17, how often each is
used; of the conditions 0 to 14 and of the opcodes 0 to 199, how many of the defined
instructions have each. -/
theorem C111_bars (insts : List MInst) :
    (collectAndPrint insts).registers =
      (List.range 18).map (fun k => ((defined insts).map fun x => x.used.count k).sum) ∧
    (collectAndPrint insts).conditions =
      (List.range 15).map (fun k : Nat => (defined insts).countP fun x => decide (x.cond = (k : Int))) ∧
    (collectAndPrint insts).instructions =
      (List.range 200).map (fun k => (defined insts).countP fun x => decide (x.opcode = k)) := by
  obtain ⟨h1, h2, h3, -, -⟩ := C35_counts insts
  unfold collectAndPrint barsOf
  dsimp only
  refine ⟨?_, ?_, ?_⟩
  · apply List.map_congr_left; intro k _; rw [id, h3, getD_ite]
  · apply List.map_congr_left; intro k _; rw [h1, getD_ite]
  · apply List.map_congr_left; intro k _; rw [id, h2, getD_ite]

/-- Counting by value, for the values of a list without repetition. -/
theorem sum_countP {α β : Type} [DecidableEq β] (f : α → β) (vals : List β) (hn : vals.Nodup) (l : List α) :
    (vals.map fun k => l.countP fun x => decide (f x = k)).sum = l.countP fun x => decide (f x ∈ vals) := by
  induction vals with
  | nil => simp
  | cons v vals ih =>
    obtain ⟨hv, hn⟩ := List.nodup_cons.1 hn
    rw [List.map_cons, List.sum_cons, ih hn]
    clear ih
    induction l with
    | nil => rfl
    | cons x l ihl =>
      simp only [List.countP_cons]
      have hstep : (if decide (f x = v) = true then 1 else 0) + (if decide (f x ∈ vals) = true then 1 else 0) =
          (if decide (f x ∈ v :: vals) = true then 1 else 0) := by
        by_cases h1 : f x = v
        · simp [h1, hv]
        · simp [h1]
      omega

/-- **C111.**  The bars of the conditions, and of the opcodes, total the number of defined
instructions exactly when every defined instruction has one of the conditions, or opcodes,
of the chart; otherwise instructions are left out. -/
theorem C111_totals (insts : List MInst) :
    ((collectAndPrint insts).conditions.sum = (defined insts).length ↔
      ∀ x ∈ defined insts, 0 ≤ x.cond ∧ x.cond < 15) ∧
    ((collectAndPrint insts).instructions.sum = (defined insts).length ↔ ∀ x ∈ defined insts, x.opcode < 200) := by
  obtain ⟨-, h2, h3⟩ := C111_bars insts
  rw [h2, h3]
  constructor
  · have h := sum_countP (fun x : MInst => x.cond) ((List.range 15).map fun k : Nat => (k : Int))
      (List.nodup_range.map fun a b h => by simpa using h) (defined insts)
    rw [List.map_map] at h
    have h' : ((List.range 15).map fun k : Nat => (defined insts).countP fun x => decide (x.cond = (k : Int))).sum = _ := h
    rw [h', List.countP_eq_length]
    constructor
    · intro hall x hx
      have := hall x hx
      simp only [List.mem_map, List.mem_range, decide_eq_true_eq] at this
      obtain ⟨a, ha, he⟩ := this
      omega
    · intro hall x hx
      have := hall x hx
      simp only [List.mem_map, List.mem_range, decide_eq_true_eq]
      exact ⟨x.cond.toNat, by omega, by omega⟩
  · rw [sum_countP (fun x : MInst => x.opcode) (List.range 200) List.nodup_range (defined insts), List.countP_eq_length]
    simp

theorem spaceRows_enc (o : Option MInst) (l : List MInst) : (spaceRows o l).map (fun r => (r.1, r.2.2)) =
    l.map fun i => (i.encoding, i) := by
  induction l generalizing o with
  | nil => cases o <;> rfl
  | cons i l ih => cases o <;> simp [spaceRows, ih]

theorem spaceRows_gap (o : Option MInst) (l : List MInst) (k : Nat) (p i : MInst) (h1 : l[k]? = some p)
    (h2 : l[k + 1]? = some i) :
    ((spaceRows o l)[k + 1]?).map (·.2.1) = some (((p.encoding : Int) - (i.encoding : Int)).natAbs) := by
  induction l generalizing o k with
  | nil => simp at h1
  | cons j l ih =>
    cases k with
    | zero =>
      simp only [List.getElem?_cons_zero, Option.some.injEq] at h1
      subst h1
      cases l with
      | nil => simp at h2
      | cons j' l =>
        simp only [List.getElem?_cons_succ, List.getElem?_cons_zero, Option.some.injEq] at h2
        subst h2
        cases o <;> simp [spaceRows]
    | succ k =>
      simp only [List.getElem?_cons_succ] at h1 h2
      have := ih (some j) k h1 h2
      cases o <;> simpa [spaceRows] using this

theorem spaceRows_total : ∀ (l : List MInst) (p : MInst), (p :: l).Pairwise (fun a b => b.encoding < a.encoding) →
    ((spaceRows (some p) l).map (·.2.1)).sum + ((p :: l).getLast (by simp)).encoding = p.encoding := by
  intro l
  induction l with
  | nil => intro p _; simp [spaceRows]
  | cons i l ih =>
    intro p hp
    rw [List.pairwise_cons] at hp
    have hlt := hp.1 i (by simp)
    have := ih i hp.2
    simp only [spaceRows, List.map_cons, List.sum_cons, List.getLast_cons_cons] at this ⊢
    omega

/-- **C111.**  The printed lines are those of the different encodings of the program, from
the largest to the smallest.  The first line has gap 0, every other line the difference to
the encoding before it, which is not 0; the gaps total the distance from the largest
encoding to the smallest. -/
theorem C111_lines (insts : List MInst) :
    let rows := (collectAndPrint insts).rows
    rows.Pairwise (fun a b => b.1 < a.1) ∧
    (∀ e, e ∈ rows.map (·.1) ↔ ∃ x ∈ insts, x.ignore = false ∧ x.encoding = e) ∧
    (∀ r ∈ rows, r.2.2.encoding = r.1 ∧
      insts.find? (fun y => !y.ignore && decide (y.encoding = r.1)) = some r.2.2) ∧
    (∀ r, rows.head? = some r → r.2.1 = 0) ∧
    (∀ k a b, rows[k]? = some a → rows[k + 1]? = some b → b.2.1 + b.1 = a.1 ∧ 0 < b.2.1) ∧
    (∀ a b, rows.head? = some a → rows.getLast? = some b → (rows.map (·.2.1)).sum + b.1 = a.1) := by
  obtain ⟨h1, h2, h3⟩ := C77_spaces {} insts
  have hrows : (collectAndPrint insts).rows = spaceRows none (collectMeta {} insts).emptySpaces := rfl
  dsimp only
  rw [hrows]
  generalize (collectMeta {} insts).emptySpaces = l at *
  have henc := spaceRows_enc none l
  have hfst : (spaceRows none l).map (·.1) = l.map (·.encoding) := by
    have := congrArg (List.map Prod.fst) henc
    simpa [Function.comp_def] using this
  have hpw : (spaceRows none l).Pairwise (fun a b => b.1 < a.1) := by
    have : ((spaceRows none l).map (·.1)).Pairwise (fun a b => b < a) := by
      rw [hfst]; exact List.pairwise_map.2 h1
    exact List.pairwise_map.1 this
  have hget : ∀ (k : Nat) (r : Nat × Nat × MInst), (spaceRows none l)[k]? = some r →
      l[k]? = some r.2.2 ∧ r.1 = r.2.2.encoding := by
    intro k r hr
    have := congrArg (fun x => x[k]?) henc
    simp only [List.getElem?_map, hr, Option.map_some] at this
    cases hl : l[k]? with
    | none => rw [hl] at this; simp at this
    | some i =>
      rw [hl] at this
      simp only [Option.map_some, Option.some.injEq, Prod.mk.injEq] at this
      exact ⟨by rw [this.2], this.2 ▸ this.1⟩
  refine ⟨hpw, fun e => by rw [hfst]; exact h2 e, ?_, ?_, ?_, ?_⟩
  · intro r hr
    obtain ⟨k, hk⟩ := List.getElem?_of_mem hr
    obtain ⟨a, b⟩ := hget k r hk
    exact ⟨b.symm, by rw [b]; exact h3 _ (List.mem_of_getElem? a)⟩
  · intro r hr
    cases l with
    | nil => simp [spaceRows] at hr
    | cons i l => simp only [spaceRows, List.head?_cons, Option.some.injEq] at hr; rw [← hr]
  · intro k a b ha hb
    obtain ⟨a1, a2⟩ := hget k a ha
    obtain ⟨b1, b2⟩ := hget (k + 1) b hb
    have hg := spaceRows_gap none l k a.2.2 b.2.2 a1 b1
    rw [hb] at hg
    simp only [Option.map_some, Option.some.injEq] at hg
    have hlt : b.1 < a.1 := by
      have hka := List.getElem?_eq_some_iff.1 ha
      have hkb := List.getElem?_eq_some_iff.1 hb
      have := List.pairwise_iff_getElem.1 hpw k (k + 1) hka.1 hkb.1 (by omega)
      rw [hka.2, hkb.2] at this
      exact this
    omega
  · intro a b ha hb
    cases l with
    | nil => simp [spaceRows] at ha
    | cons i l =>
      have ht := spaceRows_total l i h1
      simp only [spaceRows, List.head?_cons, Option.some.injEq] at ha
      subst ha
      have hlast : b.1 = ((i :: l).getLast (by simp)).encoding := by
        have := congrArg List.getLast? hfst
        rw [List.getLast?_map, hb, List.getLast?_map, List.getLast?_eq_getLast (by simp)] at this
        simpa using this
      simp only [spaceRows, List.map_cons, List.sum_cons]
      rw [hlast]
      omega

/-! ### A concrete case

Three instructions, the first one twice; the last one has a condition and an opcode that
no chart shows and uses storage 18. -/

private def cI (e : Nat) (c : Int) (o : Nat) (u : List Nat) : MInst := ⟨false, e, c, o, u, u, []⟩
private def cProg : List MInst := [cI 5 14 13 [0, 1], cI 9 0 4 [1], cI 5 14 13 [0, 1], cI 2 15 300 [18]]

theorem C111_case : (collectAndPrint cProg).rows.map (fun r => (r.1, r.2.1)) = [(9, 0), (5, 4), (2, 3)] ∧
    (collectAndPrint cProg).conditions = [1, 0, 0, 0, 0, 0, 0, 0, 0, 0, 0, 0, 0, 0, 2] ∧
    (collectAndPrint cProg).registers = [2, 3, 0, 0, 0, 0, 0, 0, 0, 0, 0, 0, 0, 0, 0, 0, 0, 0] ∧
    (collectAndPrint cProg).instructions.sum = 3 ∧ (defined cProg).length = 4 := by
  refine ⟨?_, ?_, ?_, ?_, ?_⟩ <;> decide +kernel

end Verif
