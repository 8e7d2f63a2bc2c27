import Verif.Props.RuleValues
import Verif.Props.DarmInstruction
import Verif.Props.Constraint
import Verif.Props.ForwardExact
import Verif.Props.FreqChange
import Verif.Props.Report
import Verif.Props.Readers

/-!
# Property theorems: what other theorems leave open

Each of these is about a detail that a wrong program could change without any other
theorem noticing.
-/

namespace Verif

open Spec

/-! ## C91: the constants of the deprecated rules -/

/-- C91 for registers: the mean over its registers, and a millionth more for a branch. -/
theorem C91_registers (counts : List (Nat × Nat)) (hn : (counts.map (·.1)).Nodup) (pass position : Int) (cache : List (Nat × Rat))
    (prog prog₀ : RuleProg) (l : List RuleCand) (hl : dictGet prog position = some l)
    (hs : ∀ i ∈ settled prog₀, ∀ v ∈ i.regsUsed, v ∈ counts.map (·.1))
    (hc : if cache = [] then prog₀ = prog else Kept (fun i => i.regsUsed) counts prog₀ cache) :
    ∃ cache' prog' u, countRecover registerCount counts pass cache prog position = .ok (cache', prog', u) ∧
      ∀ i x, l[i]? = some x → x.a.c.m.ignore = false → scoreAt ("REG_COUNT" ++ toString pass) prog' position i =
        some ((if x.a.c.isBranch then 1 / 10 ^ 6 else 0) +
          (x.a.regsUsed.map fun v => valueScore (fun i => i.regsUsed) counts prog₀ v / x.a.regsUsed.length).sum) := by
  obtain ⟨c, p, u, h1, _, h2⟩ := C91_counting registerCount counts hn pass position cache prog prog₀ l hl hs hc
  refine ⟨c, p, u, h1, fun i x hx hi => ?_⟩
  have := h2 i x hx
  rw [hi] at this
  rw [show ("REG_COUNT" : String) = registerCount.name from rfl, this]
  simp only [Bool.false_eq_true, if_false, Spec.fieldScore, registerCount]
  norm_num

/-- C91 for conditions: the value of its condition. -/
theorem C91_conditions (counts : List (Int × Nat)) (hn : (counts.map (·.1)).Nodup) (pass position : Int) (cache : List (Int × Rat))
    (prog prog₀ : RuleProg) (l : List RuleCand) (hl : dictGet prog position = some l)
    (hs : ∀ i ∈ settled prog₀, i.c.m.cond ∈ counts.map (·.1))
    (hc : if cache = [] then prog₀ = prog else Kept (fun i => [i.c.m.cond]) counts prog₀ cache) :
    ∃ cache' prog' u, countRecover conditionalCount counts pass cache prog position = .ok (cache', prog', u) ∧
      ∀ i x, l[i]? = some x → x.a.c.m.ignore = false → scoreAt ("COND_COUNT" ++ toString pass) prog' position i =
        some (valueScore (fun i => [i.c.m.cond]) counts prog₀ x.a.c.m.cond) := by
  obtain ⟨c, p, u, h1, _, h2⟩ := C91_counting conditionalCount counts hn pass position cache prog prog₀ l hl
    (fun i hi v hv => by
      rw [show v = i.c.m.cond from List.mem_singleton.1 hv]
      exact hs i hi) hc
  refine ⟨c, p, u, h1, fun i x hx hi => ?_⟩
  have := h2 i x hx
  rw [hi] at this
  rw [show ("COND_COUNT" : String) = conditionalCount.name from rfl, this]
  simp [Spec.fieldScore, conditionalCount]

/-- C91 for instructions: the value of its opcode. -/
theorem C91_opcodes (counts : List (Nat × Nat)) (hn : (counts.map (·.1)).Nodup) (pass position : Int) (cache : List (Nat × Rat))
    (prog prog₀ : RuleProg) (l : List RuleCand) (hl : dictGet prog position = some l)
    (hs : ∀ i ∈ settled prog₀, i.c.m.opcode ∈ counts.map (·.1))
    (hc : if cache = [] then prog₀ = prog else Kept (fun i => [i.c.m.opcode]) counts prog₀ cache) :
    ∃ cache' prog' u, countRecover instructionCount counts pass cache prog position = .ok (cache', prog', u) ∧
      ∀ i x, l[i]? = some x → x.a.c.m.ignore = false → scoreAt ("INST_COUNT" ++ toString pass) prog' position i =
        some (valueScore (fun i => [i.c.m.opcode]) counts prog₀ x.a.c.m.opcode) := by
  obtain ⟨c, p, u, h1, _, h2⟩ := C91_counting instructionCount counts hn pass position cache prog prog₀ l hl
    (fun i hi v hv => by
      rw [show v = i.c.m.opcode from List.mem_singleton.1 hv]
      exact hs i hi) hc
  refine ⟨c, p, u, h1, fun i x hx hi => ?_⟩
  have := h2 i x hx
  rw [hi] at this
  rw [show ("INST_COUNT" : String) = instructionCount.name from rfl, this]
  simp [Spec.fieldScore, instructionCount]

/-- C91 for the control flow of an instruction without neighbours: the constant. -/
theorem C91_control_flow_alone (pass position : Int) (prog : RuleProg) (l : List RuleCand)
    (hl : dictGet prog position = some l) (h0 : Conditions (l.map (·.a)))
    (h1 : dictGet prog (position - 4) = none) (h2 : dictGet prog (position + 4) = none) :
    ∃ prog' u, cfgRecover pass prog position = .ok (prog', u) ∧ ∀ i x, l[i]? = some x → x.a.c.m.ignore = false →
      x.a.c.isBranch = false → scoreAt ("CFG" ++ toString pass) prog' position i = some (1 / 10 ^ 14) := by
  have e1 : at_ prog (position - 4) = [] := by unfold at_; rw [h1]; rfl
  have e2 : at_ prog (position + 4) = [] := by unfold at_; rw [h2]; rfl
  obtain ⟨p, u, g1, g2⟩ := C91_control_flow pass position prog l hl h0 (by rw [e1]; intro i hi; cases hi) (by rw [e2]; intro i hi; cases hi)
  refine ⟨p, u, g1, fun i x hx hi hb => ?_⟩
  rw [g2 i x hx]
  unfold cfgScore
  rw [e1, e2, hi, hb]
  simp [shareOf, live, ruleEps]

/-! ## C99: pushes and pops -/

/-- C99.  A decoded instruction is a push or a pop exactly when one of these words
occurs in its name. -/
theorem C99_push_pop (i : DarmInst) (d : DarmText) (hd : i.dis = some d) :
    ∃ b, i.isPushPop = .ok b ∧ (b = true ↔ "push".toList <:+: d.darm.name ∨ "pop".toList <:+: d.darm.name) := by
  unfold DarmInst.isPushPop
  rw [hd]
  refine ⟨_, rfl, ?_⟩
  rw [Bool.or_eq_true]
  unfold Darm.instIs
  rw [show "push".toList = ['p','u','s','h'] by decide, show "pop".toList = ['p','o','p'] by decide]
  simp [hasInfix_iff]

/-- C99.  Making instructions out of encodings works for no encoding. -/
theorem C99_encodings (l : List Nat) : encodingsToDarm l = if l = [] then .ok [] else .error .type := by
  cases l <;> rfl

/-! ## C97, C70: the quality-of-service function for tests -/

/-- C97 with the function for tests: of the calls it gets, every third one is accepted. -/
theorem C97_mock (calls : List QosCall) (h : calls ≠ []) : mockQos calls = true ↔ 3 ∣ calls.length := by
  unfold mockQos
  rw [C70_period]
  have := List.length_pos_of_ne_nil h
  rw [Nat.sub_add_cancel this]

/-- C97.  A part that is counted but has no list of instructions: KeyError, whatever
comes first of the others is done. -/
theorem C97_part_missing (qos : List QosCall → Bool) (changer : CInst → Int → Int → Py (Nat × Bool)) (fuel : Nat)
    (withPart : List (Int × List CInst)) (part n : Int) (h : dictGet withPart part = none) :
    changeParts qos changer fuel withPart [(part, n)] = some (.error .key) := by
  unfold changeParts
  have : freqSorted [(part, n)] = [part] := rfl
  rw [this]
  unfold changeEach
  rw [h]

/-! ## The problem that is built -/

/-- Addresses without candidates are no variables of the problem; all others are, in
order and with all candidates. -/
theorem C47_variables (program : List (Nat × List MInst)) (metadata : Collector) :
    (buildProblem program metadata).vars.Sublist program ∧
    ∀ p, p ∈ (buildProblem program metadata).vars ↔ p ∈ program ∧ p.2 ≠ [] := by
  unfold buildProblem
  refine ⟨List.filter_sublist, fun p => ?_⟩
  rw [List.mem_filter, decide_eq_true_eq, List.length_pos_iff]

/-! ## The order of the addresses -/

/-- Addresses with as many candidates keep their order, in both directions. -/
theorem C48_stable (fromMax : Bool) (program : List (Nat × List FInst)) (as : List Nat) {a b : Nat} (h : [a, b].Sublist as)
    (he : candCount program a = candCount program b) : [a, b].Sublist (sortAddresses fromMax program as) := by
  unfold sortAddresses
  split
  · exact List.pair_sublist_insertionSort (by show _ ≤ _; omega) h
  · exact List.pair_sublist_insertionSort (by show _ ≤ _; omega) h

/-! ## Numbers -/

/-- The prefixes of a number do not change it. -/
theorem C67_prefix (ds : List (Char × Nat)) (h : ∀ d ∈ ds, d ∈ Spec.hexTable) (hne : ds ≠ []) (p : List Char)
    (hp : p ∈ ["".toList, "0x".toList, "0X".toList, "0x_".toList, "0X_".toList]) :
    hexBody (p ++ ds.map (·.1)) = some (ds.foldl (fun a d => 16 * a + d.2) 0) := by
  have hl := hexLoop_digits ds h 0 false (Or.inr hne)
  obtain ⟨d, ds, rfl⟩ := List.exists_cons_of_ne_nil hne
  have hd := (hexTable_facts d (h d (by simp))).2.2.1
  have hp : p = [] ∨ p = ['0', 'x'] ∨ p = ['0', 'X'] ∨ p = ['0', 'x', '_'] ∨ p = ['0', 'X', '_'] := by simpa using hp
  rcases hp with rfl | rfl | rfl | rfl | rfl
  · exact (hexBody_digits _ h hne).1
  · exact (hexBody_digits _ h hne).2
  · rw [← hl]
    unfold hexBody
    split <;> simp_all
  · rw [← hl]; rfl
  · rw [← hl]; rfl

/-! ## Examples -/

example : mockQos [(1, 0), (2, 4), (3, 8)] = true ∧ mockQos [(1, 0)] = false := by decide

example : hexBody "0X_1f".toList = some 31 := by decide

/-- Two addresses with one candidate each stay before and after one with none. -/
example : sortAddresses true [(0, []), (4, [])] [4, 0] = [4, 0] := by decide

example : (buildProblem [(0, [])] {}).vars.length = 0 := by decide

example : strExample.isPushPop.toOption = some false := by decide

end Verif
