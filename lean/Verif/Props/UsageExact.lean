import Verif.Props.Instruction

/-!
# C54: exactly which registers an instruction is said to use, read and write
-/

namespace Verif

namespace Spec

/-- The registers a memory operand may name: none, and those of the ARM core. -/
def coreRegs : List Nat := [0, 66, 67, 68, 69, 70, 71, 72, 73, 74, 75, 76, 77, 78, 10, 11, 12]

/-- What is said of a register of a memory operand: nothing if there is none, nothing if
it is R0. -/
def addressReg (r : Nat) : List Nat := if r = 0 ∨ r = 66 then [] else [armNumber r]

/-- What is said of an operand. Capstone has no register operand without register. -/
def saidOf : Operand → List Nat
  | .reg r => [if r = 0 then 0 else armNumber r]
  | .mem base index => addressReg base ++ addressReg index
  | _ => []

/-- A memory operand with a register outside the ARM core. -/
def Foreign : Operand → Prop
  | .mem base index => base ∉ coreRegs ∨ index ∉ coreRegs
  | _ => False

/-- The numbers of a list at their first places only. -/
def oncePerNumber : List Nat → List Nat
  | [] => []
  | a :: t => a :: (oncePerNumber t).filter (· ≠ a)

/-- Everything said of an instruction, in order. -/
def said (c : CapInst) (stack : Prop) [Decidable stack] : List Nat :=
  (if stack then [13] else []) ++ c.operands.flatMap saidOf

end Spec

instance (c : CapInst) : Decidable (StackOp c) := by unfold StackOp; infer_instance

theorem mem_oncePerNumber : ∀ (l : List Nat) (x : Nat), x ∈ Spec.oncePerNumber l ↔ x ∈ l
  | [], x => by simp [Spec.oncePerNumber]
  | a :: t, x => by
    unfold Spec.oncePerNumber
    rw [List.mem_cons, List.mem_filter, mem_oncePerNumber t x, List.mem_cons]
    by_cases h : x = a <;> simp [h]

theorem oncePerNumber_snoc : ∀ (l : List Nat) (a : Nat),
    Spec.oncePerNumber (l ++ [a]) = addReg (Spec.oncePerNumber l) a
  | [], a => by simp [Spec.oncePerNumber, addReg]
  | b :: t, a => by
    show b :: (Spec.oncePerNumber (t ++ [a])).filter (· ≠ b) = _
    rw [oncePerNumber_snoc t a]
    show _ = addReg (b :: (Spec.oncePerNumber t).filter (· ≠ b)) a
    unfold addReg
    by_cases h : a ∈ Spec.oncePerNumber t
    · rw [if_pos (by simpa using h)]
      by_cases hb : a = b
      · rw [if_pos (by simp [hb])]
      · rw [if_pos (by simp [h, hb])]
    · rw [if_neg (by simpa using h)]
      by_cases hb : a = b
      · rw [if_pos (by simp [hb])]
        simp [List.filter_append, hb]
      · rw [if_neg (by simp [h, hb])]
        simp [List.filter_append, hb]

theorem addMemReg_exact (l : List Nat) (r : Nat) :
    (r ∉ Spec.coreRegs ∧ addMemReg (Spec.oncePerNumber l) r = .error .key) ∨
    (r ∈ Spec.coreRegs ∧ addMemReg (Spec.oncePerNumber l) r
      = .ok (Spec.oncePerNumber (l ++ Spec.addressReg r))) := by
  by_cases h : r ∈ Spec.coreRegs
  · refine Or.inr ⟨h, ?_⟩
    have key : ∀ r ∈ Spec.coreRegs, ∃ v, dictGet capstoneRegs r = some v ∧
        ((v = 0 ∧ Spec.addressReg r = []) ∨ (v ≠ 0 ∧ Spec.addressReg r = [v])) := by
      intro r hr
      have : ∀ r ∈ Spec.coreRegs, dictGet capstoneRegs r = some ((dictGet capstoneRegs r).getD 0) ∧
        (((dictGet capstoneRegs r).getD 0 = 0 ∧ Spec.addressReg r = []) ∨
          ((dictGet capstoneRegs r).getD 0 ≠ 0
            ∧ Spec.addressReg r = [(dictGet capstoneRegs r).getD 0])) := by decide
      exact ⟨_, this r hr⟩
    obtain ⟨v, hv, hs⟩ := key r h
    unfold addMemReg
    rw [hv]
    simp only
    rcases hs with ⟨h0, hs⟩ | ⟨h0, hs⟩
    · rw [if_neg (by simpa using h0), hs, List.append_nil]
    · rw [if_pos h0, hs, oncePerNumber_snoc]
  · refine Or.inl ⟨h, ?_⟩
    have hn : r ∉ capstoneRegs.map (·.1) := by
      intro hm
      have : ∀ x ∈ capstoneRegs.map (·.1), x ∈ Spec.coreRegs := by decide
      exact h (this r hm)
    unfold addMemReg
    rw [(dictGet_eq_none _ _).2 hn]

theorem addOperand_exact (l : List Nat) (o : Operand) :
    (Spec.Foreign o ∧ addOperand (Spec.oncePerNumber l) o = .error .key) ∨
    (¬ Spec.Foreign o ∧ addOperand (Spec.oncePerNumber l) o
      = .ok (Spec.oncePerNumber (l ++ Spec.saidOf o))) := by
  cases o with
  | reg r =>
    refine Or.inr ⟨id, ?_⟩
    show Except.ok _ = _
    rw [operandReg_eq, ← oncePerNumber_snoc]
    rfl
  | mem b i =>
    rcases addMemReg_exact l b with ⟨hb, eb⟩ | ⟨hb, eb⟩
    · refine Or.inl ⟨Or.inl hb, ?_⟩
      show (addMemReg (Spec.oncePerNumber l) b >>= fun l => addMemReg l i) = _
      rw [eb]; rfl
    · rcases addMemReg_exact (l ++ Spec.addressReg b) i with ⟨hi, ei⟩ | ⟨hi, ei⟩
      · refine Or.inl ⟨Or.inr hi, ?_⟩
        show (addMemReg (Spec.oncePerNumber l) b >>= fun l => addMemReg l i) = _
        rw [eb]
        exact ei
      · refine Or.inr ⟨by rintro (h | h); exacts [h hb, h hi], ?_⟩
        show (addMemReg (Spec.oncePerNumber l) b >>= fun l => addMemReg l i) = _
        rw [eb]
        refine ei.trans ?_
        rw [List.append_assoc]
        rfl
  | imm v => exact Or.inr ⟨id, by simp [addOperand, Spec.saidOf]⟩
  | other => exact Or.inr ⟨id, by simp [addOperand, Spec.saidOf]⟩

theorem foldOperands_exact : ∀ (os : List Operand) (l : List Nat),
    ((∃ o ∈ os, Spec.Foreign o) ∧ os.foldlM addOperand (Spec.oncePerNumber l) = .error .key) ∨
    ((∀ o ∈ os, ¬ Spec.Foreign o) ∧ os.foldlM addOperand (Spec.oncePerNumber l)
      = .ok (Spec.oncePerNumber (l ++ os.flatMap Spec.saidOf)))
  | [], l => Or.inr ⟨by simp, by simp [pure, Except.pure]⟩
  | o :: os, l => by
    rw [List.foldlM_cons]
    rcases addOperand_exact l o with ⟨ho, eo⟩ | ⟨ho, eo⟩
    · refine Or.inl ⟨⟨o, List.mem_cons_self, ho⟩, ?_⟩
      rw [eo]; rfl
    · rw [eo]
      rcases foldOperands_exact os (l ++ Spec.saidOf o) with ⟨⟨o', hm, h'⟩, e⟩ | ⟨h', e⟩
      · exact Or.inl ⟨⟨o', List.mem_cons_of_mem _ hm, h'⟩, e⟩
      · refine Or.inr ⟨?_, ?_⟩
        · intro o' hm
          rcases List.mem_cons.1 hm with rfl | hm
          · exact ho
          · exact h' o' hm
        · refine e.trans ?_
          rw [List.flatMap_cons, List.append_assoc]

/-- **C54, exactly**: of every decoded instruction the registers used are the stack
pointer, for push and pop, and then those of the operands in order, each once, where R0
is left out as base and as index; the query raises `KeyError` exactly when a memory
operand has a register outside the ARM core. -/
theorem C54_exact (i : CapsInst) (c : CapInst) (hc : i.cap = some c) :
    ((∃ o ∈ c.operands, Spec.Foreign o) ∧ i.registersUsed = .error .key) ∨
    ((∀ o ∈ c.operands, ¬ Spec.Foreign o) ∧
      i.registersUsed = .ok (Spec.oncePerNumber (Spec.said c (StackOp c)))) := by
  unfold CapsInst.registersUsed
  rw [hc]
  have hs : (if i.isPushPop = true then [13] else [])
      = Spec.oncePerNumber (if StackOp c then [13] else []) := by
    by_cases h : StackOp c
    · rw [if_pos h, if_pos ((isPushPop_iff hc).2 h)]
      rfl
    · rw [if_neg h, if_neg fun e => h ((isPushPop_iff hc).1 e)]
      rfl
  simp only
  rw [hs]
  exact foldOperands_exact c.operands _

theorem mem_used {i : CapsInst} {c : CapInst} (hc : i.cap = some c) {u : List Nat}
    (hu : i.registersUsed = .ok u) (x : Nat) :
    x ∈ u ↔ (StackOp c ∧ x = 13) ∨ ∃ o ∈ c.operands, x ∈ Spec.saidOf o := by
  rcases C54_exact i c hc with ⟨-, e⟩ | ⟨-, e⟩
  · rw [e] at hu; cases hu
  · rw [e] at hu
    cases hu
    rw [mem_oncePerNumber]
    unfold Spec.said
    rw [List.mem_append, List.mem_flatMap]
    by_cases h : StackOp c <;> simp [h]

theorem armNumber_zero (r : Nat) : Spec.armNumber r = 0 ↔ r = 66 := by
  unfold Spec.armNumber
  constructor
  · intro h
    split_ifs at h <;> omega
  · rintro rfl
    rfl

/-- **C54, exactly what is missing**: a number of a register named by an operand is not
listed exactly if it is that of R0 and R0 is only a base or an index. -/
theorem C54_missing_exact (i : CapsInst) (c : CapInst) (hc : i.cap = some c) (u : List Nat)
    (hu : i.registersUsed = .ok u) (hr : ∀ o ∈ c.operands, RealReg o) (x : Nat) :
    (x ∉ u ∧ ∃ o ∈ c.operands, x ∈ namedRegs o) ↔
      x = 0 ∧ (∃ b j, .mem b j ∈ c.operands ∧ (b = 66 ∨ j = 66)) ∧ .reg 66 ∉ c.operands := by
  rw [mem_used hc hu]
  constructor
  · rintro ⟨hx, o, ho, hn⟩
    have hno : x ∉ Spec.saidOf o := fun h => hx (Or.inr ⟨o, ho, h⟩)
    have h0 : ∀ r, r ≠ 0 → x = Spec.armNumber r → x ∉ Spec.addressReg r → r = 66 ∧ x = 0 := by
      intro r hr hx' hs
      unfold Spec.addressReg at hs
      by_cases h66 : r = 66
      · exact ⟨h66, hx'.trans ((armNumber_zero r).2 h66)⟩
      · rw [if_neg (by tauto)] at hs
        exact absurd hx' (by simpa using hs)
    have hz : x = 0 ∧ ∃ b j, .mem b j ∈ c.operands ∧ (b = 66 ∨ j = 66) := by
      cases o with
      | reg r =>
        have hr' : r ≠ 0 := hr _ ho
        exact absurd hn (by simpa [Spec.saidOf, namedRegs, hr'] using hno)
      | mem b j =>
        simp only [namedRegs, List.mem_append] at hn
        simp only [Spec.saidOf, List.mem_append, not_or] at hno
        rcases hn with hn | hn
        · by_cases hb : b = 0
          · simp [hb] at hn
          · rw [if_neg hb, List.mem_singleton] at hn
            obtain ⟨h1, h2⟩ := h0 b hb hn hno.1
            exact ⟨h2, b, j, ho, Or.inl h1⟩
        · by_cases hb : j = 0
          · simp [hb] at hn
          · rw [if_neg hb, List.mem_singleton] at hn
            obtain ⟨h1, h2⟩ := h0 j hb hn hno.2
            exact ⟨h2, b, j, ho, Or.inr h1⟩
      | imm v => simp [namedRegs] at hn
      | other => simp [namedRegs] at hn
    refine ⟨hz.1, hz.2, fun h66 => hx (Or.inr ⟨_, h66, ?_⟩)⟩
    rw [hz.1]
    exact List.mem_singleton.2 (by rw [if_neg (by omega)]; exact ((armNumber_zero 66).2 rfl).symm)
  · rintro ⟨rfl, ⟨b, j, hm, h⟩, h66⟩
    refine ⟨?_, _, hm, ?_⟩
    · rintro (⟨-, h⟩ | ⟨o, ho, h⟩)
      · omega
      · cases o with
        | reg r =>
          have hr' : r ≠ 0 := hr _ ho
          simp only [Spec.saidOf, hr', if_false, List.mem_singleton] at h
          rw [(armNumber_zero r).1 h.symm] at ho
          exact h66 ho
        | mem b j =>
          have key : ∀ r, 0 ∉ Spec.addressReg r := by
            intro r hr
            unfold Spec.addressReg at hr
            split at hr
            · cases hr
            · rename_i hn
              rw [List.mem_singleton] at hr
              exact hn (Or.inr ((armNumber_zero r).1 hr.symm))
          rcases List.mem_append.1 h with h | h
          · exact key _ h
          · exact key _ h
        | imm v => cases h
        | other => cases h
    · have hz : (0 : Nat) = Spec.armNumber 66 := rfl
      rcases h with rfl | rfl
      · exact List.mem_append_left _ (by simp [← hz])
      · exact List.mem_append_right _ (by simp [← hz])

/-- **C54, exactly what is read and written**: a pop writes all it uses and reads the
stack pointer; a push writes nothing and reads all it uses, the stack pointer last; any
other instruction writes the first register it uses and reads the others. -/
theorem C54_split_exact (i : CapsInst) (c : CapInst) (hc : i.cap = some c) (u : List Nat)
    (hu : i.registersUsed = .ok u) :
    ("pop".toList <+: c.text → i.registersWritten = .ok u ∧ i.registersRead = .ok [13]) ∧
    ("push".toList <+: c.text → i.registersWritten = .ok [] ∧
      ∃ t, u = 13 :: t ∧ i.registersRead = .ok (t ++ [13])) ∧
    (¬ StackOp c → i.registersWritten = .ok (u.take 1) ∧ i.registersRead = .ok (u.drop 1)) := by
  refine ⟨?_, ?_, ?_⟩
  · intro hp
    have h1 := (isA_iff hc ['p', 'o', 'p']).2 hp
    have h2 := (isPushPop_iff hc).2 (Or.inr hp)
    unfold CapsInst.registersWritten CapsInst.registersRead CapsInst.readBase
    rw [if_pos h1, if_pos h1, h2]
    exact ⟨hu, rfl⟩
  · intro hp
    have h1 := (isA_iff hc ['p', 'u', 's', 'h']).2 hp
    have h2 := (isPushPop_iff hc).2 (Or.inl hp)
    have h3 : ¬ i.isA ['p', 'o', 'p'] = true := by
      intro h
      rw [not_push_and_pop i h] at h1
      cases h1
    refine ⟨C54_push_refuted i c hc hp, ?_⟩
    obtain ⟨-, t, rfl⟩ := pushPop_head i u hu h2
    refine ⟨t, rfl, ?_⟩
    have hnd := C54_nodup i _ hu
    rw [List.nodup_cons] at hnd
    unfold CapsInst.registersRead CapsInst.readBase
    rw [if_neg h3, hu, h2]
    simp [bind, Except.bind, hnd.1]
  · intro hp
    have h1 : ¬ i.isA ['p', 'o', 'p'] = true := fun e => hp (Or.inr ((isA_iff hc _).1 e))
    have h2 : ¬ i.isA ['p', 'u', 's', 'h'] = true := fun e => hp (Or.inl ((isA_iff hc _).1 e))
    have h3 : i.isPushPop = false := by
      rw [Bool.eq_false_iff]
      exact fun e => hp ((isPushPop_iff hc).1 e)
    unfold CapsInst.registersWritten CapsInst.registersRead CapsInst.readBase
    rw [if_neg h1, if_neg h2, if_neg h1, hu, h3]
    exact ⟨rfl, rfl⟩

/-- `ldrd r1, r2, [r0, r2]`. -/
def ldrdCap : CapInst :=
  { text := "ldrd\tr1, r2, [r0, r2]".toList, id := 5, cc := 15,
    operands := [.reg 67, .reg 68, .mem 66 68] }

/-- `push {r0, sp, lr}`. -/
def pushCap : CapInst :=
  { text := "push\t{r0, sp, lr}".toList, id := 5, cc := 15, operands := [.reg 66, .reg 12, .reg 10] }

/-- A load from a register outside the core. -/
def foreignCap : CapInst :=
  { text := "ldr\tr0, [x]".toList, id := 5, cc := 15, operands := [.reg 66, .mem 80 0] }

example : ({ ldrR0 with cap := some ldrdCap } : CapsInst).registersUsed = .ok [1, 2] := by decide
example : ({ ldrR0 with cap := some pushCap } : CapsInst).registersRead = .ok [0, 14, 13] := by decide
example : ({ ldrR0 with cap := some foreignCap } : CapsInst).registersUsed = .error .key := by decide
example : Spec.oncePerNumber (Spec.said pushCap (StackOp pushCap)) = [13, 0, 14] := by decide

end Verif
