import Verif.Model.ArmInstruction
import Verif.Props.Instruction

/-! # C79–C81: building instructions and the older decoders -/

namespace Verif
open Spec

/-! ### C79 -/

/-- **C79**: the bytes handed to the disassembler are the bytes of the word,
least significant first, and every integer outside 32 bits is rejected. -/
theorem C79_bytes (v : Int) :
    (∀ n : Nat, v = n → n < 2 ^ 32 → encodingBytes v = .ok ((List.range 4).map (byteOf n)))
      ∧ (v < 0 ∨ 2 ^ 32 ≤ v → encodingBytes v = .error .overflow) := by
  constructor
  · rintro n rfl h
    unfold encodingBytes
    rw [if_neg (by omega)]
    simp [byteOf, List.range, List.range.loop]
  · intro h
    unfold encodingBytes
    rw [if_pos (by omega)]

example : encodingBytes 0xe59f0010 = .ok [0x10, 0x00, 0x9f, 0xe5] := by decide

/-! ### C80 -/

theorem armField_eq (encoding h l : Nat) (hl : l ≤ h) (h32 : h < 32) :
    armField encoding h l = .ok (encoding / 2 ^ l % 2 ^ (h + 1 - l)) := by
  unfold armField
  rw [bitsSet_ok (by omega) (by omega) (by omega)]
  simp only [bind, Except.bind, Except.ok.injEq]
  apply Nat.eq_of_testBit_eq
  intro i
  rw [Nat.testBit_shiftRight, Nat.testBit_and, Nat.testBit_mod_two_pow, Nat.testBit_div_two_pow,
    show ((h : Int) + 1).toNat = h + 1 by omega, show ((l : Int)).toNat = l by omega,
    testBit_mask _ _ _ (by omega)]
  rw [Bool.and_comm, Nat.add_comm l i]
  congr 1
  simp
  omega

theorem and_field (encoding w l : Nat) :
    encoding &&& ((2 ^ w - 1) * 2 ^ l) = encoding / 2 ^ l % 2 ^ w * 2 ^ l := by
  apply Nat.eq_of_testBit_eq
  intro i
  rw [Nat.testBit_and, Nat.testBit_mul_two_pow, Nat.testBit_mul_two_pow]
  by_cases h : l ≤ i
  · rw [Nat.testBit_mod_two_pow, Nat.testBit_div_two_pow, Nat.testBit_two_pow_sub_one, Nat.sub_add_cancel h]
    simp only [h, decide_true, Bool.true_and]
    rw [Bool.and_comm]
  · simp [h]

theorem armType_eq (encoding : Nat) : armType encoding = encoding / 2 ^ 25 % 8 * 2 ^ 25 := by
  unfold armType
  exact and_field encoding 3 25

/-- **C80 (fields)**: for every encoding the condition, the type, the opcode and the
register fields are the bits the ARM manual names. The opcode of a branch is its
type. -/
theorem C80_fields (encoding : Nat) :
    armRn encoding = .ok (encoding / 2 ^ 16 % 16) ∧ armRd encoding = .ok (encoding / 2 ^ 12 % 16)
      ∧ armRs encoding = .ok (encoding / 2 ^ 8 % 16) ∧ armRm encoding = encoding % 16
      ∧ armCond encoding = encoding / 2 ^ 28 % 16 * 2 ^ 28
      ∧ armType encoding = encoding / 2 ^ 25 % 8 * 2 ^ 25
      ∧ armOpcode encoding = .ok (if encoding / 2 ^ 25 % 8 = 5 then 5 * 2 ^ 25
          else encoding / 2 ^ 21 % 16 * 2 ^ 21) := by
  refine ⟨armField_eq _ 19 16 (by omega) (by omega), armField_eq _ 15 12 (by omega) (by omega),
    armField_eq _ 11 8 (by omega) (by omega), ?_, and_field encoding 4 28, armType_eq encoding, ?_⟩
  · exact Nat.and_two_pow_sub_one_eq_mod encoding 4
  · unfold armOpcode
    simp only [armType_eq, typeBranch, typeSWI]
    by_cases h : encoding / 2 ^ 25 % 8 = 5
    · rw [if_pos h, if_pos (by omega), h]
    · rw [if_neg h, if_neg (by omega), bitsSet_ok (by omega) (by omega) (by omega)]
      simp only [bind, Except.bind, Except.ok.injEq]
      exact and_field encoding 4 21

/-- **C80 (used)**: the query never fails, and for every encoding these are the
registers used. Of data processing (types 0 and 1) the destination counts for the
opcodes 0 to 6, 12 and 14 only; the register shift and the register operand for
type 0 only. -/
theorem C80_used (encoding : Nat) :
    armUsed encoding = .ok (match encoding / 2 ^ 25 % 8 with
      | 0 => [encoding / 2 ^ 16 % 16]
          ++ (if encoding / 2 ^ 21 % 16 ∈ [0, 1, 2, 3, 4, 5, 6, 12, 14] then [encoding / 2 ^ 12 % 16] else [])
          ++ [encoding % 16] ++ (if encoding.testBit 4 then [encoding / 2 ^ 8 % 16] else [])
      | 1 => [encoding / 2 ^ 16 % 16]
          ++ (if encoding / 2 ^ 21 % 16 ∈ [0, 1, 2, 3, 4, 5, 6, 12, 14] then [encoding / 2 ^ 12 % 16] else [])
      | 2 => [encoding / 2 ^ 16 % 16, encoding / 2 ^ 12 % 16]
      | 3 => [encoding / 2 ^ 16 % 16, encoding / 2 ^ 12 % 16, encoding % 16]
      | 4 => encoding / 2 ^ 16 % 16 :: (List.range 16).filter fun r => encoding.testBit r
      | _ => []) := by
  obtain ⟨h1, h2, h3, h4, _, h5, h6⟩ := C80_fields encoding
  have hl : registerList encoding [] = (List.range 16).filter fun r => encoding.testBit r := by
    unfold registerList forRange
    rw [registerList_prefix]
    simp [isOn_eq_testBit]
  have hk : encoding / 2 ^ 25 % 8 < 8 := Nat.mod_lt _ (by omega)
  have ho : encoding / 2 ^ 21 % 16 < 16 := Nat.mod_lt _ (by omega)
  unfold armUsed armUsedDP
  rw [h1, h2, h3, h4, h5, h6, hl, isOn_eq_testBit]
  generalize encoding / 2 ^ 25 % 8 = k at *
  generalize encoding / 2 ^ 21 % 16 = o at *
  simp only [typeDPI, typeLS, typeLSO, typeLSM, bind, Except.bind]
  have hop : ((2 ^ 21 ≤ o * 2 ^ 21 ∧ o * 2 ^ 21 < 7 * 2 ^ 21) ∨ o * 2 ^ 21 = 0 ∨ o * 2 ^ 21 = 14 * 2 ^ 21
      ∨ o * 2 ^ 21 = 12 * 2 ^ 21) ↔ o ∈ [0, 1, 2, 3, 4, 5, 6, 12, 14] := by
    simp only [List.mem_cons, List.not_mem_nil, or_false]
    omega
  have hcase : k = 0 ∨ k = 1 ∨ k = 2 ∨ k = 3 ∨ k = 4 ∨ k = 5 ∨ k = 6 ∨ k = 7 := by omega
  rcases hcase with rfl | rfl | rfl | rfl | rfl | rfl | rfl | rfl
  · simp only [hop, show ¬ (0 : Nat) = 5 by omega, if_false, Nat.zero_mul, Nat.zero_le, if_true, true_and]
    by_cases hm : o ∈ [0, 1, 2, 3, 4, 5, 6, 12, 14] <;> cases encoding.testBit 4 <;> simp only [hm, if_true, if_false,
      List.append_nil, List.append_assoc, Bool.false_eq_true]
  · simp only [show ¬ (1 : Nat) = 5 by omega, if_false, hop]
    simp only [Nat.one_mul, Nat.reducePow, Nat.reduceEqDiff,
      Nat.le_refl, if_true, false_and]
    by_cases hm : o ∈ [0, 1, 2, 3, 4, 5, 6, 12, 14] <;> simp only [hm, if_true, if_false, List.append_nil]
  all_goals rfl

/-- **C80 (written)**: the destination for data processing and single transfers,
nothing for types 5 to 7. **It is false** for every load or store of several
registers (type 4): the query raises `TypeError`. -/
theorem C80_written_refuted (encoding : Nat) :
    armWritten encoding = if encoding / 2 ^ 25 % 8 < 4 then .ok [encoding / 2 ^ 12 % 16]
      else if encoding / 2 ^ 25 % 8 = 4 then .error .type else .ok [] := by
  obtain ⟨h1, h2, h3, h4, _, h5, h6⟩ := C80_fields encoding
  have hk : encoding / 2 ^ 25 % 8 < 8 := Nat.mod_lt _ (by omega)
  unfold armWritten
  rw [h2, h5]
  simp only [typeDPI, typeLS, typeLSO, typeLSM, bind, Except.bind]
  generalize encoding / 2 ^ 25 % 8 = k at *
  have hcase : k = 0 ∨ k = 1 ∨ k = 2 ∨ k = 3 ∨ k = 4 ∨ k = 5 ∨ k = 6 ∨ k = 7 := by omega
  rcases hcase with rfl | rfl | rfl | rfl | rfl | rfl | rfl | rfl <;> rfl

/-- `ldmia r0, {r1}` is one. -/
example : 0xe8900002 / 2 ^ 25 % 8 = 4 := by decide

/-- **C80 (read)**: the base for several registers, and otherwise the registers
used without one occurrence of bits 12 to 15. **It is false** whenever these are
not among the registers used: the query raises `ValueError`. -/
theorem C80_read_refuted (encoding : Nat) (u : List Nat) (hu : armUsed encoding = .ok u)
    (h4 : encoding / 2 ^ 25 % 8 ≠ 4) :
    (encoding / 2 ^ 12 % 16 ∉ u → armRead encoding = .error .value) ∧
    (encoding / 2 ^ 12 % 16 ∈ u → ∃ r, armRead encoding = .ok r ∧ u.Perm (encoding / 2 ^ 12 % 16 :: r)) := by
  obtain ⟨_, h2, _, _, _, h5, _⟩ := C80_fields encoding
  unfold armRead
  rw [h5, h2, hu, if_neg (by unfold typeLSM; omega)]
  simp only [bind, Except.bind, pyRemove]
  constructor
  · intro hm
    rw [if_neg hm]
  · intro hm
    rw [if_pos hm]
    exact ⟨_, rfl, List.perm_cons_erase hm⟩

/-- **C80 (read, several registers)**: of a load or store of several registers (type 4)
exactly the base counts as read, though its register list is used; so for every
nonempty list the query of registers written fails and the registers read alone are not
those used. -/
theorem C80_read_multiple (encoding : Nat) (h : encoding / 2 ^ 25 % 8 = 4) :
    armRead encoding = .ok [encoding / 2 ^ 16 % 16] ∧
      armUsed encoding = .ok (encoding / 2 ^ 16 % 16 :: (List.range 16).filter fun r => encoding.testBit r) := by
  obtain ⟨h1, _, _, _, _, h5, _⟩ := C80_fields encoding
  constructor
  · unfold armRead
    rw [h5, h, if_pos (by unfold typeLSM; rfl), h1]
    rfl
  · rw [C80_used, h]; rfl

/-- `ldmia r0, {r1}`. -/
example : armRead 0xe8900002 = .ok [0] ∧ armUsed 0xe8900002 = .ok [0, 1] := by decide

/-- Every branch, and every `mov` of one register to another which is not the one
in the first-operand bits, is such a case. -/
theorem C80_read_fails (encoding : Nat)
    (h : encoding / 2 ^ 25 % 8 = 5 ∨
      encoding / 2 ^ 25 % 8 = 1 ∧ encoding / 2 ^ 21 % 16 = 13 ∧ encoding / 2 ^ 16 % 16 ≠ encoding / 2 ^ 12 % 16) :
    armRead encoding = .error .value := by
  have hu := C80_used encoding
  refine (C80_read_refuted encoding _ hu (by omega)).1 ?_
  rcases h with h | ⟨h, ho, hne⟩
  · rw [h]
    simp
  · rw [h, ho]
    simp only [List.mem_append, List.mem_singleton]
    rintro (e | e)
    · exact hne e.symm
    · rw [if_neg (by decide)] at e
      simp at e

/-- `b` and `mov r1, #1`. -/
example : 0xea000000 / 2 ^ 25 % 8 = 5 ∧ armRead 0xe3a01001 = .error .value := by decide

/-- **C80 (software interrupts)**: bit 24 is not part of the type, so no encoding
has the type of software interrupts, and these count as using nothing. -/
theorem C80_swi_never (encoding : Nat) : armType encoding ≠ 0xF000000 := by
  rw [armType_eq]
  omega

/-- **C80, what holds**: for single loads and stores and for data processing with
a destination that the code knows, all three queries succeed, and the registers
used are those read and the one written. Missing: multiple transfers, branches
and the other data processing (refuted above). -/
theorem C80_load_store_partial (encoding : Nat)
    (h : encoding / 2 ^ 25 % 8 = 2 ∨ encoding / 2 ^ 25 % 8 = 3 ∨
      encoding / 2 ^ 25 % 8 < 2 ∧ encoding / 2 ^ 21 % 16 ∈ [0, 1, 2, 3, 4, 5, 6, 12, 14]) :
    ∃ u r w, armUsed encoding = .ok u ∧ armRead encoding = .ok r ∧ armWritten encoding = .ok [w]
      ∧ u.Perm (w :: r) := by
  have hu := C80_used encoding
  obtain ⟨r, hr, hp⟩ := (C80_read_refuted encoding _ hu (by omega)).2 (by
    rcases h with h | h | ⟨h, ho⟩
    · rw [h]; simp
    · rw [h]; simp
    · have : encoding / 2 ^ 25 % 8 = 0 ∨ encoding / 2 ^ 25 % 8 = 1 := by omega
      rcases this with h | h <;> rw [h] <;> simp only [if_pos ho] <;> simp)
  refine ⟨_, r, _, hu, hr, ?_, hp⟩
  rw [C80_written_refuted, if_pos (by omega)]

/-- `ldr r1, [r2]` and `add r1, r2, r3, lsl r4`. -/
example : 0xe5921000 / 2 ^ 25 % 8 = 2 ∧ armUsed 0xe5921000 = .ok [2, 1]
    ∧ armRead 0xe5921000 = .ok [2] ∧ armWritten 0xe5921000 = .ok [1]
    ∧ armUsed 0xe0821413 = .ok [2, 1, 3, 4] ∧ armRead 0xe0821413 = .ok [2, 3, 4] := by decide

/-! ### C81 -/

theorem hasInfix_iff (w : List Char) : ∀ t : List Char, hasInfix w t = true ↔ w <:+: t
  | [] => by simp [hasInfix]
  | c :: t => by
    rw [hasInfix, Bool.or_eq_true, List.isPrefixOf_iff_prefix, hasInfix_iff w t, List.infix_cons_iff]

theorem instIs_one (d : Darm) (w : List Char) : d.instIs [w] = true ↔ w <:+: d.name := by
  unfold Darm.instIs
  simp [hasInfix_iff]

/-- The comparisons, which write the flags. -/
def Compares (name : List Char) : Prop :=
  ∃ w ∈ ["tst".toList, "teq".toList, "cmp".toList, "cmn".toList], w <:+: name

theorem instIs_cmp (d : Darm) :
    d.instIs [['t','s','t'], ['t','e','q'], ['c','m','p'], ['c','m','n']] = true ↔ Compares d.name := by
  unfold Darm.instIs Compares
  rw [List.any_eq_true]
  simp only [hasInfix_iff]
  rfl

/-- **C81 (written) is false**: with a register list and any other register
written, every register written is listed twice. -/
theorem C81_written_refuted (d : Darm) (h : d.reglist > 0) (hp : ¬ "push".toList <:+: d.name)
    (hr : d.rt.isSome ∨ d.rd.isSome ∨ d.s = true ∨ Compares d.name) :
    ∃ l, l ≠ [] ∧ d.written = l ++ l := by
  have hp : d.instIs [['p','u','s','h']] = false := by
    rw [Bool.eq_false_iff]
    exact fun e => hp ((instIs_one d _).1 e)
  rw [← instIs_cmp] at hr
  unfold Darm.written
  simp only
  rw [if_pos (by simp [h, hp])]
  have hne : ((if (d.s || d.instIs [['t','s','t'], ['t','e','q'], ['c','m','p'], ['c','m','n']]) = true
      then [17] else []) ++ d.rt.toList ++ d.rd.toList : List Nat).isEmpty = false := by
    rw [List.isEmpty_eq_false_iff]
    rcases hr with hr | hr | hr | hr
    · obtain ⟨x, hx⟩ := Option.isSome_iff_exists.1 hr; simp [hx]
    · obtain ⟨x, hx⟩ := Option.isSome_iff_exists.1 hr; simp [hx]
    · simp [hr]
    · simp [hr]
  rw [hne]
  simp only [Bool.false_eq_true, if_false]
  refine ⟨_, ?_, rfl⟩
  unfold registerList forRange
  rw [registerList_prefix]
  rw [List.isEmpty_eq_false_iff] at hne
  simp only [ne_eq, List.append_eq_nil_iff, not_and]
  intro e
  exact absurd (by simpa using e) (by simpa using hne)

theorem mem_registerList (mask : Nat) (r : List Nat) (x : Nat) :
    x ∈ registerList mask r ↔ x ∈ r ∨ x < 16 ∧ mask.testBit x = true := by
  unfold registerList forRange
  rw [registerList_prefix]
  simp only [List.mem_append, List.mem_filter, List.mem_range, isOn_eq_testBit]
  by_cases hx : x ∈ r <;> simp [hx]

/-- **C81, what holds**: used is written followed by read. Written are the flags for
comparisons and instructions that set them, `Rt`, `Rd` and, except for push, the
register list; read are `Rn`, `Rs`, `Rm`, the flags for conditional instructions and,
for push, the register list. Missing: no repetition, which is false
(`C81_written_refuted`). -/
theorem C81_partial (d : Darm) : d.used = d.written ++ d.read
    ∧ (∀ x, x ∈ d.written ↔ (x = 17 ∧ (d.s = true ∨ Compares d.name)) ∨ d.rt = some x ∨ d.rd = some x
        ∨ (¬ "push".toList <:+: d.name ∧ x < 16 ∧ d.reglist.testBit x = true))
    ∧ (∀ x, x ∈ d.read ↔ d.rn = some x ∨ d.rs = some x ∨ d.rm = some x ∨ (x = 17 ∧ d.cond ≠ 14)
        ∨ ("push".toList <:+: d.name ∧ x < 16 ∧ d.reglist.testBit x = true)) := by
  have hpush : "push".toList <:+: d.name ↔ d.instIs [['p','u','s','h']] = true := (instIs_one d _).symm
  have h0 : ∀ x, d.reglist.testBit x = true → d.reglist > 0 := by
    intro x hx
    rcases Nat.eq_zero_or_pos d.reglist with h | h
    · rw [h] at hx; simp at hx
    · exact h
  refine ⟨rfl, ?_, ?_⟩
  · intro x
    rw [hpush, ← instIs_cmp]
    have hb : ∀ r : List Nat, r = (if (d.s || d.instIs [['t','s','t'], ['t','e','q'], ['c','m','p'], ['c','m','n']]) = true
        then [17] else []) ++ d.rt.toList ++ d.rd.toList → (x ∈ r ↔ (x = 17 ∧ (d.s = true ∨
        d.instIs [['t','s','t'], ['t','e','q'], ['c','m','p'], ['c','m','n']] = true)) ∨ d.rt = some x ∨ d.rd = some x) := by
      rintro r rfl
      rw [← Bool.or_eq_true]
      split <;> rename_i h <;> simp [h] <;> tauto
    unfold Darm.written
    simp only
    have hb := hb _ rfl
    generalize (if (d.s || d.instIs [['t','s','t'], ['t','e','q'], ['c','m','p'], ['c','m','n']]) = true
        then [17] else []) ++ d.rt.toList ++ d.rd.toList = r at hb ⊢
    split
    · rename_i hc
      simp only [Bool.and_eq_true, decide_eq_true_eq, Bool.not_eq_true'] at hc
      split
      · rename_i he
        rw [mem_registerList]
        have : x ∉ r := by rw [List.isEmpty_iff.1 he]; simp
        simp [hc.2]
        tauto
      · rw [List.mem_append, or_self, mem_registerList, hb]
        simp [hc.2]
        tauto
    · rename_i hc
      simp only [Bool.and_eq_true, decide_eq_true_eq, Bool.not_eq_true', not_and, Bool.not_eq_false] at hc
      rw [hb]
      constructor
      · tauto
      · rintro (h | h | h | ⟨h1, h2, h3⟩)
        · exact Or.inl h
        · exact Or.inr (Or.inl h)
        · exact Or.inr (Or.inr h)
        · exact absurd (hc (h0 x h3)) h1
  · intro x
    rw [hpush]
    unfold Darm.read
    simp only [Bool.and_eq_true, decide_eq_true_eq]
    have hb : ∀ r : List Nat, r = (if d.cond ≠ 14 then d.rn.toList ++ d.rs.toList ++ d.rm.toList ++ [17] else
        d.rn.toList ++ d.rs.toList ++ d.rm.toList) → (x ∈ r ↔ d.rn = some x ∨ d.rs = some x ∨ d.rm = some x ∨
        (x = 17 ∧ d.cond ≠ 14)) := by
      rintro r rfl
      split <;> rename_i h <;> simp [h] <;> tauto
    have hb := hb _ rfl
    generalize (if d.cond ≠ 14 then d.rn.toList ++ d.rs.toList ++ d.rm.toList ++ [17] else
        d.rn.toList ++ d.rs.toList ++ d.rm.toList) = r at hb ⊢
    generalize d.instIs [['p','u','s','h']] = ps at *
    split
    · rename_i hc
      rw [List.mem_append, mem_registerList, hb]
      simp only [hc.1, List.not_mem_nil, false_or, true_and, or_assoc]
    · rename_i hc
      rw [hb]
      constructor
      · rintro (h | h | h | h)
        · exact Or.inl h
        · exact Or.inr (Or.inl h)
        · exact Or.inr (Or.inr (Or.inl h))
        · exact Or.inr (Or.inr (Or.inr (Or.inl h)))
      · rintro (h | h | h | h | ⟨h1, h2, h3⟩)
        · exact Or.inl h
        · exact Or.inr (Or.inl h)
        · exact Or.inr (Or.inr (Or.inl h))
        · exact Or.inr (Or.inr (Or.inr h))
        · exact absurd ⟨h1, h0 x h3⟩ hc

/-- A load of several registers that also names a destination. -/
example : (Darm.mk ['l','d','m'] false none (some 3) none none none 3 14).written
    = [3, 0, 1, 3, 0, 1] := by decide

/-! ### C92 -/

/-- **C92**: if the disassembler numbers the sixteen conditions from one, in the order of
the bits, the condition of an instruction it understands is the number in the four
highest bits of the encoding; the older decoder gives the same four bits unshifted.
Without a disassembled instruction the query raises `AttributeError`. -/
theorem C92_condition (i : CapsInst) (h32 : i.encoding < 2 ^ 32) :
    (∀ c, i.cap = some c → c.cc = ((i.encoding / 2 ^ 28 : Nat) : Int) + 1 →
      ∃ n : Nat, n < 16 ∧ i.condField = .ok (n : Int) ∧ armCond i.encoding = n * 2 ^ 28 ∧
        ∀ j < 4, n.testBit j = i.encoding.testBit (28 + j)) ∧
    (i.cap = none → i.condField = .error .attribute) := by
  constructor
  · intro c hc hcc
    refine ⟨i.encoding / 2 ^ 28, by omega, ?_, ?_, ?_⟩
    · unfold CapsInst.condField
      rw [hc]
      simp only [hcc, Int.add_sub_cancel]
    · rw [(C80_fields i.encoding).2.2.2.2.1, Nat.mod_eq_of_lt (by omega)]
    · intro j _
      rw [Nat.testBit_div_two_pow, Nat.add_comm]
  · intro hc
    unfold CapsInst.condField
    rw [hc]

/-- `bne`: condition 1. -/
example : CapsInst.condField ⟨some ⟨[], 0, 2, [], false⟩, 0x1a000000, 0, [], [], [], none⟩ = .ok 1 ∧ 0x1a000000 / 2 ^ 28 = 1 := by decide

end Verif
