import Verif.Model.Instruction
import Verif.Spec.Instruction
import Verif.Proof.Bits
import Verif.Proof.Basic

/-! # C51–C56: instructions -/

namespace Verif
open Spec

/-! ### C51 -/

theorem isOn_eq_testBit (v n : Nat) : isOn v n = v.testBit n := by
  unfold isOn
  rw [Nat.and_two_pow]
  cases h : v.testBit n <;> simp

theorem bytes_of (v : Nat) (h : v < 2 ^ 32) : ∃ a b c d, a < 256 ∧ b < 256 ∧ c < 256 ∧ d < 256 ∧
    v = a + 256 * b + 65536 * c + 16777216 * d :=
  ⟨v % 256, v / 256 % 256, v / 65536 % 256, v / 16777216, by omega, by omega, by omega, by omega,
    by omega⟩

theorem reverseWord_bytes {a b c d : Nat} (ha : a < 256) (hb : b < 256) (hc : c < 256)
    (hd : d < 256) :
    reverseWord ((a + 256 * b + 65536 * c + 16777216 * d : Nat) : Int)
      = .ok (d + 256 * c + 65536 * b + 16777216 * a) := by
  unfold reverseWord packBE
  rw [if_neg (by omega)]
  simp only [bind, Except.bind, Int.toNat_natCast, unpackLE, Nat.reducePow]
  have h1 : (a + 256 * b + 65536 * c + 16777216 * d) / 16777216 % 256 = d := by omega
  have h2 : (a + 256 * b + 65536 * c + 16777216 * d) / 65536 % 256 = c := by omega
  have h3 : (a + 256 * b + 65536 * c + 16777216 * d) / 256 % 256 = b := by omega
  have h4 : (a + 256 * b + 65536 * c + 16777216 * d) % 256 = a := by omega
  rw [h1, h2, h3, h4]
  congr 1
  omega

theorem byteOf_bytes {a b c d : Nat} (ha : a < 256) (hb : b < 256) (hc : c < 256) (hd : d < 256) :
    byteOf (a + 256 * b + 65536 * c + 16777216 * d) 0 = a
      ∧ byteOf (a + 256 * b + 65536 * c + 16777216 * d) 1 = b
      ∧ byteOf (a + 256 * b + 65536 * c + 16777216 * d) 2 = c
      ∧ byteOf (a + 256 * b + 65536 * c + 16777216 * d) 3 = d := by
  unfold byteOf
  simp only [Nat.reducePow, Nat.div_one]
  refine ⟨?_, ?_, ?_, ?_⟩ <;> omega

/-- **C51 (permutation)**: on a 32-bit word the reversal succeeds with a 32-bit
word whose byte `k` is byte `3 - k` of the given one. -/
theorem C51_bytes (v : Nat) (h : v < 2 ^ 32) :
    ∃ r : Nat, reverseWord v = .ok r ∧ r < 2 ^ 32 ∧ ∀ k < 4, byteOf r k = byteOf v (3 - k) := by
  obtain ⟨a, b, c, d, ha, hb, hc, hd, rfl⟩ := bytes_of v h
  refine ⟨_, reverseWord_bytes ha hb hc hd, by omega, ?_⟩
  intro k hk
  obtain rfl | rfl | rfl | rfl : k = 0 ∨ k = 1 ∨ k = 2 ∨ k = 3 := by omega
  all_goals simp only [Nat.reduceSub, byteOf_bytes ha hb hc hd, byteOf_bytes hd hc hb ha]

/-- **C51 (involution)**: reversing twice gives the word back. -/
theorem C51_involution (v : Nat) (h : v < 2 ^ 32) :
    ∃ r : Nat, reverseWord v = .ok r ∧ reverseWord r = .ok v := by
  obtain ⟨a, b, c, d, ha, hb, hc, hd, rfl⟩ := bytes_of v h
  exact ⟨_, reverseWord_bytes ha hb hc hd, reverseWord_bytes hd hc hb ha⟩

/-- **C51 (rejections)**: any other integer raises `struct.error`. -/
theorem C51_rejections (v : Int) (h : v < 0 ∨ 2 ^ 32 ≤ v) : reverseWord v = .error .struct := by
  unfold reverseWord packBE
  rw [if_pos (by omega)]
  rfl

theorem length_eq_eight {α : Type} (s : List α) (h : s.length = 8) :
    ∃ a b c d e f g i, s = [a, b, c, d, e, f, g, i] := by
  match s, h with
  | [a, b, c, d, e, f, g, i], _ => exact ⟨a, b, c, d, e, f, g, i, rfl⟩

theorem not_blank_of_isHex {c : Char} (h : isHex c) :
    (!(decide (c = ' ') || decide (c = '\t') || decide (c = '\n') || decide (c = '\r'))) = true := by
  have h0 : ¬ isHex ' ' ∧ ¬ isHex '\t' ∧ ¬ isHex '\n' ∧ ¬ isHex '\r' := by
    unfold isHex; decide
  simp only [Bool.not_eq_true', Bool.or_eq_false_iff, decide_eq_false_iff_not]
  refine ⟨⟨⟨?_, ?_⟩, ?_⟩, ?_⟩ <;> (rintro rfl; exact absurd h (by simp [h0]))

theorem filter_hex (s : List Char) (h : ∀ c ∈ s, isHex c) :
    (s.filter fun c => !(c = ' ' || c = '\t' || c = '\n' || c = '\r')) = s := by
  rw [List.filter_eq_self]
  exact fun c hc => not_blank_of_isHex (h c hc)

theorem hexDigit_lt (c : Char) : hexDigit c < 16 := by
  unfold hexDigit
  split
  · rename_i h
    have h1 : c.toNat ≤ '9'.toNat := h.2
    have h2 : '0'.toNat ≤ c.toNat := h.1
    have : '9'.toNat = 57 := rfl
    have : '0'.toNat = 48 := rfl
    omega
  · split
    · rename_i h
      have h1 : c.toNat ≤ 'f'.toNat := h.2
      have : 'f'.toNat = 102 := rfl
      have : 'a'.toNat = 97 := rfl
      omega
    · split
      · rename_i h
        have h1 : c.toNat ≤ 'F'.toNat := h.2
        have : 'F'.toNat = 70 := rfl
        have : 'A'.toNat = 65 := rfl
        omega
      · omega

/-- **C51 (text)**: reversing an eight-digit text and reversing the number it
writes are the same, and reversing the text twice gives it back. -/
theorem C51_text (s : List Char) (hl : s.length = 8) (hs : ∀ c ∈ s, isHex c) :
    reverseWord (hexValue hexDigit s) = .ok (hexValue hexDigit (reverseText s))
      ∧ reverseText (reverseText s) = s ∧ (reverseText s).length = 8 := by
  obtain ⟨a, b, c, d, e, f, g, i, rfl⟩ := length_eq_eight s hl
  have hr : reverseText [a, b, c, d, e, f, g, i] = [g, i, e, f, c, d, a, b] := by
    unfold reverseText
    rw [filter_hex _ hs]
    rfl
  have hs' : ∀ x ∈ [g, i, e, f, c, d, a, b], isHex x := by
    intro x hx
    apply hs
    simp only [List.mem_cons, List.not_mem_nil, or_false] at hx ⊢
    tauto
  have hr' : reverseText [g, i, e, f, c, d, a, b] = [a, b, c, d, e, f, g, i] := by
    unfold reverseText
    rw [filter_hex _ hs']
    rfl
  rw [hr, hr']
  refine ⟨?_, rfl, rfl⟩
  have ha := hexDigit_lt a; have hb := hexDigit_lt b; have hc := hexDigit_lt c
  have hd := hexDigit_lt d; have he := hexDigit_lt e; have hf := hexDigit_lt f
  have hg := hexDigit_lt g; have hi := hexDigit_lt i
  unfold hexValue
  simp only [List.foldl_cons, List.foldl_nil]
  generalize hexDigit a = xa, hexDigit b = xb, hexDigit c = xc, hexDigit d = xd at *
  generalize hexDigit e = xe, hexDigit f = xf, hexDigit g = xg, hexDigit i = xi at *
  have := reverseWord_bytes (a := 16 * xg + xi) (b := 16 * xe + xf) (c := 16 * xc + xd)
    (d := 16 * xa + xb) (by omega) (by omega) (by omega) (by omega)
  rw [show 16 * (16 * (16 * (16 * (16 * (16 * (16 * (16 * 0 + xa) + xb) + xc) + xd) + xe) + xf) + xg)
    + xi = 16 * xg + xi + 256 * (16 * xe + xf) + 65536 * (16 * xc + xd) + 16777216 * (16 * xa + xb)
    by omega, this]
  congr 1
  omega

example : hexValue hexDigit ("e59f0010".toList) = 0xe59f0010
    ∧ reverseWord 0xe59f0010 = .ok 0x10009fe5
    ∧ String.ofList (reverseText "e59f0010".toList) = "10009fe5" := by decide +kernel

/-! ### C52 -/

/-- **C52**: for every encoding and address the computed target is the ARM
one. -/
theorem C52_target (encoding address : Nat) :
    ∃ t : Nat, branchAddress encoding address = .ok t ∧ (t : Int) = branchTarget encoding address := by
  have h1 : bitsSet 23 0 = .ok (2 ^ 24 - 1) := by rw [bitsSet_ok (by decide) (by decide) (by decide)]; rfl
  have h2 : bitsSet 29 24 = .ok (2 ^ 30 - 2 ^ 24) := by
    rw [bitsSet_ok (by decide) (by decide) (by decide)]; rfl
  have hm : encoding &&& (2 ^ 24 - 1) = encoding % 2 ^ 24 := Nat.and_two_pow_sub_one_eq_mod _ _
  have hbit : isOn (encoding % 2 ^ 24) 23 = encoding.testBit 23 := by
    rw [isOn_eq_testBit, Nat.testBit_mod_two_pow]
    simp
  have hlt : encoding % 2 ^ 24 < 2 ^ 24 := Nat.mod_lt _ (by decide)
  have hor : encoding % 2 ^ 24 ||| (2 ^ 30 - 2 ^ 24) = encoding % 2 ^ 24 + (2 ^ 30 - 2 ^ 24) := by
    have := Nat.two_pow_add_eq_or_of_lt (i := 24) hlt (2 ^ 6 - 1)
    rw [Nat.or_comm, Nat.add_comm]
    rw [show (2 ^ 30 - 2 ^ 24 : Nat) = 2 ^ 24 * (2 ^ 6 - 1) by decide]
    exact this.symm
  unfold branchAddress branchTarget signed
  rw [h1]
  simp only [bind, Except.bind, hm, hbit, h2, pure, Except.pure]
  cases hb : encoding.testBit 23 with
  | true =>
    refine ⟨_, rfl, ?_⟩
    rw [hor, Nat.shiftLeft_eq, show (0xffffffff : Nat) = 2 ^ 32 - 1 by decide,
      Nat.and_two_pow_sub_one_eq_mod]
    simp only [Nat.reduceSub, hb, if_true]
    omega
  | false =>
    refine ⟨_, rfl, ?_⟩
    rw [Nat.shiftLeft_eq, show (0xffffffff : Nat) = 2 ^ 32 - 1 by decide,
      Nat.and_two_pow_sub_one_eq_mod]
    simp only [Nat.reduceSub, hb, Bool.false_eq_true, if_false]
    omega

/-- `b` to itself: offset −2. -/
example : branchTarget 0xeafffffe 0x8000 = 0x8000 := by decide

/-! ### C53 -/

theorem registerList_prefix (encoding : Nat) (result : List Nat) : ∀ n,
    (List.range' 0 n).foldl (fun r x => if isOn encoding x && !r.contains x then r ++ [x] else r) result
      = result ++ (List.range n).filter fun x => isOn encoding x && !result.contains x
  | 0 => by simp
  | n + 1 => by
    rw [List.range'_concat, List.foldl_append, registerList_prefix encoding result n,
      List.range_succ, List.filter_append, ← List.append_assoc]
    simp only [List.foldl_cons, List.foldl_nil, Nat.zero_add, Nat.one_mul]
    have : (result ++ (List.range n).filter
        fun x => isOn encoding x && !result.contains x).contains n = result.contains n := by
      rw [List.contains_eq_mem, List.contains_eq_mem]
      simp
    rw [this]
    by_cases h : (isOn encoding n && !result.contains n) = true
    · rw [if_pos h]; simp only [List.filter_cons, h, if_true, List.filter_nil]
    · rw [if_neg h]; simp only [List.filter_cons, h, List.filter_nil, Bool.false_eq_true, if_false, List.append_nil]

/-- **C53**: the list of a mask holds exactly the registers below 16 whose bit
is set, in increasing order; bits above 15 do not matter. -/
theorem C53_register_list (mask : Nat) :
    (∀ x, x ∈ registerList mask [] ↔ x < 16 ∧ mask.testBit x = true)
      ∧ (registerList mask []).Pairwise (· < ·)
      ∧ registerList mask [] = registerList (mask % 2 ^ 16) [] := by
  have e : ∀ m, registerList m [] = (List.range 16).filter fun x => isOn m x && !([] : List Nat).contains x :=
    fun m => by unfold registerList forRange; rw [registerList_prefix]; rfl
  refine ⟨?_, ?_, ?_⟩
  · intro x
    rw [e, List.mem_filter, List.mem_range, isOn_eq_testBit]
    simp
  · rw [e]
    exact List.pairwise_lt_range.filter _
  · rw [e, e]
    apply List.filter_congr
    intro x hx
    rw [List.mem_range] at hx
    rw [isOn_eq_testBit, isOn_eq_testBit, Nat.testBit_mod_two_pow]
    simp [hx]

/-- With registers already listed, they stay in front and are not repeated. -/
theorem C53_extends (mask : Nat) (result : List Nat) (h : result.Nodup) :
    (registerList mask result).Nodup ∧ result <+: registerList mask result
      ∧ ∀ x, x ∈ registerList mask result ↔ x ∈ result ∨ (x < 16 ∧ mask.testBit x = true) := by
  have e : registerList mask result
      = result ++ (List.range 16).filter fun x => isOn mask x && !result.contains x := by
    unfold registerList forRange; rw [registerList_prefix]
  rw [e]
  refine ⟨?_, List.prefix_append _ _, ?_⟩
  · rw [List.nodup_append]
    refine ⟨h, List.nodup_range.filter _, ?_⟩
    intro a ha b hb hab
    subst hab
    simp [List.mem_filter] at hb
    exact hb.2.2 ha
  · intro x
    simp only [List.mem_append, List.mem_filter, List.mem_range, isOn_eq_testBit]
    by_cases hx : x ∈ result <;> simp [hx]

example : registerList 0x800f [] = [0, 1, 2, 3, 15] := by decide

/-! ### C54 -/

/-- The registers an operand names. -/
def namedRegs : Operand → List Nat
  | .reg r => [armNumber r]
  | .mem base index =>
      (if base = 0 then [] else [armNumber base]) ++ (if index = 0 then [] else [armNumber index])
  | .imm _ => []
  | .other => []

/-- Capstone names a register: zero stands for none. -/
def RealReg (o : Operand) : Prop :=
  match o with
  | .reg r => r ≠ 0
  | _ => True

/-- The registers of a memory operand are ARM core registers other than R0. -/
def PlainMem (o : Operand) : Prop :=
  match o with
  | .mem base index =>
      (base = 0 ∨ base ∈ [67, 68, 69, 70, 71, 72, 73, 74, 75, 76, 77, 78, 10, 11, 12])
        ∧ (index = 0 ∨ index ∈ [67, 68, 69, 70, 71, 72, 73, 74, 75, 76, 77, 78, 10, 11, 12])
  | _ => True

theorem mem_addReg (l : List Nat) (r x : Nat) : x ∈ addReg l r ↔ x ∈ l ∨ x = r := by
  unfold addReg
  split
  · rename_i h
    rw [List.contains_iff_mem] at h
    constructor
    · exact Or.inl
    · rintro (h' | rfl)
      · exact h'
      · exact h
  · simp

theorem nodup_addReg (l : List Nat) (r : Nat) (h : l.Nodup) : (addReg l r).Nodup := by
  unfold addReg
  split
  · exact h
  · rename_i h'
    rw [List.contains_iff_mem] at h'
    rw [List.nodup_append]
    refine ⟨h, by simp, ?_⟩
    intro a ha b hb hab
    rw [List.mem_singleton] at hb
    subst hab hb
    exact h' ha

theorem operandReg_eq (r : Nat) : operandReg r = if r = 0 then 0 else armNumber r := by
  by_cases h : r ≤ 78
  · have : ∀ r ≤ 78, operandReg r = if r = 0 then 0 else armNumber r := by decide +kernel
    exact this r h
  · have hn : dictGet capstoneRegs r = none := by
      rw [dictGet_eq_none]
      intro hm
      have : ∀ k ∈ capstoneRegs.map (·.1), k ≤ 78 := by decide
      exact h (this r hm)
    unfold operandReg
    rw [hn]
    unfold armNumber aregStorageCount
    rw [if_neg (by omega), if_neg (by omega), if_neg (by omega), if_neg (by omega),
      if_neg (by omega)]

theorem addMemReg_nodup {l l' : List Nat} {r : Nat} (h : l.Nodup) (e : addMemReg l r = .ok l') :
    l'.Nodup := by
  unfold addMemReg at e
  split at e
  · cases e
  · cases e
    split
    · exact nodup_addReg _ _ h
    · exact h

theorem addOperand_nodup {l l' : List Nat} {o : Operand} (h : l.Nodup)
    (e : addOperand l o = .ok l') : l'.Nodup := by
  cases o with
  | reg r => cases e; exact nodup_addReg _ _ h
  | mem b i =>
    unfold addOperand at e
    simp only [bind, Except.bind] at e
    rcases hb : addMemReg l b with x | l1
    · rw [hb] at e; cases e
    · rw [hb] at e
      exact addMemReg_nodup (addMemReg_nodup h hb) e
  | imm v => cases e; exact h
  | other => cases e; exact h

theorem addMemReg_plain (l : List Nat) {r : Nat}
    (h : r = 0 ∨ r ∈ [67, 68, 69, 70, 71, 72, 73, 74, 75, 76, 77, 78, 10, 11, 12]) :
    ∃ l', addMemReg l r = .ok l' ∧
      ∀ x, x ∈ l' ↔ x ∈ l ∨ x ∈ (if r = 0 then [] else [armNumber r]) := by
  unfold addMemReg
  have key : ∀ r, (r = 0 ∨ r ∈ [67, 68, 69, 70, 71, 72, 73, 74, 75, 76, 77, 78, 10, 11, 12]) →
      ∃ v, dictGet capstoneRegs r = some v ∧ ((r = 0 ∧ v = 0) ∨ (r ≠ 0 ∧ v ≠ 0 ∧ v = armNumber r)) := by
    intro r hr
    have h78 : r ≤ 78 := by
      rcases hr with rfl | hr
      · omega
      · have : ∀ r ∈ [67, 68, 69, 70, 71, 72, 73, 74, 75, 76, 77, 78, 10, 11, 12], r ≤ 78 := by decide
        exact this r hr
    have : ∀ r ≤ 78, (r = 0 ∨ r ∈ [67, 68, 69, 70, 71, 72, 73, 74, 75, 76, 77, 78, 10, 11, 12]) →
        (dictGet capstoneRegs r).isSome ∧ ((r = 0 ∧ (dictGet capstoneRegs r).getD 0 = 0) ∨
          (r ≠ 0 ∧ (dictGet capstoneRegs r).getD 0 ≠ 0
            ∧ (dictGet capstoneRegs r).getD 0 = armNumber r)) := by decide +kernel
    obtain ⟨h1, h2⟩ := this r h78 hr
    obtain ⟨v, hv⟩ := Option.isSome_iff_exists.1 h1
    rw [hv] at h2
    exact ⟨v, hv, h2⟩
  obtain ⟨v, hv, hcase⟩ := key r h
  rw [hv]
  refine ⟨_, rfl, ?_⟩
  intro x
  rcases hcase with ⟨rfl, rfl⟩ | ⟨h0, hv0, rfl⟩
  · simp
  · rw [if_pos hv0, mem_addReg, if_neg h0]; simp

theorem addOperand_plain (l : List Nat) {o : Operand} (hr : RealReg o) (h : PlainMem o) :
    ∃ l', addOperand l o = .ok l' ∧ ∀ x, x ∈ l' ↔ x ∈ l ∨ x ∈ namedRegs o := by
  cases o with
  | reg r =>
    refine ⟨_, rfl, ?_⟩
    intro x
    rw [operandReg_eq, if_neg hr, mem_addReg]
    simp [namedRegs]
  | mem b i =>
    obtain ⟨l1, e1, h1⟩ := addMemReg_plain l h.1
    obtain ⟨l2, e2, h2⟩ := addMemReg_plain l1 h.2
    refine ⟨l2, ?_, ?_⟩
    · unfold addOperand
      simp only [bind, Except.bind, e1, e2]
    · intro x
      rw [h2, h1, namedRegs, List.mem_append, or_assoc]
  | imm v => exact ⟨l, rfl, by simp [namedRegs]⟩
  | other => exact ⟨l, rfl, by simp [namedRegs]⟩

theorem foldOperands_nodup : ∀ (os : List Operand) {l l' : List Nat}, l.Nodup →
    os.foldlM addOperand l = .ok l' → l'.Nodup
  | [], l, l', h, e => by cases e; exact h
  | o :: os, l, l', h, e => by
    rw [List.foldlM_cons] at e
    simp only [bind, Except.bind] at e
    rcases ho : addOperand l o with x | l1
    · rw [ho] at e; cases e
    · rw [ho] at e
      exact foldOperands_nodup os (addOperand_nodup h ho) e

theorem foldOperands_plain : ∀ (os : List Operand) (l : List Nat),
    (∀ o ∈ os, RealReg o ∧ PlainMem o) →
    ∃ l', os.foldlM addOperand l = .ok l' ∧ ∀ x, x ∈ l' ↔ x ∈ l ∨ ∃ o ∈ os, x ∈ namedRegs o
  | [], l, _ => ⟨l, rfl, by simp⟩
  | o :: os, l, h => by
    obtain ⟨l1, e1, h1⟩ := addOperand_plain l (h o List.mem_cons_self).1 (h o List.mem_cons_self).2
    obtain ⟨l2, e2, h2⟩ := foldOperands_plain os l1 fun o' ho' => h o' (List.mem_cons_of_mem _ ho')
    refine ⟨l2, ?_, ?_⟩
    · rw [List.foldlM_cons, e1]; exact e2
    · intro x
      rw [h2, h1]
      simp [or_assoc]

/-- **C54 (no repetition)**: whenever the query succeeds. -/
theorem C54_nodup (i : CapsInst) (u : List Nat) (h : i.registersUsed = .ok u) : u.Nodup := by
  unfold CapsInst.registersUsed at h
  rcases hc : i.cap with _ | c
  · rw [hc] at h; cases h
  · rw [hc] at h
    exact foldOperands_nodup _ (by split <;> simp) h

theorem not_push_and_pop (i : CapsInst) (h : i.isA ['p', 'o', 'p'] = true) :
    i.isA ['p', 'u', 's', 'h'] = false := by
  unfold CapsInst.isA at *
  rcases hc : i.cap with _ | c
  · rfl
  · rw [hc] at h
    simp only at h ⊢
    rcases ht : c.text with _ | ⟨a, _ | ⟨b, t⟩⟩
    · rfl
    · simp [List.isPrefixOf]
    · rw [ht] at h
      simp only [List.isPrefixOf, Bool.and_eq_true, beq_iff_eq] at h
      simp only [List.isPrefixOf, Bool.and_eq_false_iff, beq_eq_false_iff_ne]
      right; left
      rw [← h.2.1]
      decide

theorem pushPop_head (i : CapsInst) (u : List Nat) (h : i.registersUsed = .ok u)
    (hp : i.isPushPop = true) : 13 ∈ u ∧ ∃ t, u = 13 :: t := by
  unfold CapsInst.registersUsed at h
  rcases hc : i.cap with _ | c
  · rw [hc] at h; cases h
  · rw [hc, hp] at h
    simp only [if_true] at h
    have key : ∀ (os : List Operand) (l l' : List Nat), l <+: l' ∨ True → os.foldlM addOperand l = .ok l' →
        l <+: l' := by
      intro os
      induction os with
      | nil => intro l l' _ e; cases e; exact List.prefix_rfl
      | cons o os ih =>
        intro l l' _ e
        rw [List.foldlM_cons] at e
        simp only [bind, Except.bind] at e
        rcases ho : addOperand l o with x | l1
        · rw [ho] at e; cases e
        · rw [ho] at e
          refine List.IsPrefix.trans ?_ (ih l1 l' (Or.inr trivial) e)
          have hadd : ∀ (l : List Nat) r, l <+: addReg l r := by
            intro l r; unfold addReg; split
            · exact List.prefix_rfl
            · exact List.prefix_append _ _
          have hmem : ∀ (l l' : List Nat) r, addMemReg l r = .ok l' → l <+: l' := by
            intro l l' r e
            unfold addMemReg at e
            split at e
            · cases e
            · cases e
              split
              · exact hadd _ _
              · exact List.prefix_rfl
          cases o with
          | reg r => cases ho; exact hadd _ _
          | mem b i =>
            unfold addOperand at ho
            simp only [bind, Except.bind] at ho
            rcases hb : addMemReg l b with x | l2
            · rw [hb] at ho; cases ho
            · rw [hb] at ho
              exact (hmem _ _ _ hb).trans (hmem _ _ _ ho)
          | imm v => cases ho; exact List.prefix_rfl
          | other => cases ho; exact List.prefix_rfl
    obtain ⟨t, ht⟩ := key _ _ _ (Or.inr trivial) h
    subst ht
    exact ⟨by simp, t, rfl⟩

/-- **C54 (reads and writes)**: whenever the registers used are available, so
are those read and written; together they are exactly the registers used. -/
theorem C54_read_or_written (i : CapsInst) (u : List Nat) (h : i.registersUsed = .ok u) :
    ∃ r w, i.registersRead = .ok r ∧ i.registersWritten = .ok w ∧
      ∀ x, x ∈ u ↔ x ∈ r ∨ x ∈ w := by
  unfold CapsInst.registersRead CapsInst.registersWritten CapsInst.readBase
  by_cases hpop : i.isA ['p', 'o', 'p'] = true
  · have hpp : i.isPushPop = true := by unfold CapsInst.isPushPop; simp [hpop]
    obtain ⟨h13, t, ht⟩ := pushPop_head i u h hpp
    rw [if_pos hpop, if_pos hpop, hpp]
    refine ⟨_, u, rfl, h, ?_⟩
    intro x
    simp only [Bool.true_and, List.contains_nil, Bool.not_false, if_true, List.nil_append,
      List.mem_singleton]
    constructor
    · exact Or.inr
    · rintro (rfl | hx)
      · exact h13
      · exact hx
  · rw [if_neg hpop, if_neg hpop, h]
    by_cases hpush : i.isA ['p', 'u', 's', 'h'] = true
    · have hpp : i.isPushPop = true := by unfold CapsInst.isPushPop; simp [hpush]
      obtain ⟨h13, t, rfl⟩ := pushPop_head i u h hpp
      have hnd := C54_nodup i _ h
      rw [List.nodup_cons] at hnd
      rw [if_pos hpush, hpp]
      refine ⟨_, [], rfl, rfl, ?_⟩
      intro x
      simp [hnd.1]
      tauto
    · have hpp : i.isPushPop = false := by unfold CapsInst.isPushPop; simp [hpop, hpush]
      rw [if_neg hpush, hpp]
      refine ⟨_, u.take 1, rfl, rfl, ?_⟩
      intro x
      simp only [Bool.false_and, Bool.false_eq_true, if_false]
      conv_lhs => rw [← List.take_append_drop 1 u]
      rw [List.mem_append]
      exact or_comm

theorem isA_iff {i : CapsInst} {c : CapInst} (hc : i.cap = some c) (w : List Char) :
    i.isA w = true ↔ w <+: c.text := by
  unfold CapsInst.isA
  rw [hc]
  exact List.isPrefixOf_iff_prefix

/-- The printed instruction starts with `push` or with `pop`. -/
def StackOp (c : CapInst) : Prop := "push".toList <+: c.text ∨ "pop".toList <+: c.text

theorem isPushPop_iff {i : CapsInst} {c : CapInst} (hc : i.cap = some c) : i.isPushPop = true ↔ StackOp c := by
  unfold CapsInst.isPushPop StackOp
  rw [Bool.or_eq_true, isA_iff hc, isA_iff hc]
  rfl

/-- **C54 (stack pointer)**: push and pop read it, and pop writes it. -/
theorem C54_stack_partial (i : CapsInst) (c : CapInst) (hc : i.cap = some c) (u : List Nat)
    (h : i.registersUsed = .ok u) (hpp : StackOp c) :
    (∃ r, i.registersRead = .ok r ∧ 13 ∈ r) ∧
      ("pop".toList <+: c.text → ∃ w, i.registersWritten = .ok w ∧ 13 ∈ w) := by
  have hpp := (isPushPop_iff hc).2 hpp
  refine ⟨?_, ?_⟩
  · obtain ⟨r, w, hr, hw, hu⟩ := C54_read_or_written i u h
    refine ⟨r, hr, ?_⟩
    unfold CapsInst.registersRead at hr
    rcases hb : i.readBase with e | b
    · rw [hb] at hr; cases hr
    · rw [hb] at hr
      simp only [bind, Except.bind, Except.ok.injEq] at hr
      subst hr
      rw [hpp]
      by_cases hc : 13 ∈ b
      · rw [if_neg (by simpa using hc)]; exact hc
      · rw [if_pos (by simpa using hc)]; simp
  · intro hpop
    unfold CapsInst.registersWritten
    rw [if_pos ((isA_iff hc ['p', 'o', 'p']).2 hpop)]
    exact ⟨u, h, (pushPop_head i u h hpp).1⟩

/-- **C54 (other instructions)**: the first register used is the one written, the
others are read. -/
theorem C54_split (i : CapsInst) (c : CapInst) (hc : i.cap = some c) (u : List Nat)
    (h : i.registersUsed = .ok u) (hpp : ¬ StackOp c) :
    ∃ r w, i.registersRead = .ok r ∧ i.registersWritten = .ok w ∧ u = w ++ r ∧ w.length ≤ 1 ∧ (u ≠ [] → w ≠ []) := by
  have h1 : ¬ i.isA ['p', 'o', 'p'] = true := fun e => hpp (Or.inr ((isA_iff hc _).1 e))
  have h2 : ¬ i.isA ['p', 'u', 's', 'h'] = true := fun e => hpp (Or.inl ((isA_iff hc _).1 e))
  have h3 : i.isPushPop = false := by
    rw [Bool.eq_false_iff]
    exact fun e => hpp ((isPushPop_iff hc).1 e)
  refine ⟨u.drop 1, u.take 1, ?_, ?_, (List.take_append_drop 1 u).symm, by simp; omega, ?_⟩
  · unfold CapsInst.registersRead CapsInst.readBase
    rw [if_neg h1, h, h3]
    rfl
  · unfold CapsInst.registersWritten
    rw [if_neg h1, if_neg h2, h]
    rfl
  · cases u <;> simp

/-- **C54 (stack pointer) is false of push**: it writes nothing. -/
theorem C54_push_refuted (i : CapsInst) (c : CapInst) (hc : i.cap = some c) (h : "push".toList <+: c.text) :
    i.registersWritten = .ok [] := by
  have h := (isA_iff hc ['p', 'u', 's', 'h']).2 h
  unfold CapsInst.registersWritten
  by_cases hp : i.isA ['p', 'o', 'p'] = true
  · rw [not_push_and_pop i hp] at h; cases h
  · rw [if_neg hp, if_pos h]

/-- **C54 (operands), what holds**: when no memory operand uses R0 or a register
outside the ARM core, the registers used are the operands' and, for push and
pop, the stack pointer. Missing: memory operands with R0, for which the claim
is false (`C54_r0_refuted`), and other registers, which raise `KeyError`
(`C54_unknown_base`). -/
theorem C54_operands_partial (i : CapsInst) (c : CapInst) (hc : i.cap = some c)
    (h : ∀ o ∈ c.operands, RealReg o ∧ PlainMem o) :
    ∃ u, i.registersUsed = .ok u ∧
      ∀ x, x ∈ u ↔ (StackOp c ∧ x = 13) ∨ ∃ o ∈ c.operands, x ∈ namedRegs o := by
  unfold CapsInst.registersUsed
  rw [hc]
  obtain ⟨l, e, hl⟩ := foldOperands_plain c.operands (if i.isPushPop then [13] else []) h
  refine ⟨l, e, ?_⟩
  intro x
  rw [hl, ← isPushPop_iff hc]
  cases i.isPushPop <;> simp

/-- `ldr r1, [r2, r3]` meets the hypotheses. -/
def ldrExample : CapsInst :=
  { cap := some { text := "ldr\tr1, [r2, r3]".toList, id := 5, cc := 15,
                  operands := [.reg 67, .mem 68 69] }
    encoding := 0xe7921003, address := 0 }

example : (∀ o ∈ [Operand.reg 67, .mem 68 69], RealReg o ∧ PlainMem o)
    ∧ ldrExample.registersUsed = .ok [1, 2, 3] := by
  refine ⟨?_, by decide⟩
  intro o ho
  simp only [List.mem_cons, List.not_mem_nil, or_false] at ho
  rcases ho with rfl | rfl
  · exact ⟨by unfold RealReg; decide, trivial⟩
  · exact ⟨trivial, by unfold PlainMem; decide⟩

/-- `ldr r1, [r0]`. -/
def ldrR0 : CapsInst :=
  { cap := some { text := "ldr\tr1, [r0]".toList, id := 5, cc := 15, operands := [.reg 67, .mem 66 0] }
    encoding := 0xe5901000, address := 0 }

/-- **C54 (operands) is false**: the base register R0 is not listed. -/
theorem C54_r0_refuted :
    ∃ (i : CapsInst) (c : CapInst), i.cap = some c ∧ i.registersUsed = .ok [1]
      ∧ ∃ o ∈ c.operands, 0 ∈ namedRegs o :=
  ⟨ldrR0, _, rfl, by decide, .mem 66 0, by decide, by decide⟩

/-- A memory operand with a register outside the table raises `KeyError`, when
the operands before it are in order. -/
theorem C54_unknown_base (i : CapsInst) (c : CapInst) (hc : i.cap = some c) (b x : Nat)
    (os : List Operand) (h : c.operands = .mem b x :: os)
    (hb : b ∉ [0, 10, 11, 12, 66, 67, 68, 69, 70, 71, 72, 73, 74, 75, 76, 77, 78]) :
    i.registersUsed = .error .key := by
  have hb : b ∉ capstoneRegs.map (·.1) := by
    intro hm
    have : ∀ x ∈ capstoneRegs.map (·.1), x ∈ [0, 10, 11, 12, 66, 67, 68, 69, 70, 71, 72, 73, 74, 75, 76, 77, 78] := by
      decide
    exact hb (this b hm)
  unfold CapsInst.registersUsed
  rw [hc]
  simp only
  rw [h, List.foldlM_cons]
  have : ∀ l, addOperand l (.mem b x) = .error .key := by
    intro l
    show (addMemReg l b >>= fun l => addMemReg l x) = _
    rw [show addMemReg l b = .error .key by unfold addMemReg; rw [(dictGet_eq_none _ _).2 hb]]
    rfl
  rw [this]
  rfl

/-! ### C55 -/

/-- The answers to a sequence of queries. -/
def runQueries (ids : CapIds) : CapsInst → List Storage → List (Py (List Nat)) × CapsInst
  | i, [] => ([], i)
  | i, q :: qs =>
      let a := i.query ids q
      let r := runQueries ids a.2 qs
      (a.1 :: r.1, r.2)

/-- The list the instruction has for a query. -/
def freshOf (ids : CapIds) (i : CapsInst) : Storage → Py (List Nat)
  | .used => i.freshUsed ids
  | .written => i.freshWritten ids
  | .read => i.freshRead ids

/-- A cache is empty or holds the right list. -/
def CacheOk (ids : CapIds) (i : CapsInst) : Prop :=
  (i.usedCache = [] ∨ i.freshUsed ids = .ok i.usedCache) ∧
  (i.writtenCache = [] ∨ i.freshWritten ids = .ok i.writtenCache) ∧
  (i.readCache = [] ∨ i.freshRead ids = .ok i.readCache)

/-- Two instructions that differ in their caches only. -/
def SameInst (i j : CapsInst) : Prop :=
  i.cap = j.cap ∧ i.encoding = j.encoding ∧ i.address = j.address

theorem isA_congr {i j : CapsInst} (h : i.cap = j.cap) (w : List Char) : i.isA w = j.isA w := by
  unfold CapsInst.isA; rw [h]

theorem registersUsed_congr {i j : CapsInst} (h : i.cap = j.cap) :
    i.registersUsed = j.registersUsed := by
  unfold CapsInst.registersUsed CapsInst.isPushPop
  rw [isA_congr h, isA_congr h, h]

theorem registersWritten_congr {i j : CapsInst} (h : i.cap = j.cap) :
    i.registersWritten = j.registersWritten := by
  unfold CapsInst.registersWritten
  rw [isA_congr h, isA_congr h, registersUsed_congr h]

theorem registersRead_congr {i j : CapsInst} (h : i.cap = j.cap) :
    i.registersRead = j.registersRead := by
  unfold CapsInst.registersRead CapsInst.readBase CapsInst.isPushPop
  rw [isA_congr h, isA_congr h, registersUsed_congr h]

theorem writesMemory_congr {ids : CapIds} {i j : CapsInst} (h : i.cap = j.cap) :
    i.writesMemory ids = j.writesMemory ids := by
  unfold CapsInst.writesMemory; rw [h]

theorem readsMemory_congr {ids : CapIds} {i j : CapsInst} (h : i.cap = j.cap) :
    i.readsMemory ids = j.readsMemory ids := by
  unfold CapsInst.readsMemory; rw [h, writesMemory_congr h]

theorem isBranch_congr {ids : CapIds} {i j : CapsInst} (h : i.cap = j.cap) :
    i.isBranch ids = j.isBranch ids := by
  unfold CapsInst.isBranch; rw [h, registersWritten_congr h]

theorem freshOf_congr {ids : CapIds} {i j : CapsInst} (h : i.cap = j.cap) (q : Storage) :
    freshOf ids i q = freshOf ids j q := by
  cases q with
  | used =>
    show i.freshUsed ids = j.freshUsed ids
    unfold CapsInst.freshUsed
    rw [registersUsed_congr h, writesMemory_congr h, readsMemory_congr h]
  | written =>
    show i.freshWritten ids = j.freshWritten ids
    unfold CapsInst.freshWritten
    rw [registersWritten_congr h, writesMemory_congr h, isBranch_congr h]
  | read =>
    show i.freshRead ids = j.freshRead ids
    unfold CapsInst.freshRead
    rw [registersRead_congr h, readsMemory_congr h]

theorem query_step (ids : CapIds) (i : CapsInst) (q : Storage) (h : CacheOk ids i) :
    (i.query ids q).1 = freshOf ids i q ∧ (i.query ids q).2.cap = i.cap
      ∧ CacheOk ids (i.query ids q).2 := by
  have hc : ∀ j : CapsInst, j.cap = i.cap → ∀ q, freshOf ids j q = freshOf ids i q :=
    fun j hj q => freshOf_congr hj q
  obtain ⟨hu, hw, hr⟩ := h
  cases q with
  | used =>
    unfold CapsInst.query
    by_cases hne : i.usedCache ≠ []
    · rw [if_pos hne]
      exact ⟨(hu.resolve_left hne).symm, rfl, hu, hw, hr⟩
    · rw [if_neg hne]
      rcases hf : i.freshUsed ids with e | l
      · exact ⟨hf.symm, rfl, hu, hw, hr⟩
      · refine ⟨hf.symm, rfl, Or.inr ?_, ?_, ?_⟩
        · rw [show CapsInst.freshUsed ids { i with usedCache := l } = i.freshUsed ids from
            hc { i with usedCache := l } rfl .used]
          exact hf
        · rw [show CapsInst.freshWritten ids { i with usedCache := l } = i.freshWritten ids from
            hc { i with usedCache := l } rfl .written]
          exact hw
        · rw [show CapsInst.freshRead ids { i with usedCache := l } = i.freshRead ids from
            hc { i with usedCache := l } rfl .read]
          exact hr
  | written =>
    unfold CapsInst.query
    by_cases hne : i.writtenCache ≠ []
    · rw [if_pos hne]
      exact ⟨(hw.resolve_left hne).symm, rfl, hu, hw, hr⟩
    · rw [if_neg hne]
      rcases hf : i.freshWritten ids with e | l
      · exact ⟨hf.symm, rfl, hu, hw, hr⟩
      · refine ⟨hf.symm, rfl, ?_, Or.inr ?_, ?_⟩
        · rw [show CapsInst.freshUsed ids { i with writtenCache := l } = i.freshUsed ids from
            hc { i with writtenCache := l } rfl .used]
          exact hu
        · rw [show CapsInst.freshWritten ids { i with writtenCache := l } = i.freshWritten ids from
            hc { i with writtenCache := l } rfl .written]
          exact hf
        · rw [show CapsInst.freshRead ids { i with writtenCache := l } = i.freshRead ids from
            hc { i with writtenCache := l } rfl .read]
          exact hr
  | read =>
    unfold CapsInst.query
    by_cases hne : i.readCache ≠ []
    · rw [if_pos hne]
      exact ⟨(hr.resolve_left hne).symm, rfl, hu, hw, hr⟩
    · rw [if_neg hne]
      rcases hf : i.freshRead ids with e | l
      · exact ⟨hf.symm, rfl, hu, hw, hr⟩
      · refine ⟨hf.symm, rfl, ?_, ?_, Or.inr ?_⟩
        · rw [show CapsInst.freshUsed ids { i with readCache := l } = i.freshUsed ids from
            hc { i with readCache := l } rfl .used]
          exact hu
        · rw [show CapsInst.freshWritten ids { i with readCache := l } = i.freshWritten ids from
            hc { i with readCache := l } rfl .written]
          exact hw
        · rw [show CapsInst.freshRead ids { i with readCache := l } = i.freshRead ids from
            hc { i with readCache := l } rfl .read]
          exact hf

/-- **C55 (stability)**: in every sequence of queries on a new instruction, the
answer to a query depends only on which query it is. -/
theorem C55_stable (ids : CapIds) (i : CapsInst)
    (h0 : i.usedCache = [] ∧ i.writtenCache = [] ∧ i.readCache = []) (qs : List Storage) :
    (runQueries ids i qs).1 = qs.map fun q => (i.query ids q).1 := by
  have hq : (fun q => (i.query ids q).1) = freshOf ids i :=
    funext fun q => (query_step ids i q ⟨Or.inl h0.1, Or.inl h0.2.1, Or.inl h0.2.2⟩).1
  rw [hq]
  have key : ∀ (qs : List Storage) (j : CapsInst), j.cap = i.cap → CacheOk ids j →
      (runQueries ids j qs).1 = qs.map (freshOf ids i) := by
    intro qs
    induction qs with
    | nil => intro j _ _; rfl
    | cons q qs ih =>
      intro j hj hok
      obtain ⟨h1, h2, h3⟩ := query_step ids j q hok
      show (j.query ids q).1 :: (runQueries ids (j.query ids q).2 qs).1 = _
      rw [h1, ih _ (h2.trans hj) h3, freshOf_congr hj]
      rfl
  exact key qs i rfl ⟨Or.inl h0.1, Or.inl h0.2.1, Or.inl h0.2.2⟩

theorem regs_not_marker {i : CapsInst} {u : List Nat} (h : i.registersUsed = .ok u) :
    ∀ x ∈ u, x ≠ 16 ∧ x ≠ 18 := by
  have hcap : ∀ p ∈ capstoneRegs, p.2 ≠ 16 ∧ p.2 ≠ 18 := by decide
  have hadd : ∀ (l : List Nat) r, (∀ x ∈ l, x ≠ 16 ∧ x ≠ 18) → (r ≠ 16 ∧ r ≠ 18) →
      ∀ x ∈ addReg l r, x ≠ 16 ∧ x ≠ 18 := by
    intro l r hl hr x hx
    rcases (mem_addReg _ _ _).1 hx with hx | rfl
    · exact hl x hx
    · exact hr
  have hmem : ∀ (l l' : List Nat) r, (∀ x ∈ l, x ≠ 16 ∧ x ≠ 18) → addMemReg l r = .ok l' →
      ∀ x ∈ l', x ≠ 16 ∧ x ≠ 18 := by
    intro l l' r hl e
    unfold addMemReg at e
    rcases hd : dictGet capstoneRegs r with _ | v
    · rw [hd] at e; cases e
    · rw [hd] at e
      cases e
      split
      · exact hadd _ _ hl (hcap _ (dictGet_mem hd))
      · exact hl
  have hop : ∀ (l l' : List Nat) o, (∀ x ∈ l, x ≠ 16 ∧ x ≠ 18) → addOperand l o = .ok l' →
      ∀ x ∈ l', x ≠ 16 ∧ x ≠ 18 := by
    intro l l' o hl e
    cases o with
    | reg r =>
      cases e
      apply hadd _ _ hl
      rcases hd : dictGet capstoneRegs r with _ | v
      · unfold operandReg; rw [hd]; simp only [aregStorageCount]; omega
      · unfold operandReg; rw [hd]; exact hcap _ (dictGet_mem hd)
    | mem b x =>
      unfold addOperand at e
      simp only [bind, Except.bind] at e
      rcases hb : addMemReg l b with y | l2
      · rw [hb] at e; cases e
      · rw [hb] at e
        exact hmem _ _ _ (hmem _ _ _ hl hb) e
    | imm v => cases e; exact hl
    | other => cases e; exact hl
  have hfold : ∀ (os : List Operand) (l l' : List Nat), (∀ x ∈ l, x ≠ 16 ∧ x ≠ 18) →
      os.foldlM addOperand l = .ok l' → ∀ x ∈ l', x ≠ 16 ∧ x ≠ 18 := by
    intro os
    induction os with
    | nil => intro l l' hl e; cases e; exact hl
    | cons o os ih =>
      intro l l' hl e
      rw [List.foldlM_cons] at e
      simp only [bind, Except.bind] at e
      rcases ho : addOperand l o with x | l1
      · rw [ho] at e; cases e
      · rw [ho] at e
        exact ih l1 l' (hop _ _ _ hl ho) e
  unfold CapsInst.registersUsed at h
  rcases hc : i.cap with _ | c
  · rw [hc] at h; cases h
  · rw [hc] at h
    exact hfold _ _ _ (by split <;> simp) h

/-- The instruction is a store: its number lies between the two store numbers. -/
def IsStore (ids : CapIds) (c : CapInst) : Prop := ids.strbt ≤ c.id ∧ c.id ≤ ids.str

/-- An operand is in memory. -/
def HasMem (c : CapInst) : Prop := ∃ b x, Operand.mem b x ∈ c.operands

theorem writesMemory_iff {ids : CapIds} {i : CapsInst} {w : Bool} (h : i.writesMemory ids = .ok w) :
    ∃ c, i.cap = some c ∧ (w = true ↔ IsStore ids c) := by
  unfold CapsInst.writesMemory at h
  split at h
  · cases h
  · rename_i c hc
    cases h
    refine ⟨c, hc, ?_⟩
    unfold IsStore
    simp [and_comm]

theorem readsMemory_iff {ids : CapIds} {i : CapsInst} {c : CapInst} (hc : i.cap = some c) {r : Bool}
    (h : i.readsMemory ids = .ok r) : (r = true ↔ HasMem c ∧ ¬ IsStore ids c) := by
  have hm : (c.operands.any (fun o => match o with | .mem _ _ => true | _ => false)) = true ↔ HasMem c := by
    rw [List.any_eq_true]
    constructor
    · rintro ⟨o, ho, h⟩
      split at h
      · exact ⟨_, _, ho⟩
      · cases h
    · rintro ⟨b, x, h⟩
      exact ⟨_, h, rfl⟩
  unfold CapsInst.readsMemory at h
  rw [hc] at h
  simp only at h
  split at h
  · rename_i hh
    rcases hw : i.writesMemory ids with e | w
    · rw [hw] at h; cases h
    · rw [hw] at h
      cases h
      obtain ⟨c', hc', hi⟩ := writesMemory_iff hw
      rw [hc] at hc'
      cases hc'
      rw [← hi]
      simp [hm.1 hh]
  · rename_i hh
    cases h
    simp only [Bool.false_eq_true, false_iff, not_and]
    exact fun h => absurd (hm.2 h) hh

theorem fresh_used (ids : CapIds) (i : CapsInst) (l : List Nat) (h : i.freshUsed ids = .ok l) :
    l ≠ [] ∧ ∃ u w r, i.registersUsed = .ok u ∧ i.writesMemory ids = .ok w
      ∧ i.readsMemory ids = .ok r
      ∧ (∀ x, x ≠ 16 → x ≠ 18 → (x ∈ l ↔ x ∈ u))
      ∧ (16 ∈ l ↔ w = true ∨ r = true)
      ∧ (18 ∈ l ↔ u = [] ∧ w = false ∧ r = false) := by
  unfold CapsInst.freshUsed at h
  rcases hu : i.registersUsed with e | u
  · rw [hu] at h; cases h
  rcases hw : i.writesMemory ids with e | w
  · rw [hu, hw] at h; cases h
  rcases hr : i.readsMemory ids with e | r
  · rw [hu, hw, hr] at h; cases h
  rw [hu, hw, hr] at h
  simp only [bind, Except.bind, Except.ok.injEq] at h
  have hm := regs_not_marker hu
  have h16 : 16 ∉ u := fun hx => (hm 16 hx).1 rfl
  have h18 : 18 ∉ u := fun hx => (hm 18 hx).2 rfl
  subst h
  refine ⟨?_, u, w, r, rfl, rfl, rfl, ?_⟩
  · cases u <;> cases w <;> cases r <;> simp
  · cases u with
    | nil => cases w <;> cases r <;> simp <;> intros <;> omega
    | cons a u =>
      cases w <;> cases r <;> simp_all <;>
      · intros; omega

/-- **C55 (used)**: the storages used are never empty; they contain the
registers used, the memory exactly when the instruction is a store or has a memory
operand, the no-register marker exactly when there is nothing else, and nothing
more. -/
theorem C55_used (ids : CapIds) (i : CapsInst) (l : List Nat) (h0 : i.usedCache = [])
    (h : (i.query ids .used).1 = .ok l) :
    l ≠ [] ∧ ∃ c u, i.cap = some c ∧ i.registersUsed = .ok u
      ∧ (∀ x, x ≠ 16 → x ≠ 18 → (x ∈ l ↔ x ∈ u))
      ∧ (16 ∈ l ↔ IsStore ids c ∨ HasMem c)
      ∧ (18 ∈ l ↔ u = [] ∧ ¬ IsStore ids c ∧ ¬ HasMem c) := by
  have hf : i.freshUsed ids = .ok l := by
    unfold CapsInst.query at h
    simp only at h
    rw [if_neg (by simp [h0])] at h
    split at h
    · rename_i e; rw [e]; exact h
    · cases h
  obtain ⟨h1, u, w, r, h2, h3, h4, h5, h6, h7⟩ := fresh_used ids i l hf
  obtain ⟨c, hc, hw⟩ := writesMemory_iff h3
  have hr := readsMemory_iff hc h4
  refine ⟨h1, c, u, hc, h2, h5, ?_, ?_⟩
  · rw [h6, hw, hr]
    tauto
  · rw [h7, ← Bool.not_eq_true, ← Bool.not_eq_true, hw, hr]
    tauto

theorem fresh_written (ids : CapIds) (i : CapsInst) (l : List Nat) (h : i.freshWritten ids = .ok l) :
    ∃ u w, i.registersWritten = .ok u ∧ i.writesMemory ids = .ok w
      ∧ (∀ x, x ≠ 16 → x ≠ 15 → (x ∈ l ↔ x ∈ u))
      ∧ (16 ∈ l ↔ w = true)
      ∧ (15 ∈ l ↔ i.isBranch ids = .ok true ∨ 15 ∈ u) := by
  unfold CapsInst.freshWritten at h
  rcases hu : i.registersWritten with e | u
  · rw [hu] at h; cases h
  rcases hw : i.writesMemory ids with e | w
  · rw [hu, hw] at h; cases h
  have hsub : 16 ∉ u := by
    intro hx
    unfold CapsInst.registersWritten at hu
    by_cases hpop : i.isA ['p', 'o', 'p'] = true
    · rw [if_pos hpop] at hu; exact (regs_not_marker hu 16 hx).1 rfl
    · rw [if_neg hpop] at hu
      by_cases hpush : i.isA ['p', 'u', 's', 'h'] = true
      · rw [if_pos hpush] at hu; cases hu; simp at hx
      · rw [if_neg hpush] at hu
        rcases hru : i.registersUsed with e | v
        · rw [hru] at hu; cases hu
        · rw [hru] at hu
          cases hu
          exact (regs_not_marker hru 16 (List.mem_of_mem_take hx)).1 rfl
  rw [hu, hw] at h
  simp only [bind, Except.bind] at h
  refine ⟨u, w, rfl, rfl, ?_⟩
  have h15 : ((if w = true then u ++ [16] else u).contains 15 = true) ↔ 15 ∈ u := by
    cases w <;> simp
  by_cases hc : 15 ∈ u
  · rw [if_pos (h15.2 hc)] at h
    cases h
    cases w <;> simp [hc, hsub] <;> intros <;> omega
  · rw [if_neg (fun hx => hc (h15.1 hx))] at h
    rcases hb : i.isBranch ids with e | b
    · rw [hb] at h; cases h
    · rw [hb] at h
      simp only [Except.ok.injEq] at h
      subst h
      cases w <;> cases b <;> simp [hc, hsub] <;> intros <;> omega

/-- **C55 (written)**: besides the registers written, the memory marker appears
exactly for stores, and the program counter also for every branch instruction. -/
theorem C55_written (ids : CapIds) (i : CapsInst) (l : List Nat) (h0 : i.writtenCache = [])
    (h : (i.query ids .written).1 = .ok l) :
    ∃ c u, i.cap = some c ∧ i.registersWritten = .ok u
      ∧ (∀ x, x ≠ 16 → x ≠ 15 → (x ∈ l ↔ x ∈ u))
      ∧ (16 ∈ l ↔ IsStore ids c)
      ∧ (15 ∈ l ↔ c.id ∈ [ids.b, ids.bx, ids.bl, ids.blx] ∨ 15 ∈ u) := by
  have hf : i.freshWritten ids = .ok l := by
    unfold CapsInst.query at h
    simp only at h
    rw [if_neg (by simp [h0])] at h
    split at h
    · rename_i e; rw [e]; exact h
    · cases h
  obtain ⟨u, w, h2, h3, h5, h6, h7⟩ := fresh_written ids i l hf
  obtain ⟨c, hc, hw⟩ := writesMemory_iff h3
  refine ⟨c, u, hc, h2, h5, h6.trans hw, ?_⟩
  rw [h7]
  have : i.isBranch ids = .ok (decide (c.id ∈ [ids.b, ids.bx, ids.bl, ids.blx]) || u.contains 15) := by
    unfold CapsInst.isBranch
    rw [hc]
    simp only
    by_cases hm : c.id = ids.b ∨ c.id = ids.bx ∨ c.id = ids.bl ∨ c.id = ids.blx
    · rw [if_pos hm]
      simp [hm]
    · rw [if_neg hm, h2]
      simp [hm, bind, Except.bind]
  rw [this]
  simp only [Except.ok.injEq, Bool.or_eq_true, decide_eq_true_eq, List.contains_iff_mem]
  tauto

/-- **C55 (read)**: besides the registers read, the memory marker appears exactly
when there is a memory operand and the instruction is not a store. -/
theorem C55_read (ids : CapIds) (i : CapsInst) (l : List Nat) (h0 : i.readCache = [])
    (h : (i.query ids .read).1 = .ok l) :
    ∃ c u, i.cap = some c ∧ i.registersRead = .ok u
      ∧ ((HasMem c ∧ ¬ IsStore ids c) ∧ l = u ++ [16] ∨ ¬ (HasMem c ∧ ¬ IsStore ids c) ∧ l = u) := by
  have hf : i.freshRead ids = .ok l := by
    unfold CapsInst.query at h
    simp only at h
    rw [if_neg (by simp [h0])] at h
    split at h
    · rename_i e; rw [e]; exact h
    · cases h
  unfold CapsInst.freshRead at hf
  rcases hu : i.registersRead with e | u
  · rw [hu] at hf; cases hf
  rcases hr : i.readsMemory ids with e | r
  · rw [hu, hr] at hf; cases hf
  rw [hu, hr] at hf
  simp only [bind, Except.bind, Except.ok.injEq] at hf
  rcases hc : i.cap with _ | c
  · unfold CapsInst.readsMemory at hr
    rw [hc] at hr
    cases hr
  · have hr := readsMemory_iff hc hr
    refine ⟨c, u, rfl, rfl, ?_⟩
    rw [← hr, ← hf]
    cases r <;> simp

/-- Capstone's numbers in some order. -/
def someIds : CapIds := { str := 214, strbt := 205, b := 1, bx := 2, bl := 3, blx := 4 }

/-- `ldr r1, [r2, r3]` asked several times, in some order. -/
example : (runQueries someIds ldrExample [.used, .read, .used, .written]).1
    = [.ok [1, 2, 3, 16], .ok [2, 3, 16], .ok [1, 2, 3, 16], .ok [1]] := by decide

/-- A branch writes the program counter without using it: `b #8` uses "no
register" and writes register 15. -/
theorem C55_branch_pc :
    ∃ i : CapsInst, (i.query someIds .used).1 = .ok [18] ∧ (i.query someIds .written).1 = .ok [15] :=
  ⟨{ cap := some { text := "b\t#8".toList, id := 1, cc := 15, operands := [.imm 8] },
     encoding := 0xea000000, address := 0 }, by decide, by decide⟩

/-! ### C56 -/

/-- The target of a branch: its first immediate operand. -/
def immTarget (c : CapInst) : Option Int :=
  c.operands.findSome? fun o => match o with | .imm v => some v | _ => none

theorem jumpingAddress_fresh (ids : CapIds) (i : CapsInst) (c : CapInst) (hc : i.cap = some c)
    (b : Bool) (hb : i.isBranch ids = .ok b)
    (hj : i.jumpCache = none ∨ i.jumpCache = immTarget c) :
    ∃ i', i.jumpingAddress ids = .ok (if b then immTarget c else none, i') ∧ i'.cap = i.cap
      ∧ (i'.jumpCache = none ∨ i'.jumpCache = immTarget c) := by
  unfold CapsInst.jumpingAddress
  rw [hb]
  simp only [bind, Except.bind]
  cases b with
  | false => exact ⟨i, rfl, rfl, hj⟩
  | true =>
    simp only [if_true]
    rcases hjc : i.jumpCache with _ | a
    · simp only [hc]
      exact ⟨_, rfl, rfl, Or.inr rfl⟩
    · rw [hjc] at hj
      refine ⟨i, ?_, rfl, Or.inr ?_⟩
      · rw [(hj.resolve_left (by simp)).symm]
      · rw [hjc]; exact hj.resolve_left (by simp)

theorem branchTo_eq (ids : CapIds) (c : CapInst) (b : Bool) (t : Option Int)
    (ht : t = if b then immTarget c else none) : ∀ (xs : List CapsInst) (i : CapsInst),
    i.cap = some c → i.isBranch ids = .ok b → (i.jumpCache = none ∨ i.jumpCache = immTarget c) →
    ∃ i', i.branchTo ids xs = .ok (xs.find? (fun x => t = some (x.address : Int)), i') ∧
      i'.cap = i.cap ∧ (i'.jumpCache = none ∨ i'.jumpCache = immTarget c)
  | [], i, _, _, hj => ⟨i, rfl, rfl, hj⟩
  | x :: xs, i, hc, hb, hj => by
    obtain ⟨i1, e1, h1, h2⟩ := jumpingAddress_fresh ids i c hc b hb hj
    rw [← ht] at e1
    unfold CapsInst.branchTo
    rw [e1]
    simp only [bind, Except.bind]
    by_cases h : t = some (x.address : Int)
    · rw [if_pos h]
      refine ⟨i1, ?_, h1, h2⟩
      rw [List.find?_cons_of_pos (by simpa using h)]
    · rw [if_neg h]
      obtain ⟨i2, e2, h3, h4⟩ := branchTo_eq ids c b t ht xs i1 (h1.trans hc)
        ((isBranch_congr h1).trans hb) h2
      refine ⟨i2, ?_, h3.trans h1, h4⟩
      rw [e2, List.find?_cons_of_neg (by simpa using h)]

/-- Resolving one branch in several programs, one after the other. -/
def resolveAll (ids : CapIds) : CapsInst → List (List CapsInst) → Py (List (Option CapsInst))
  | _, [] => .ok []
  | i, p :: ps => do
      let (r, i) ← i.branchTo ids p
      let rs ← resolveAll ids i ps
      .ok (r :: rs)

/-- `r` is the right resolution in program `p` of a branch to `t`. -/
def Resolves (t : Option Int) (p : List CapsInst) (r : Option CapsInst) : Prop :=
  match r with
  | some x => x ∈ p ∧ t = some (x.address : Int)
  | none => ∀ x ∈ p, t ≠ some (x.address : Int)

/-- **C56**: however often and in whatever programs a branch has been resolved
before, every resolution finds an instruction of the program at hand that lies
at the target, or nothing if there is none. -/
theorem C56_branch_to (ids : CapIds) (i : CapsInst) (c : CapInst) (hc : i.cap = some c)
    (b : Bool) (hb : i.isBranch ids = .ok b) (hj : i.jumpCache = none)
    (ps : List (List CapsInst)) :
    ∃ rs, resolveAll ids i ps = .ok rs ∧
      List.Forall₂ (Resolves (if b then immTarget c else none)) ps rs := by
  have key : ∀ (ps : List (List CapsInst)) (j : CapsInst), j.cap = i.cap →
      (j.jumpCache = none ∨ j.jumpCache = immTarget c) → ∃ rs, resolveAll ids j ps = .ok rs ∧
      List.Forall₂ (Resolves (if b then immTarget c else none)) ps rs := by
    intro ps
    induction ps with
    | nil => intro j _ _; exact ⟨[], rfl, .nil⟩
    | cons p ps ih =>
      intro j h1 h2
      obtain ⟨j', e, h3, h4⟩ := branchTo_eq ids c b _ rfl p j (h1.trans hc)
        ((isBranch_congr h1).trans hb) h2
      obtain ⟨rs, e', hrs⟩ := ih j' (h3.trans h1) h4
      refine ⟨p.find? (fun x =>
        decide ((if b then immTarget c else none) = some (x.address : Int))) :: rs, ?_, .cons ?_ hrs⟩
      · unfold resolveAll
        rw [e]
        simp only [bind, Except.bind, e']
      · rcases hf : p.find? (fun x =>
          decide ((if b then immTarget c else none) = some (x.address : Int))) with _ | x
        · rw [hf]
          intro x hx
          have := List.find?_eq_none.1 hf x hx
          simpa using this
        · rw [hf]
          refine ⟨List.mem_of_find?_eq_some hf, ?_⟩
          have := List.find?_some hf
          simpa using this
  exact key ps i rfl (Or.inl hj)

/-- A branch to 8 resolved in two programs, the second without its target. -/
example :
    let i : CapsInst := { cap := some { text := "b\t#8".toList, id := 1, cc := 15,
                                        operands := [.imm 8] }, encoding := 0xea000000, address := 0 }
    let x : CapsInst := { cap := none, encoding := 0, address := 8 }
    i.isBranch someIds = .ok true ∧
      resolveAll someIds i [[i, x], [i]] = .ok [some x, none] := by
  decide

end Verif
