import Verif.Props.ArmInstruction
import Verif.Props.SolutionQuality
import Mathlib.Data.List.Dedup
import Mathlib.Algebra.BigOperators.Group.List.Lemmas

/-! # C81: the registers of the DARM decoder exactly, in order; C50: the count exactly -/

namespace Verif
namespace Spec

/-- The flags, `Rt` and `Rd`. -/
def plainWritten (flags : Bool) (rt rd : Option Nat) : List Nat :=
  (if flags then [17] else []) ++ rt.toList ++ rd.toList

/-- The registers of a list of registers, from 0 up, without those of `known`. -/
def maskRegs (mask : Nat) (known : List Nat) : List Nat :=
  (List.range 16).filter fun x => mask.testBit x && !decide (x ∈ known)

end Spec
open Spec

theorem registerList_eq (mask : Nat) (r : List Nat) : registerList mask r = r ++ maskRegs mask r := by
  unfold registerList forRange maskRegs
  rw [registerList_prefix]
  congr 1
  apply List.filter_congr
  intro x _
  rw [isOn_eq_testBit]
  simp

theorem pushes_iff (d : Darm) : "push".toList <:+: d.name ↔ d.instIs [['p','u','s','h']] = true := (instIs_one d _).symm

open Classical in
/-- **C81, exactly.**  The registers written are the flags, `Rt` and `Rd`, and then,
unless the instruction is a push, the missing registers of the list; all of this twice
when the register list is not empty and neither was the part before it.  The registers read are `Rn`, `Rs`, `Rm`, the flags and, for a push,
the register list. -/
theorem C81_exact (d : Darm) :
    let plain := plainWritten (decide (d.s = true ∨ Compares d.name)) d.rt d.rd
    (("push".toList <:+: d.name ∨ d.reglist = 0) → d.written = plain) ∧
    (¬ "push".toList <:+: d.name → d.reglist ≠ 0 → plain = [] → d.written = maskRegs d.reglist []) ∧
    (¬ "push".toList <:+: d.name → d.reglist ≠ 0 → plain ≠ [] →
      d.written = (plain ++ maskRegs d.reglist plain) ++ (plain ++ maskRegs d.reglist plain)) ∧
    d.read = d.rn.toList ++ d.rs.toList ++ d.rm.toList ++ (if d.cond = 14 then [] else [17]) ++
      (if "push".toList <:+: d.name then maskRegs d.reglist [] else []) := by
  intro plain
  have hp : plain = (if (d.s || d.instIs [['t','s','t'], ['t','e','q'], ['c','m','p'], ['c','m','n']]) = true
      then [17] else []) ++ d.rt.toList ++ d.rd.toList := by
    simp only [plain, plainWritten, ← instIs_cmp, Bool.or_eq_true, decide_eq_true_eq]
  have h0 : d.reglist = 0 → maskRegs d.reglist [] = [] := by
    intro h; rw [h]; simp [maskRegs]
  refine ⟨?_, ?_, ?_, ?_⟩
  · intro h
    unfold Darm.written
    simp only
    rw [← hp, if_neg]
    rw [pushes_iff] at h
    rcases h with h | h <;> simp [h]
  · intro h1 h2 h3
    rw [pushes_iff, Bool.not_eq_true] at h1
    unfold Darm.written
    simp only
    rw [← hp, if_pos (by simp [h1]; omega), h3, registerList_eq]
    rfl
  · intro h1 h2 h3
    rw [pushes_iff, Bool.not_eq_true] at h1
    unfold Darm.written
    simp only
    rw [← hp, if_pos (by simp [h1]; omega), if_neg (by simpa using h3), registerList_eq]
  · unfold Darm.read
    simp only [pushes_iff, registerList_eq, List.nil_append]
    by_cases hc : d.cond = 14 <;> by_cases hq : d.instIs [['p','u','s','h']] = true <;>
      by_cases hr : d.reglist = 0 <;> simp [hc, hq, hr, Nat.pos_iff_ne_zero, maskRegs]

/-- **C81, when nothing is listed twice.**  With registers below 16, a register is listed
twice among those written exactly when `Rt` and `Rd` are the same, or there is a register
list, the instruction is no push and something else is written. -/
theorem C81_nodup_iff (d : Darm) (ht : ∀ x, d.rt = some x → x < 16) (hd : ∀ x, d.rd = some x → x < 16) :
    d.written.Nodup ↔ (∀ x, d.rt = some x → d.rd ≠ some x) ∧
      ("push".toList <:+: d.name ∨ d.reglist = 0 ∨
        (d.rt = none ∧ d.rd = none ∧ d.s = false ∧ ¬ Compares d.name)) := by
  classical
  obtain ⟨e1, e2, e3, _⟩ := C81_exact d
  generalize hpl : plainWritten (decide (d.s = true ∨ Compares d.name)) d.rt d.rd = plain at e1 e2 e3
  have hn : plain.Nodup ↔ ∀ x, d.rt = some x → d.rd ≠ some x := by
    subst hpl
    unfold plainWritten
    by_cases hf : d.s = true ∨ Compares d.name <;> rcases hrt : d.rt with _ | a <;> rcases hrd : d.rd with _ | b <;>
      simp [hf]
    · have := hd b hrd; omega
    · have := ht a hrt; omega
    · have := hd b hrd; have := ht a hrt; constructor
      · rintro ⟨_, h⟩ e; exact h e.symm
      · intro h; exact ⟨⟨by omega, by omega⟩, fun e => h e.symm⟩
    · exact ⟨fun h e => h e.symm, fun h e => h e.symm⟩
  have hemp : plain = [] ↔ d.rt = none ∧ d.rd = none ∧ d.s = false ∧ ¬ Compares d.name := by
    subst hpl
    unfold plainWritten
    by_cases hf : d.s = true ∨ Compares d.name
    · simp only [hf, decide_true, if_true]
      constructor
      · intro h; simp at h
      · rintro ⟨_, _, h1, h2⟩
        rcases hf with hf | hf
        · simp [h1] at hf
        · exact absurd hf h2
    · rw [not_or, Bool.not_eq_true] at hf
      rcases hrt : d.rt with _ | a <;> rcases hrd : d.rd with _ | b <;> simp [hf]
  by_cases h : "push".toList <:+: d.name ∨ d.reglist = 0
  · rw [e1 h, hn]
    constructor
    · intro h'; exact ⟨h', by tauto⟩
    · exact fun h' => h'.1
  · rw [not_or] at h
    by_cases he : plain = []
    · rw [e2 h.1 h.2 he]
      have h1 := hemp.1 he
      constructor
      · intro _; exact ⟨by simp [h1.1], .inr (.inr h1)⟩
      · intro _; exact List.nodup_range.filter _
    · rw [e3 h.1 h.2 he]
      constructor
      · intro hnd
        exfalso
        obtain ⟨x, t, hx⟩ := List.exists_cons_of_ne_nil he
        rw [hx, List.nodup_append] at hnd
        exact hnd.2.2 x (by simp) x (by simp) rfl
      · rintro ⟨_, h' | h' | h'⟩
        · exact absurd h' h.1
        · exact absurd h' h.2
        · exact absurd (hemp.2 h') he

/-- A load of several registers that also names `Rt`: everything twice. -/
example : (⟨"ldm".toList, false, some 3, none, some 13, none, none, 9, 14⟩ : Darm).written = [3, 0, 3, 0] := by
  decide +kernel

/-! ### C50 -/

/-- What the count is: for every number of candidates that occurs, that number to the power
of how many addresses have it; all added up. -/
def Spec.addedPowers (lengths : List Nat) : Nat :=
  (lengths.dedup.map fun n => n ^ lengths.count n).sum

theorem keys_incKeys_nodup (ks : List Nat) : ∀ d : List (Nat × Nat), (d.map (·.1)).Nodup → ((incKeys d ks).map (·.1)).Nodup := by
  unfold incKeys
  induction ks with
  | nil => intro d h; exact h
  | cons k ks ih => intro d h; exact ih _ (keys_incKey d k h)

theorem foldl_powers (l : List (Nat × Nat)) : ∀ s : Int,
    l.foldl (fun amount b => amount + (b.1 : Int) ^ b.2) s = s + ((l.map fun b => b.1 ^ b.2).sum : Nat) := by
  induction l with
  | nil => simp
  | cons b l ih =>
    intro s
    rw [List.foldl_cons, ih, List.map_cons, List.sum_cons]
    push_cast
    rw [add_assoc]

/-- **C50, the count exactly**, whatever the program. -/
theorem C50_count_exact {R : Type} [AddCommMonoid R] (lg : Nat → R) (program : List (Nat × List SInst)) (original : List (Nat × SInst)) :
    (solutionCount lg (newQuality R program original)).1 =
      some (addedPowers (program.map fun p => p.2.length) : Int) := by
  show some ((lengthBins program).foldl (fun amount b => amount + (b.1 : Int) ^ b.2) 0) = _
  rw [foldl_powers, zero_add, lengthBins_eq]
  generalize program.map (·.2.length) = ls
  have hn := keys_incKeys_nodup ls [] (by simp)
  have hg := fun k => dictGet_incKeys ls [] k
  generalize incKeys [] ls = d at hn hg
  have h1 : (d.map fun b => b.1 ^ b.2) = (d.map (·.1)).map fun n => n ^ ls.count n := by
    rw [List.map_map]
    apply List.map_congr_left
    rintro ⟨k, n⟩ hb
    have h2 := hg k
    rw [dictGet_of_mem hn hb, dictGet_nil, plus] at h2
    split at h2
    · simp at h2
    · simp at h2
      simp [h2]
  have h2 : (d.map (·.1)).Perm ls.dedup := by
    rw [List.perm_ext_iff_of_nodup hn (List.nodup_dedup _)]
    intro k
    rw [List.mem_dedup, ← dictGet_isSome, hg k, dictGet_nil, plus]
    by_cases hk : k ∈ ls
    · have := List.count_pos_iff.2 hk
      simp [hk, this.ne']
    · simp [hk, List.count_eq_zero]
  rw [h1, (h2.map _).sum_eq]
  rfl

/-- Three addresses: two with two candidates and one with three give `2² + 3 = 7`, not 12. -/
example : Spec.addedPowers [2, 3, 2] = 7 := by decide

end Verif
