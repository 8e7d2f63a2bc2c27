import Verif.Proof.BitQueue
import Verif.Proof.Modifier
import Mathlib.Tactic.IntervalCases

/-! # Properties C01-C08, C76: bits, instruction fields, bit queue -/

namespace Verif
open Spec

/-- **C01.**  A valid copy moves each bit of the source range to its shifted
place and keeps the others; an invalid one raises. -/
theorem C01_copy_bits (src dst : Nat) (srcFrom srcTo destFrom : Int) :
    (0 ≤ srcFrom ∧ srcFrom ≤ srcTo ∧ srcTo < 32 ∧ 0 ≤ destFrom ∧
        destFrom + (srcTo - srcFrom) < 32 →
      ∃ r, copyBits src dst srcFrom srcTo destFrom = .ok r ∧
        ∀ i : Nat, r.testBit i =
          if destFrom ≤ (i : Int) ∧ (i : Int) ≤ destFrom + (srcTo - srcFrom)
          then src.testBit ((i : Int) - destFrom + srcFrom).toNat else dst.testBit i) ∧
    (¬ (0 ≤ srcFrom ∧ srcFrom ≤ srcTo ∧ srcTo < 32 ∧ 0 ≤ destFrom ∧
        destFrom + (srcTo - srcFrom) < 32) →
      copyBits src dst srcFrom srcTo destFrom = .error .runtime) :=
  ⟨fun ⟨a, b, c, d, e⟩ => copyBits_spec src dst srcFrom srcTo destFrom a b c d e,
   copyBits_err src dst srcFrom srcTo destFrom⟩

/-- A concrete case of C01: bits 4..7 of `0xAB` go to bits 0..3 of `0xF0F`. -/
example : copyBits 0xAB 0xF0F 4 7 0 = .ok 0xF0A := by decide
example : copyBits 0xAB 0xF0F 4 7 29 = .error .runtime := by decide

/-- **C02.**  The bit predicates. -/
theorem C02_bit_predicates (v : Nat) (h l : Int) :
    (0 ≤ l ∧ l ≤ h ∧ h < 32 →
      (∃ m, bitsSet h l = .ok m ∧ ∀ i : Nat, m.testBit i = true ↔ l ≤ i ∧ (i : Int) ≤ h) ∧
      (∃ b, areOn v h l = .ok b ∧
        (b = true ↔ ∃ i : Nat, l ≤ i ∧ (i : Int) ≤ h ∧ v.testBit i = true))) ∧
    (¬ (0 ≤ l ∧ l ≤ h ∧ h < 32) →
      bitsSet h l = .error .runtime ∧ areOn v h l = .error .runtime) ∧
    (∀ k : Nat, isOn v k = v.testBit k) ∧
    (∀ k i : Nat, (bitsOn k).testBit i = decide (i = k)) := by
  refine ⟨?_, ?_, ?_, ?_⟩
  · rintro ⟨h1, h2, h3⟩
    have e := bitsSet_ok h2 h1 h3
    have hm : ∀ i : Nat, ((2 ^ (h + 1).toNat - 1) ^^^ (2 ^ l.toNat - 1)).testBit i = true ↔
        l ≤ i ∧ (i : Int) ≤ h := by
      intro i
      rw [testBit_mask _ _ _ (by omega)]
      simp only [Bool.and_eq_true, decide_eq_true_eq]
      omega
    refine ⟨⟨_, e, hm⟩, ⟨_, by simp only [areOn, e, bind, Except.bind, pure, Except.pure]; rfl, ?_⟩⟩
    rw [decide_eq_true_eq, and_ne_zero_iff]
    constructor
    · rintro ⟨i, a, b⟩
      have := (hm i).1 b
      exact ⟨i, this.1, this.2, a⟩
    · rintro ⟨i, a, b, c⟩
      exact ⟨i, c, (hm i).2 ⟨a, b⟩⟩
  · intro hh
    have e := bitsSet_err (h := h) (l := l) (by omega)
    exact ⟨e, by simp [areOn, e, bind, Except.bind]⟩
  · intro k
    unfold isOn
    by_cases hk : v.testBit k = true
    · rw [hk, decide_eq_true_eq, and_ne_zero_iff]
      exact ⟨k, hk, by simp⟩
    · rw [Bool.not_eq_true] at hk
      rw [hk, decide_eq_false_iff_not, and_ne_zero_iff]
      rintro ⟨i, a, b⟩
      rw [Nat.testBit_two_pow, decide_eq_true_eq] at b
      subst b
      rw [hk] at a
      exact absurd a (by simp)
  · intro k i
    rw [bitsOn, Nat.testBit_two_pow]
    simp only [eq_comm]

example : bitsSet 7 4 = .ok 0xF0 ∧ areOn 0x10 7 4 = .ok true ∧ areOn 0x0F 7 4 = .ok false ∧
    isOn 5 2 = true ∧ isOn 5 1 = false := by decide

/-- **C03.**  After any sequence of edits every field holds the low four bits
of its last edit (or its old contents), and every bit outside the editable
fields is unchanged. -/
theorem C03_field_edits (inst : Nat) (es : List (Field × Nat)) :
    ∃ r, applyEdits inst es = .ok r ∧
      (∀ f, bitsAt r (fieldPos f) 4 =
        match lastEdit f es with
        | some v => bitsAt v 0 4
        | none => bitsAt inst (fieldPos f) 4) ∧
      (∀ i, ¬ inSomeField i → r.testBit i = inst.testBit i) :=
  applyEdits_spec es inst

/-- C03, consequence: the order of edits of different fields, and overwritten
edits, do not matter. -/
theorem C03_edits_commute (inst : Nat) (es es' : List (Field × Nat))
    (h : ∀ f, lastEdit f es = lastEdit f es') : applyEdits inst es = applyEdits inst es' := by
  obtain ⟨r, h1, h2, h3⟩ := applyEdits_spec es inst
  obtain ⟨r', h1', h2', h3'⟩ := applyEdits_spec es' inst
  rw [h1, h1']
  congr 1
  apply Nat.eq_of_testBit_eq
  intro i
  by_cases hi : inSomeField i
  · obtain ⟨f, ha, hb⟩ := hi
    have e : bitsAt r (fieldPos f) 4 = bitsAt r' (fieldPos f) 4 := by rw [h2, h2', h]
    have := congrArg (fun l => l[i - fieldPos f]?) e
    have hlt : i - fieldPos f < 4 := by omega
    simp only [bitsAt, List.getElem?_map, List.getElem?_range, hlt, Option.map_some,
      Option.some.injEq] at this
    rwa [show fieldPos f + (i - fieldPos f) = i by omega] at this
  · rw [h3 i hi, h3' i hi]

/-- `mov r0, r1` (`0xE1A00001`) with rd set to 3 and then the condition to 0. -/
example : applyEdits 0xE1A00001 [(.rd, 3), (.cond, 0)] = .ok 0x01A03001 ∧
    applyEdits 0xE1A00001 [(.cond, 5), (.cond, 0), (.rd, 3)] = .ok 0x01A03001 := by decide

/-- **C04.**  The immediate editor writes 12 bits for load/store immediates
(bits 25-27 are `010`), 8 bits otherwise, and nothing else; so editing twice is
the same as the last edit alone. -/
theorem C04_immediate (inst imm : Nat) :
    ∃ r, modifyImmediate inst imm = .ok r ∧
      (∀ i, r.testBit i =
        if i < (if bitsAt inst 25 3 = [false, true, false] then 12 else 8)
        then imm.testBit i else inst.testBit i) ∧
      ∀ imm', modifyImmediate r imm' = modifyImmediate inst imm' := by
  have key : inst &&& 0xE000000 = 0x4000000 ↔ bitsAt inst 25 3 = [false, true, false] := by
    constructor
    · intro h
      have t : ∀ i, (inst &&& 0xE000000).testBit i = (0x4000000 : Nat).testBit i := fun i => by rw [h]
      have t25 := t 25; have t26 := t 26; have t27 := t 27
      rw [Nat.testBit_and] at t25 t26 t27
      have a : (0xE000000 : Nat).testBit 25 = true := by decide
      have b : (0xE000000 : Nat).testBit 26 = true := by decide
      have c : (0xE000000 : Nat).testBit 27 = true := by decide
      have a' : (0x4000000 : Nat).testBit 25 = false := by decide
      have b' : (0x4000000 : Nat).testBit 26 = true := by decide
      have c' : (0x4000000 : Nat).testBit 27 = false := by decide
      rw [a, a', Bool.and_true] at t25
      rw [b, b', Bool.and_true] at t26
      rw [c, c', Bool.and_true] at t27
      simp [bitsAt, List.range_succ, t25, t26, t27]
    · intro h
      simp only [bitsAt, List.range_succ, List.range_zero, List.nil_append,
        List.map_cons, List.map_nil, List.cons_append, List.cons.injEq, and_true,
        Nat.add_zero] at h
      obtain ⟨t25, t26, t27⟩ := h
      apply Nat.eq_of_testBit_eq
      intro i
      rw [Nat.testBit_and]
      by_cases hi : i < 28
      · by_cases h25 : i = 25
        · subst h25; rw [t25]; decide
        by_cases h26 : i = 26
        · subst h26; rw [t26]; decide
        by_cases h27 : i = 27
        · subst h27; rw [t27]; decide
        have hi' : i < 25 := by omega
        have e1 : (0xE000000 : Nat).testBit i = false := by interval_cases i <;> decide
        have e2 : (0x4000000 : Nat).testBit i = false := by interval_cases i <;> decide
        rw [e1, e2, Bool.and_false]
      · have e1 : (0xE000000 : Nat).testBit i = false :=
          Nat.testBit_lt_two_pow (Nat.lt_of_lt_of_le (by decide : (0xE000000 : Nat) < 2 ^ 28)
            (Nat.pow_le_pow_right (by omega) (by omega)))
        have e2 : (0x4000000 : Nat).testBit i = false :=
          Nat.testBit_lt_two_pow (Nat.lt_of_lt_of_le (by decide : (0x4000000 : Nat) < 2 ^ 28)
            (Nat.pow_le_pow_right (by omega) (by omega)))
        rw [e1, e2, Bool.and_false]
  have spec : ∀ x y, modifyImmediate x y = .ok (overlay x 0 (bitsAt y 0
      (if x &&& 0xE000000 = 0x4000000 then 12 else 8))) := by
    intro x y
    unfold modifyImmediate
    split
    · exact copyBits_overlay y x 0 0 12 11 (by omega) (by omega) (by omega) (by omega)
    · exact copyBits_overlay y x 0 0 8 7 (by omega) (by omega) (by omega) (by omega)
  have bit : ∀ x y i n, (overlay x 0 (bitsAt y 0 n)).testBit i =
      if i < n then y.testBit i else x.testBit i := by
    intro x y i n
    rw [testBit_overlay, length_bitsAt]
    by_cases h : i < n
    · simp [h, bitsAt]
    · simp [h]
  refine ⟨_, spec inst imm, ?_, ?_⟩
  · intro i
    rw [bit]
    simp only [key]
  · intro imm'
    rw [spec, spec]
    have keep : (overlay inst 0 (bitsAt imm 0 (if inst &&& 0xE000000 = 0x4000000 then 12 else 8)))
        &&& 0xE000000 = inst &&& 0xE000000 := by
      apply Nat.eq_of_testBit_eq
      intro i
      rw [Nat.testBit_and, Nat.testBit_and, bit]
      by_cases h : i < (if inst &&& 0xE000000 = 0x4000000 then 12 else 8)
      · rw [if_pos h]
        have : i < 12 := by split at h <;> omega
        have e : (0xE000000 : Nat).testBit i = false := by interval_cases i <;> decide
        simp [e]
      · rw [if_neg h]
    rw [keep]
    congr 1
    apply Nat.eq_of_testBit_eq
    intro i
    rw [bit, bit, bit]
    generalize (if inst &&& 0xE000000 = 0x4000000 then 12 else 8) = n
    by_cases h : i < n <;> simp [h]

/-- A load with a 12-bit offset and an `add` with an 8-bit immediate. -/
example : modifyImmediate 0xE59FE004 0xABC = .ok 0xE59FEABC ∧
    modifyImmediate 0xE28CCA10 0xABC = .ok 0xE28CCABC := by decide

/-- **C05.**  For word sizes dividing 32 the queue follows the first-in
first-out specification on every history that never underflows: same values
handed back, same rejections. -/
theorem C05_queue_is_fifo (ws : Nat) (hd : ws ∣ 32) (ops : List QOp) :
    (fifo ws [] ops = some none → runQueue (BitQueue.new ws) ops = .error .runtime) ∧
    (∀ outs g, fifo ws [] ops = some (some (outs, g)) →
      ∃ q, runQueue (BitQueue.new ws) ops = .ok (outs, q)) := by
  have hp : 0 < ws := Nat.pos_of_dvd_of_pos hd (by omega)
  refine ⟨fun h => ?_, fun outs g h => ?_⟩
  · exact (runQueue_refines ops _ _ (QInv.new hp hd) _ h).1 rfl
  · obtain ⟨q, h1, _⟩ := (runQueue_refines ops _ _ (QInv.new hp hd) _ h).2 outs g rfl
    exact ⟨q, h1⟩

/-- Five groups of eight bits, taken out in order at other offsets. -/
example : fifo 8 [] [.enq 0xAB 0, .enq 0xCD00 8, .deq 0 0, .enq 0x11 0, .enq 0x22 0, .enq 0x33 0,
      .deq 0 8, .deq 0xFFFF 0]
    = some (some ([0xAB, 0xCD00, 0xFF11], [bitsAt 0x22 0 8, bitsAt 0x33 0 8])) := by decide

theorem length_fifo {ws : Nat} (ops : List QOp) : ∀ g outs g',
    fifo ws g ops = some (some (outs, g')) → g.length + enqs ops = g'.length + deqs ops := by
  induction ops with
  | nil => intro g outs g' h; simp [fifo] at h; simp [h.2, enqs, deqs]
  | cons op ops ih =>
    intro g outs g' h
    cases op with
    | enq v f =>
      simp only [fifo] at h
      split at h
      · have := ih _ _ _ h
        simp [enqs, deqs] at *
        omega
      · simp at h
    | deq v t =>
      cases g with
      | nil => simp [fifo] at h
      | cons x g =>
        simp only [fifo] at h
        split at h
        · cases hr : fifo ws g ops with
          | none => simp [hr] at h
          | some r =>
            cases r with
            | none => simp [hr] at h
            | some p =>
              obtain ⟨o, g2⟩ := p
              simp only [hr, Option.map_some, Option.some.injEq, Prod.mk.injEq] at h
              have := ih _ _ _ hr
              rw [← h.2]
              simp [enqs, deqs] at *
              omega
        · simp at h

/-- **C06.**  After any accepted history without underflow, `empty()` is true
exactly when as many groups were taken out as were put in. -/
theorem C06_empty_accurate (ws : Nat) (hd : ws ∣ 32) (ops : List QOp) (outs : List Nat)
    (g : List (List Bool)) (h : fifo ws [] ops = some (some (outs, g))) :
    ∃ q, runQueue (BitQueue.new ws) ops = .ok (outs, q) ∧
      (q.empty = true ↔ enqs ops = deqs ops) := by
  have hp : 0 < ws := Nat.pos_of_dvd_of_pos hd (by omega)
  obtain ⟨q, h1, h2⟩ := (runQueue_refines ops _ _ (QInv.new hp hd) _ h).2 outs g rfl
  refine ⟨q, h1, ?_⟩
  rw [h2.empty_iff, ← List.length_eq_zero_iff]
  have := length_fifo ops _ _ _ h
  simp at this
  omega

example : (runQueue (BitQueue.new 16) [.enq 1 0, .enq 2 0, .deq 0 0, .deq 0 0]).toOption.map
    (fun r => r.2.empty) = some true := by decide

/-- **C07.**  After enqueuing the groups `vs`, the words of the queue, read
least significant bit first, are the groups in order followed by between 1 and
32 zero bits. -/
theorem C07_get_bytes (ws : Nat) (hd : ws ∣ 32) (vs : List (Nat × Nat))
    (hv : ∀ p ∈ vs, p.2 + ws ≤ 32) :
    ∃ q n, runQueue (BitQueue.new ws) (vs.map fun p => .enq p.1 p.2) = .ok ([], q) ∧
      1 ≤ n ∧ n ≤ 32 ∧
      stream q.getBytes = (vs.flatMap fun p => bitsAt p.1 p.2 ws) ++ List.replicate n false := by
  have hp : 0 < ws := Nat.pos_of_dvd_of_pos hd (by omega)
  have key : ∀ (vs : List (Nat × Nat)) (g : List (List Bool)), (∀ p ∈ vs, p.2 + ws ≤ 32) →
      fifo ws g (vs.map fun p => .enq p.1 (p.2 : Int)) =
        some (some ([], g ++ vs.map fun p => bitsAt p.1 p.2 ws)) := by
    intro vs
    induction vs with
    | nil => intro g _; simp [fifo]
    | cons p vs ih =>
      intro g h
      have hp2 := h p (by simp)
      simp only [List.map_cons, fifo]
      rw [if_pos (by omega), ih _ fun p' h' => h p' (by simp [h'])]
      simp
  obtain ⟨q, h1, h2⟩ := (runQueue_refines _ _ _ (QInv.new hp hd) _ (key vs [] hv)).2 _ _ rfl
  obtain ⟨pre, h3, h4⟩ := h2.bits
  have hdq : ∀ (vs : List (Nat × Nat)) (q q' : BitQueue) o, 
      runQueue q (vs.map fun p => .enq p.1 (p.2 : Int)) = .ok (o, q') → q'.dqBit = q.dqBit := by
    intro vs
    induction vs with
    | nil => intro q q' o h; simp [runQueue] at h; rw [h.2]
    | cons p vs ih =>
      intro q q' o h
      simp only [List.map_cons, runQueue, bind, Except.bind] at h
      split at h
      · simp at h
      · rename_i q1 he
        rw [ih _ _ _ h]
        unfold BitQueue.enqueue BitQueue.bumpEq at he
        simp only [bind, Except.bind, pure, Except.pure] at he
        split at he
        · simp at he
        · split at he
          · split at he
            · simp at he
            · split at he
              · simp at he
              · simp only [Except.ok.injEq] at he
                rw [← he]; split <;> rfl
          · split at he
            · simp at he
            · simp only [Except.ok.injEq] at he
              rw [← he]; split <;> rfl
  have hd0 := hdq _ _ _ _ h1
  have : pre = [] := by
    apply List.length_eq_zero_iff.1
    rw [h3, hd0]; rfl
  have hlt := h2.eqLt
  refine ⟨q, 32 - q.eqBit, h1, by omega, by omega, ?_⟩
  rw [BitQueue.getBytes, h4, this]
  simp [List.flatMap_def]

/-- Three groups of sixteen bits make two words. -/
example : (runQueue (BitQueue.new 16) ([(0xAAAA, 0), (0xBBBB, 0), (0xCCCC, 0)].map
    fun p : Nat × Nat => .enq p.1 p.2)).toOption.map (fun r => r.2.getBytes)
    = some [0xBBBBAAAA, 0xCCCC] := by decide

/-- The history used to refute C08 for word size `ws`: fill the first word up
to the last whole group, store one group of ones across the boundary, and read
everything back. -/
def straddle (ws : Nat) : List QOp :=
  List.replicate (32 / ws) (.enq 0 0) ++ [.enq (2 ^ ws - 1) 0] ++
  List.replicate (32 / ws + 1) (.deq 0 0)

/-- **C08 is false of the code.**  For no word size between 1 and 31 that does
not divide 32 does the queue hand back what was put in: the history `straddle`
is a legal first-in first-out history but the queue does not follow it. -/
theorem C08_refuted (ws : Nat) (h1 : 1 ≤ ws) (h2 : ws ≤ 32) (hd : ¬ ws ∣ 32) :
    ∃ outs, fifo ws [] (straddle ws) = some (some (outs, [])) ∧
      ∀ q, runQueue (BitQueue.new ws) (straddle ws) ≠ .ok (outs, q) := by
  have key : ∀ o r, fifo ws [] (straddle ws) = some (some (o, [])) →
      (runQueue (BitQueue.new ws) (straddle ws)).toOption.map (fun r => r.1) = r → r ≠ some o →
      ∃ outs, fifo ws [] (straddle ws) = some (some (outs, [])) ∧
      ∀ q, runQueue (BitQueue.new ws) (straddle ws) ≠ .ok (outs, q) := by
    intro o r a b c
    refine ⟨o, a, fun q hq => c ?_⟩
    rw [← b, hq]; rfl
  interval_cases ws <;> first
    | exact absurd (by decide) hd
    | exact key _ _ (by rfl) (by rfl) (by decide)

/-- **C08, what does hold** (missing: word sizes that do not divide 32, for
which `C08_refuted` shows a failing history): a history of a queue whose word
size divides 32 gives back what was put in. -/
theorem C08_fifo_all_sizes_partial (ws : Nat) (hd : ws ∣ 32) (ops : List QOp) (outs : List Nat)
    (g : List (List Bool)) (h : fifo ws [] ops = some (some (outs, g))) :
    ∃ q, runQueue (BitQueue.new ws) ops = .ok (outs, q) :=
  (C05_queue_is_fifo ws hd ops).2 outs g h

end Verif
