import Verif.Model.DarmInstruction
import Verif.Props.ArmInstruction
import Verif.Props.Instruction

/-!
# C99: what the DARM wrapper reports.  C100: encodings that cannot be disassembled
-/

namespace Verif
open Spec

namespace Spec

/-- The first part of a text that has a comma: what is before the first comma. -/
def FirstPart (text a : List Char) : Prop := ',' ∉ a ∧ ∃ rest, text = a ++ ',' :: rest

/-- The second part: what is between the first comma and the next one or the end. -/
def SecondPart (text b : List Char) : Prop :=
  ',' ∉ b ∧ ∃ a, ',' ∉ a ∧ (text = a ++ ',' :: b ∨ ∃ rest, text = a ++ ',' :: (b ++ ',' :: rest))

/-- The text has a square bracket. -/
def Bracketed (s : List Char) : Prop := '[' ∈ s ∨ ']' ∈ s

/-- The answers to queries asked one after the other. -/
def darmAnswers (i : DarmInst) : List Storage → List (Py (List Nat))
  | [] => []
  | q :: qs => (i.query q).1 :: darmAnswers (i.query q).2 qs

end Spec

theorem splitComma_ne (t : List Char) : splitComma t ≠ [] := by
  cases t with
  | nil => simp [splitComma]
  | cons c t =>
    unfold splitComma
    split
    · simp
    · split <;> simp

theorem splitComma_none {a : List Char} (h : ',' ∉ a) : splitComma a = [a] := by
  induction a with
  | nil => rfl
  | cons c t ih =>
    simp only [List.mem_cons, not_or] at h
    unfold splitComma
    rw [if_neg (fun e => h.1 e.symm), ih h.2]

theorem splitComma_append {a : List Char} (h : ',' ∉ a) (rest : List Char) :
    splitComma (a ++ ',' :: rest) = a :: splitComma rest := by
  induction a with
  | nil => simp [splitComma]
  | cons c t ih =>
    simp only [List.mem_cons, not_or] at h
    rw [List.cons_append, splitComma, if_neg (fun e => h.1 e.symm), ih h.2]

theorem comma_cases (t : List Char) : ',' ∉ t ∨ ∃ a rest, ',' ∉ a ∧ t = a ++ ',' :: rest := by
  induction t with
  | nil => simp
  | cons c t ih =>
    by_cases hc : c = ','
    · exact .inr ⟨[], t, by simp, by rw [hc]; rfl⟩
    · rcases ih with h | ⟨a, rest, h, e⟩
      · exact .inl (by simp only [List.mem_cons, not_or]; exact ⟨fun e => hc e.symm, h⟩)
      · exact .inr ⟨c :: a, rest, by simp only [List.mem_cons, not_or]; exact ⟨fun e => hc e.symm, h⟩, by rw [e]; rfl⟩

theorem first_unique {a b r s : List Char} (ha : ',' ∉ a) (hb : ',' ∉ b) (h : a ++ ',' :: r = b ++ ',' :: s) :
    a = b ∧ r = s := by
  induction a generalizing b with
  | nil =>
    cases b with
    | nil => simpa using h
    | cons c t =>
      simp only [List.nil_append, List.cons_append, List.cons.injEq] at h
      exact absurd (by rw [h.1]; simp) hb
  | cons c t ih =>
    cases b with
    | nil =>
      simp only [List.nil_append, List.cons_append, List.cons.injEq] at h
      exact absurd (by rw [h.1]; simp) ha
    | cons c' t' =>
      simp only [List.cons_append, List.cons.injEq] at h
      simp only [List.mem_cons, not_or] at ha hb
      obtain ⟨e1, e2⟩ := ih ha.2 hb.2 h.2
      exact ⟨by rw [h.1, e1], e2⟩

theorem hasBracket_iff (s : List Char) : hasBracket s = true ↔ Bracketed s := by
  unfold hasBracket Bracketed
  simp

theorem writes_iff {i : DarmInst} {d : DarmText} (hd : i.dis = some d) :
    i.writesMemory = true ↔ ∃ a, FirstPart d.text a ∧ (Bracketed a ∨ "push".toList <:+: d.darm.name) := by
  unfold DarmInst.writesMemory
  rw [hd]
  simp only
  rcases comma_cases d.text with h | ⟨a, rest, h, e⟩
  · rw [splitComma_none h]
    simp only [Bool.false_eq_true, false_iff, not_exists]
    rintro a ⟨⟨_, rest, e⟩, _⟩
    exact h (by rw [e]; simp)
  · rw [e, splitComma_append h]
    obtain ⟨p, ps, hp⟩ := List.exists_cons_of_ne_nil (splitComma_ne rest)
    rw [hp]
    simp only [Bool.or_eq_true, hasBracket_iff]
    rw [show ['p','u','s','h'] = "push".toList from rfl, instIs_one]
    constructor
    · intro h'
      exact ⟨a, ⟨h, rest, rfl⟩, h'⟩
    · rintro ⟨a', ⟨h1, r', h2⟩, h3⟩
      obtain ⟨rfl, _⟩ := first_unique h h1 h2
      exact h3

theorem reads_iff {i : DarmInst} {d : DarmText} (hd : i.dis = some d) :
    i.readsMemory = true ↔ ∃ b, SecondPart d.text b ∧ (Bracketed b ∨ "pop".toList <:+: d.darm.name) := by
  unfold DarmInst.readsMemory
  rw [hd]
  simp only
  rcases comma_cases d.text with h | ⟨a, rest, h, e⟩
  · rw [splitComma_none h]
    simp only [Bool.false_eq_true, false_iff, not_exists]
    rintro b ⟨⟨_, a, _, e | ⟨rest, e⟩⟩, _⟩ <;> exact h (by rw [e]; simp)
  · rw [e, splitComma_append h]
    rcases comma_cases rest with h2 | ⟨b, rest', h2, e2⟩
    · rw [splitComma_none h2]
      simp only [Bool.or_eq_true, hasBracket_iff]
      rw [show ['p','o','p'] = "pop".toList from rfl, instIs_one]
      constructor
      · intro h'
        exact ⟨rest, ⟨h2, a, h, .inl rfl⟩, h'⟩
      · rintro ⟨b', ⟨h3, a', h4, h5 | ⟨r, h5⟩⟩, h6⟩
        · obtain ⟨_, rfl⟩ := first_unique h h4 h5
          exact h6
        · obtain ⟨_, rfl⟩ := first_unique h h4 h5
          exact absurd (by simp) h2
    · rw [e2, splitComma_append h2]
      simp only [Bool.or_eq_true, hasBracket_iff]
      rw [show ['p','o','p'] = "pop".toList from rfl, instIs_one]
      constructor
      · intro h'
        exact ⟨b, ⟨h2, a, h, .inr ⟨rest', rfl⟩⟩, h'⟩
      · rintro ⟨b', ⟨h3, a', h4, h5 | ⟨r, h5⟩⟩, h6⟩
        · obtain ⟨_, rfl⟩ := first_unique h h4 h5
          exact absurd (by simp) h3
        · obtain ⟨_, h7⟩ := first_unique h h4 h5
          obtain ⟨rfl, _⟩ := first_unique h2 h3 h7
          exact h6

/-- The list each query builds for a decoded instruction. -/
def darmFresh (i : DarmInst) : Storage → Py (List Nat)
  | .used => i.freshUsed
  | .written => i.freshWritten
  | .read => i.freshRead

/-- Each cache is empty or holds what would be built. -/
def DarmCacheOk (i : DarmInst) : Prop :=
  (i.usedCache = [] ∨ i.freshUsed = .ok i.usedCache) ∧ (i.writtenCache = [] ∨ i.freshWritten = .ok i.writtenCache) ∧
    (i.readCache = [] ∨ i.freshRead = .ok i.readCache)

theorem darmFresh_congr {i j : DarmInst} (h : i.dis = j.dis) (q : Storage) : darmFresh i q = darmFresh j q := by
  cases i
  cases j
  simp only at h
  subst h
  cases q <;> rfl

theorem darm_query_step (i : DarmInst) (q : Storage) (h : DarmCacheOk i) :
    (i.query q).1 = darmFresh i q ∧ (i.query q).2.dis = i.dis ∧ DarmCacheOk (i.query q).2 := by
  obtain ⟨h1, h2, h3⟩ := h
  cases q with
  | used =>
    unfold DarmInst.query darmFresh
    simp only
    split
    · rename_i hne
      rcases h1 with h1 | h1
      · exact absurd h1 hne
      · exact ⟨h1.symm, rfl, .inr h1, h2, h3⟩
    · cases hf : i.freshUsed with
      | error e => exact ⟨rfl, rfl, h1, h2, h3⟩
      | ok l => exact ⟨rfl, rfl, .inr hf, h2, h3⟩
  | written =>
    unfold DarmInst.query darmFresh
    simp only
    split
    · rename_i hne
      rcases h2 with h2 | h2
      · exact absurd h2 hne
      · exact ⟨h2.symm, rfl, h1, .inr h2, h3⟩
    · cases hf : i.freshWritten with
      | error e => exact ⟨rfl, rfl, h1, h2, h3⟩
      | ok l => exact ⟨rfl, rfl, h1, .inr hf, h3⟩
  | read =>
    unfold DarmInst.query darmFresh
    simp only
    split
    · rename_i hne
      rcases h3 with h3 | h3
      · exact absurd h3 hne
      · exact ⟨h3.symm, rfl, h1, h2, .inr h3⟩
    · cases hf : i.freshRead with
      | error e => exact ⟨rfl, rfl, h1, h2, h3⟩
      | ok l => exact ⟨rfl, rfl, h1, h2, .inr hf⟩

/-- **C99, stability.**  The answers do not depend on what was asked before. -/
theorem C99_stable (i : DarmInst) (h0 : i.usedCache = [] ∧ i.writtenCache = [] ∧ i.readCache = []) (qs : List Storage) :
    darmAnswers i qs = qs.map fun q => (i.query q).1 := by
  have hi : DarmCacheOk i := ⟨.inl h0.1, .inl h0.2.1, .inl h0.2.2⟩
  have hq : (fun q => (i.query q).1) = darmFresh i := funext fun q => (darm_query_step i q hi).1
  rw [hq]
  have key : ∀ (qs : List Storage) (j : DarmInst), j.dis = i.dis → DarmCacheOk j → darmAnswers j qs = qs.map (darmFresh i) := by
    intro qs
    induction qs with
    | nil => intro j _ _; rfl
    | cons q qs ih =>
      intro j hj hok
      obtain ⟨a, b, c⟩ := darm_query_step j q hok
      rw [darmAnswers, List.map_cons, a, ih _ (b.trans hj) c, darmFresh_congr hj]
  exact key qs i rfl hi

/-- **C99, what holds.**  A decoded instruction writes the registers of C81, memory when
its text has a bracket before its first comma or it is a push with several registers, and
the program counter when it is of one of the two branching kinds.  It reads the registers
of C81, and memory when its text has a bracket between its first two commas or it is a pop
with several registers.  It uses both, or nothing, which has a number of its own.  The
flags are modified exactly when the instruction sets them or compares.  Missing: that
memory is written by every store and read by no store, which is false. -/
theorem C99_storages_partial (i : DarmInst) (h0 : i.usedCache = [] ∧ i.writtenCache = [] ∧ i.readCache = []) (d : DarmText)
    (hd : i.dis = some d) (hrt : ∀ x, d.darm.rt = some x → x < 16) (hrd : ∀ x, d.darm.rd = some x → x < 16) :
    (∃ l, (i.query .written).1 = .ok l ∧ ∀ x, x ∈ l ↔ x ∈ d.darm.written ∨
      (x = 16 ∧ ∃ a, FirstPart d.text a ∧ (Bracketed a ∨ "push".toList <:+: d.darm.name)) ∨
      (x = 15 ∧ (d.instrType = 10 ∨ d.instrType = 11))) ∧
    (∃ l, (i.query .read).1 = .ok l ∧ ∀ x, x ∈ l ↔ x ∈ d.darm.read ∨
      (x = 16 ∧ ∃ b, SecondPart d.text b ∧ (Bracketed b ∨ "pop".toList <:+: d.darm.name))) ∧
    (∃ l, (i.query .used).1 = .ok l ∧ l ≠ [] ∧
      (l = [18] ∧ d.darm.used = [] ∧ i.writesMemory = false ∧ i.readsMemory = false ∨
        ∀ x, x ∈ l ↔ x ∈ d.darm.written ∨ x ∈ d.darm.read ∨
          (x = 16 ∧ ((∃ a, FirstPart d.text a ∧ (Bracketed a ∨ "push".toList <:+: d.darm.name)) ∨
            ∃ b, SecondPart d.text b ∧ (Bracketed b ∨ "pop".toList <:+: d.darm.name))))) ∧
    (∃ b, (i.modifiesFlags).1 = .ok b ∧ (b = true ↔ d.darm.s = true ∨ Compares d.darm.name)) := by
  have hok : DarmCacheOk i := ⟨.inl h0.1, .inl h0.2.1, .inl h0.2.2⟩
  have hw : ∃ l, (i.query .written).1 = .ok l ∧ ∀ x, x ∈ l ↔ x ∈ d.darm.written ∨
      (x = 16 ∧ ∃ a, FirstPart d.text a ∧ (Bracketed a ∨ "push".toList <:+: d.darm.name)) ∨
      (x = 15 ∧ (d.instrType = 10 ∨ d.instrType = 11)) := by
    rw [(darm_query_step i .written hok).1]
    rw [← writes_iff hd]
    unfold darmFresh DarmInst.freshWritten DarmInst.isBranch DarmInst.regs
    rw [hd]
    simp only [bind, Except.bind]
    cases hm : i.writesMemory <;> simp only [Bool.false_eq_true, if_false, if_true]
    · split
      · rename_i h15
        refine ⟨_, rfl, fun x => ?_⟩
        simp only [List.contains_iff_mem] at h15
        simp only [and_false, false_or]
        constructor
        · exact .inl
        · rintro (h | ⟨rfl, _⟩)
          · exact h
          · exact h15
      · refine ⟨_, rfl, fun x => ?_⟩
        rename_i h15
        simp only [h15, Bool.or_false]
        by_cases h10 : d.instrType = 10 ∨ d.instrType = 11
        · rw [if_pos (by simpa using h10)]
          simp [h10]
        · rw [if_neg (by simpa using h10)]
          simp [h10]
    · split
      · rename_i h15
        refine ⟨_, rfl, fun x => ?_⟩
        simp only [List.contains_iff_mem] at h15
        simp only [and_true, List.mem_append, List.mem_singleton] at h15 ⊢
        constructor
        · tauto
        · rintro (h | h | ⟨rfl, _⟩)
          · exact .inl h
          · exact .inr h
          · exact h15
      · refine ⟨_, rfl, fun x => ?_⟩
        rename_i h15
        have h15' : d.darm.written.contains 15 = false := by
          simp only [List.contains_iff_mem, List.mem_append, not_or] at h15
          rw [Bool.eq_false_iff]
          simpa using h15.1
        simp only [h15', Bool.or_false]
        by_cases h10 : d.instrType = 10 ∨ d.instrType = 11
        · rw [if_pos (by simpa using h10)]
          simp [h10, or_assoc]
        · rw [if_neg (by simpa using h10)]
          simp [h10]
  refine ⟨hw, ?_, ?_, ?_⟩
  · rw [(darm_query_step i .read hok).1]
    rw [← reads_iff hd]
    unfold darmFresh DarmInst.freshRead DarmInst.regs
    rw [hd]
    simp only [bind, Except.bind]
    refine ⟨_, rfl, fun x => ?_⟩
    cases hm : i.readsMemory <;> simp
  · rw [(darm_query_step i .used hok).1]
    rw [← reads_iff hd, ← writes_iff hd]
    unfold darmFresh DarmInst.freshUsed DarmInst.regs
    rw [hd]
    simp only [bind, Except.bind]
    refine ⟨_, rfl, ?_, ?_⟩
    · generalize (if (i.writesMemory || i.readsMemory) = true then d.darm.used ++ [16] else d.darm.used) = u
      split
      · simp
      · rename_i h
        simpa using h
    · by_cases hmm : (i.writesMemory || i.readsMemory) = true
      · right
        intro x
        rw [if_pos hmm]
        rw [if_neg (by simp)]
        rw [Bool.or_eq_true] at hmm
        simp [hmm, Darm.used, or_assoc]
      · rw [if_neg hmm]
        rw [Bool.not_eq_true, Bool.or_eq_false_iff] at hmm
        by_cases hu : d.darm.used.isEmpty
        · left
          have he := List.isEmpty_iff.1 hu
          rw [if_pos hu, he]
          exact ⟨rfl, rfl, hmm⟩
        · right
          intro x
          rw [if_neg hu]
          simp [hmm.1, hmm.2, Darm.used]
  · obtain ⟨l, hl, hx⟩ := hw
    refine ⟨l.contains 17, by unfold DarmInst.modifiesFlags; rw [hl]; rfl, ?_⟩
    rw [List.contains_iff_mem, hx 17, (C81_partial d.darm).2.1 17]
    constructor
    · rintro ((h | h | h | h) | h | h)
      · exact h.2
      · exact absurd (hrt _ h) (by omega)
      · exact absurd (hrd _ h) (by omega)
      · omega
      · omega
      · omega
    · intro h
      exact .inl (.inl ⟨rfl, h⟩)

/-- **C99, the jump target.**  The target is the ARM one, whether or not the instruction
is a branch, and the second answer is the same. -/
theorem C99_jump (i : DarmInst) (h0 : i.jumpCache = none) :
    ∃ t j, i.jumpingAddress = .ok (t, j) ∧ (t : Int) = branchTarget i.encoding i.address ∧ j.jumpingAddress = .ok (t, j) := by
  obtain ⟨t, h1, h2⟩ := C52_target i.encoding i.address
  refine ⟨t, { i with jumpCache := some t }, ?_, h2, rfl⟩
  unfold DarmInst.jumpingAddress
  rw [h0, h1]
  rfl

/-- **C99 is false of stores.**  A store whose first operand is a register does not write
memory but reads it: for every decoded instruction whose first part has no bracket and
whose second part has one, and that is not a push. -/
theorem C99_store_refuted (i : DarmInst) (h0 : i.usedCache = [] ∧ i.writtenCache = [] ∧ i.readCache = []) (d : DarmText)
    (hd : i.dis = some d) (hrt : ∀ x, d.darm.rt = some x → x < 16) (hrd : ∀ x, d.darm.rd = some x → x < 16)
    (hp : ¬ "push".toList <:+: d.darm.name) (a b : List Char) (ha : FirstPart d.text a) (hb : SecondPart d.text b)
    (hna : ¬ Bracketed a) (hbb : Bracketed b) :
    (∃ l, (i.query .written).1 = .ok l ∧ 16 ∉ l) ∧ ∃ l, (i.query .read).1 = .ok l ∧ 16 ∈ l := by
  obtain ⟨⟨l, h1, h2⟩, ⟨l', h3, h4⟩, _⟩ := C99_storages_partial i h0 d hd hrt hrd
  refine ⟨⟨l, h1, ?_⟩, l', h3, (h4 16).2 (.inr ⟨rfl, b, hb, .inl hbb⟩)⟩
  rw [h2, (C81_partial d.darm).2.1]
  rintro ((h | h | h | h) | ⟨_, a', ⟨ha1, ra, ha2⟩, h⟩ | h)
  · omega
  · exact absurd (hrt _ h) (by omega)
  · exact absurd (hrd _ h) (by omega)
  · omega
  · obtain ⟨hac, rest, hae⟩ := ha
    obtain ⟨rfl, _⟩ := first_unique hac ha1 (hae.symm.trans ha2)
    rcases h with h | h
    · exact hna h
    · exact hp h
  · omega

/-- **C99 is false of pushes and pops of one register**: without a comma in the text no
memory is read or written. -/
theorem C99_one_register_refuted (i : DarmInst) (d : DarmText) (hd : i.dis = some d) (hc : ',' ∉ d.text) :
    i.writesMemory = false ∧ i.readsMemory = false := by
  unfold DarmInst.writesMemory DarmInst.readsMemory
  rw [hd]
  simp only [splitComma_none hc, and_self]

/-- `str r0, [r1]` -/
def strExample : DarmInst :=
  { dis := some ⟨⟨"str".toList, false, some 0, none, some 1, none, none, 0, 14⟩, "str r0, [r1]".toList, 4⟩
    encoding := 0xe5810000
    address := 0 }

example : (strExample.query .written).1.toOption = some [0] ∧ (strExample.query .read).1.toOption = some [1, 16] := by
  decide +kernel

/-- A store meets the conditions of the refutation. -/
theorem strExample_meets : (∃ l, (strExample.query .written).1 = .ok l ∧ 16 ∉ l) ∧
    ∃ l, (strExample.query .read).1 = .ok l ∧ 16 ∈ l :=
  C99_store_refuted strExample ⟨rfl, rfl, rfl⟩ _ rfl (by decide) (by decide)
    (by rw [← hasInfix_iff]; decide) "str r0".toList " [r1]".toList
    ⟨by decide, " [r1]".toList, by decide⟩ ⟨by decide, "str r0".toList, by decide, .inl (by decide)⟩
    (by unfold Bracketed; decide) (by unfold Bracketed; decide)

/-! ### C100 -/

/-- **C100.**  An encoding that Capstone cannot disassemble is neither a push nor a pop;
every other question about it raises `AttributeError`, and the instruction is as before. -/
theorem C100_undefined (ids : CapIds) (i : CapsInst) (h : i.cap = none)
    (h0 : i.usedCache = [] ∧ i.writtenCache = [] ∧ i.readCache = []) :
    i.isPushPop = false ∧ (∀ w, i.isA w = false) ∧
    i.condField = .error .attribute ∧ i.registersUsed = .error .attribute ∧
    i.registersWritten = .error .attribute ∧ i.registersRead = .error .attribute ∧
    i.isBranch ids = .error .attribute ∧ i.jumpingAddress ids = .error .attribute ∧
    (∀ l, l ≠ [] → CapsInst.branchTo ids i l = .error .attribute) ∧
    ∀ q, i.query ids q = (.error .attribute, i) := by
  have hA : ∀ w, i.isA w = false := by
    intro w
    unfold CapsInst.isA
    rw [h]
  have hp : i.isPushPop = false := by
    unfold CapsInst.isPushPop
    rw [hA, hA]
    rfl
  have hu : i.registersUsed = .error .attribute := by
    unfold CapsInst.registersUsed
    rw [h]
  have hw : i.registersWritten = .error .attribute := by
    unfold CapsInst.registersWritten
    rw [hA, hA, hu]
    rfl
  have hr : i.registersRead = .error .attribute := by
    unfold CapsInst.registersRead CapsInst.readBase
    rw [hA, hu]
    rfl
  have hb : i.isBranch ids = .error .attribute := by
    unfold CapsInst.isBranch
    rw [h]
  have hj : i.jumpingAddress ids = .error .attribute := by
    unfold CapsInst.jumpingAddress
    rw [hb]
    rfl
  refine ⟨hp, hA, ?_, hu, hw, hr, hb, hj, ?_, ?_⟩
  · unfold CapsInst.condField
    rw [h]
  · intro l hl
    cases l with
    | nil => exact absurd rfl hl
    | cons x xs =>
      unfold CapsInst.branchTo
      rw [hj]
      rfl
  · intro q
    cases q with
    | used =>
      unfold CapsInst.query CapsInst.freshUsed
      rw [hu]
      simp [h0.1, bind, Except.bind]
    | written =>
      unfold CapsInst.query CapsInst.freshWritten
      rw [hw]
      simp [h0.2.1, bind, Except.bind]
    | read =>
      unfold CapsInst.query CapsInst.freshRead
      rw [hr]
      simp [h0.2.2, bind, Except.bind]

example : (({ cap := none, encoding := 0xffffffff, address := 0 } : CapsInst).query someIds .used).1 = .error .attribute := by
  rw [(C100_undefined someIds { cap := none, encoding := 0xffffffff, address := 0 } rfl ⟨rfl, rfl, rfl⟩).2.2.2.2.2.2.2.2.2]

/-- **C100 for the DARM wrapper.**  Not even whether it is a push can be asked; but it has
a jump target, and no memory is read or written. -/
theorem C100_darm (i : DarmInst) (h : i.isUndefined = true)
    (h0 : i.usedCache = [] ∧ i.writtenCache = [] ∧ i.readCache = []) :
    i.isPushPop = .error .attribute ∧ i.isBranch = .error .attribute ∧ i.writesMemory = false ∧ i.readsMemory = false ∧
    (i.modifiesFlags).1 = .error .attribute ∧ (∀ q, i.query q = (.error .attribute, i)) ∧
    (i.jumpCache = none → ∃ t j, i.jumpingAddress = .ok (t, j)) := by
  have hd : i.dis = none := by simpa [DarmInst.isUndefined] using h
  have hq : ∀ q, i.query q = (.error .attribute, i) := by
    intro q
    cases q with
    | used =>
      unfold DarmInst.query DarmInst.freshUsed DarmInst.regs
      rw [hd]
      simp [h0.1, bind, Except.bind]
    | written =>
      unfold DarmInst.query DarmInst.freshWritten DarmInst.regs
      rw [hd]
      simp [h0.2.1, bind, Except.bind]
    | read =>
      unfold DarmInst.query DarmInst.freshRead DarmInst.regs
      rw [hd]
      simp [h0.2.2, bind, Except.bind]
  refine ⟨?_, ?_, ?_, ?_, ?_, hq, ?_⟩
  · unfold DarmInst.isPushPop; rw [hd]
  · unfold DarmInst.isBranch; rw [hd]
  · unfold DarmInst.writesMemory; rw [hd]
  · unfold DarmInst.readsMemory; rw [hd]
  · unfold DarmInst.modifiesFlags; rw [hq]; rfl
  · intro hj
    obtain ⟨t, j, h1, _⟩ := C99_jump i hj
    exact ⟨t, j, h1⟩

end Verif
