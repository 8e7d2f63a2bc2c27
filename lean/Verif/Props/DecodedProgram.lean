import Verif.Model.DecodedProgram
import Verif.Props.Instruction
import Verif.Props.Pipeline

/-!
# C133: analysing decoded instructions

Which decoded programs can be given to the control flow graph and the SSA form, and
what they are told.
-/

namespace Verif

namespace Spec

/-- The registers of memory operands that have a storage. -/
def memRegs : List Nat := [0, 10, 11, 12, 66, 67, 68, 69, 70, 71, 72, 73, 74, 75, 76, 77, 78]

/-- Both registers of every memory operand have a storage. -/
def Readable (c : CapInst) : Prop := ∀ b x, Operand.mem b x ∈ c.operands → b ∈ memRegs ∧ x ∈ memRegs

/-- A branch by its name. -/
def NamedBranch (ids : CapIds) (c : CapInst) : Prop := c.id = ids.b ∨ c.id = ids.bx ∨ c.id = ids.bl ∨ c.id = ids.blx

/-- The first place in a program with an address. -/
def FirstAt (prog : List CapsInst) (t : Option Int) : Option Nat → Prop
  | some k => (∃ x, prog[k]? = some x ∧ t = some (x.address : Int)) ∧
      ∀ j < k, ∀ x, prog[j]? = some x → t ≠ some (x.address : Int)
  | none => ∀ x ∈ prog, t ≠ some (x.address : Int)

/-- What the control flow graph is told of an instruction of a program. -/
structure Says (ids : CapIds) (prog : List CapsInst) (i : CapsInst) (a : CfgInst) : Prop where
  undefined : a.undefined = true ↔ i.cap = none
  cond : ∀ c, i.cap = some c → a.cond = condNumber (c.cc - 1)
  branch : ∀ c, i.cap = some c → i.isBranch ids = .ok a.branch
  none : i.cap = none → a.branch = false
  link : a.link = (a.branch && i.encoding.testBit 24)
  jump : ∀ c, i.cap = some c → a.branch = true → FirstAt prog (immTarget c) a.target
  stay : a.branch = false → a.target = .none

end Spec

open Spec

theorem condNumber_inj {a b : Int} (h : condNumber a = condNumber b) : a = b := by
  unfold condNumber at h
  split at h <;> split at h <;> (try split at h) <;> (try split at h) <;> omega

theorem condNumber_always (a : Int) : condNumber a = condAlways ↔ a = 14 := by
  unfold condNumber condAlways
  constructor
  · intro h; split at h <;> (try split at h) <;> omega
  · rintro rfl; rfl

theorem memReg_ok (r : List Nat) (b : Nat) :
    (b ∈ memRegs → ∃ u, addMemReg r b = .ok u) ∧ (b ∉ memRegs → addMemReg r b = .error .key) := by
  have hk : b ∈ capstoneRegs.map (·.1) ↔ b ∈ memRegs := by
    have h1 : ∀ x ∈ capstoneRegs.map (·.1), x ∈ memRegs := by decide
    have h2 : ∀ x ∈ memRegs, x ∈ capstoneRegs.map (·.1) := by decide
    exact ⟨h1 b, h2 b⟩
  unfold addMemReg
  constructor
  · intro h
    obtain ⟨v, hv⟩ := Option.isSome_iff_exists.1 ((dictGet_isSome capstoneRegs b).2 (hk.2 h))
    rw [hv]; exact ⟨_, rfl⟩
  · intro h
    rw [(dictGet_eq_none _ _).2 fun e => h (hk.1 e)]

theorem operands_ok : ∀ (os : List Operand) (r : List Nat),
    ((∀ b x, Operand.mem b x ∈ os → b ∈ memRegs ∧ x ∈ memRegs) → ∃ u, os.foldlM addOperand r = .ok u) ∧
    ((¬ ∀ b x, Operand.mem b x ∈ os → b ∈ memRegs ∧ x ∈ memRegs) → os.foldlM addOperand r = .error .key)
  | [], r => ⟨fun _ => ⟨r, rfl⟩, fun h => absurd (by simp) h⟩
  | o :: os, r => by
    have step : (∀ b x, o = .mem b x → b ∈ memRegs ∧ x ∈ memRegs) ∧ (∃ r', addOperand r o = .ok r') ∨
        (∃ b x, o = .mem b x ∧ ¬ (b ∈ memRegs ∧ x ∈ memRegs)) ∧ addOperand r o = .error .key := by
      cases o with
      | reg v => exact Or.inl ⟨by simp, _, rfl⟩
      | imm v => exact Or.inl ⟨by simp, _, rfl⟩
      | other => exact Or.inl ⟨by simp, _, rfl⟩
      | mem b x =>
        by_cases hb : b ∈ memRegs
        · obtain ⟨u, hu⟩ := (memReg_ok r b).1 hb
          by_cases hx : x ∈ memRegs
          · obtain ⟨v, hv⟩ := (memReg_ok u x).1 hx
            refine Or.inl ⟨?_, v, ?_⟩
            · rintro _ _ ⟨⟩; exact ⟨hb, hx⟩
            · show (addMemReg r b >>= fun l => addMemReg l x) = _
              rw [hu]; exact hv
          · refine Or.inr ⟨⟨b, x, rfl, fun h => hx h.2⟩, ?_⟩
            show (addMemReg r b >>= fun l => addMemReg l x) = _
            rw [hu]; exact (memReg_ok u x).2 hx
        · refine Or.inr ⟨⟨b, x, rfl, fun h => hb h.1⟩, ?_⟩
          show (addMemReg r b >>= fun l => addMemReg l x) = _
          rw [(memReg_ok r b).2 hb]; rfl
    rw [List.foldlM_cons]
    rcases step with ⟨h1, r', h2⟩ | ⟨⟨b, x, h1, h2⟩, h3⟩
    · rw [h2]
      obtain ⟨g1, g2⟩ := operands_ok os r'
      refine ⟨fun h => g1 fun b x hm => h b x (List.mem_cons_of_mem _ hm), fun h => g2 fun g => h fun b x hm => ?_⟩
      rcases List.mem_cons.1 hm with e | e
      · exact h1 b x e.symm
      · exact g b x e
    · rw [h3]
      exact ⟨fun h => absurd (h b x (by simp [h1])) h2, fun _ => rfl⟩

theorem used_ok (i : CapsInst) (c : CapInst) (hc : i.cap = some c) :
    (Readable c → ∃ u, i.registersUsed = .ok u) ∧ (¬ Readable c → i.registersUsed = .error .key) := by
  unfold CapsInst.registersUsed
  rw [hc]
  exact operands_ok c.operands _

theorem written_ok (i : CapsInst) (c : CapInst) (hc : i.cap = some c) :
    (Readable c ∨ "push".toList <+: c.text → ∃ u, i.registersWritten = .ok u) ∧
    (¬ (Readable c ∨ "push".toList <+: c.text) → i.registersWritten = .error .key) := by
  obtain ⟨h1, h2⟩ := used_ok i c hc
  have hpush : i.isA ['p', 'u', 's', 'h'] = true ↔ "push".toList <+: c.text := isA_iff hc _
  unfold CapsInst.registersWritten
  by_cases hp : i.isA ['p', 'o', 'p'] = true
  · rw [if_pos hp]
    have hn := not_push_and_pop i hp
    have : ¬ "push".toList <+: c.text := fun e => by rw [hpush.2 e] at hn; cases hn
    exact ⟨fun h => h1 (h.resolve_right this), fun h => h2 fun e => h (Or.inl e)⟩
  · rw [if_neg hp]
    by_cases hq : i.isA ['p', 'u', 's', 'h'] = true
    · rw [if_pos hq]
      exact ⟨fun _ => ⟨_, rfl⟩, fun h => absurd (Or.inr (hpush.1 hq)) h⟩
    · rw [if_neg hq]
      constructor
      · intro h
        obtain ⟨u, hu⟩ := h1 (h.resolve_right fun e => hq (hpush.2 e))
        rw [hu]; exact ⟨_, rfl⟩
      · intro h
        rw [h2 fun e => h (Or.inl e)]; rfl

theorem branch_ok (ids : CapIds) (i : CapsInst) (c : CapInst) (hc : i.cap = some c) :
    (NamedBranch ids c ∨ Readable c ∨ "push".toList <+: c.text → ∃ b, i.isBranch ids = .ok b) ∧
    (¬ (NamedBranch ids c ∨ Readable c ∨ "push".toList <+: c.text) → i.isBranch ids = .error .key) := by
  obtain ⟨h1, h2⟩ := written_ok i c hc
  unfold CapsInst.isBranch
  rw [hc]
  dsimp only
  by_cases hn : c.id = ids.b ∨ c.id = ids.bx ∨ c.id = ids.bl ∨ c.id = ids.blx
  · rw [if_pos hn]
    exact ⟨fun _ => ⟨_, rfl⟩, fun h => absurd (Or.inl hn) h⟩
  · rw [if_neg hn]
    constructor
    · intro h
      obtain ⟨u, hu⟩ := h1 (h.resolve_left hn)
      rw [hu]; exact ⟨_, rfl⟩
    · intro h
      rw [h2 fun e => h (Or.inr e)]; rfl

theorem firstAt_shift {x : CapsInst} {xs : List CapsInst} {t : Option Int} (h : t ≠ some (x.address : Int)) (r : Option Nat) :
    FirstAt xs t r → FirstAt (x :: xs) t (r.map (· + 1)) := by
  intro hr
  cases r with
  | none =>
    intro y hy
    rcases List.mem_cons.1 hy with rfl | hy
    · exact h
    · exact hr y hy
  | some k =>
    obtain ⟨⟨y, hy, e⟩, h2⟩ := hr
    refine ⟨⟨y, by simpa using hy, e⟩, fun j hj z hz => ?_⟩
    cases j with
    | zero => simp only [List.getElem?_cons_zero, Option.some.injEq] at hz; subst hz; exact h
    | succ j =>
      dsimp only at hj
      exact h2 j (by omega) z (by simpa using hz)

theorem branchPos_eq (ids : CapIds) (c : CapInst) (hb : Bool) : ∀ (xs : List CapsInst) (i : CapsInst) (n : Nat),
    i.cap = some c → i.isBranch ids = .ok hb → (i.jumpCache = none ∨ i.jumpCache = immTarget c) →
    ∃ r i', i.branchPos ids xs n = .ok (r.map (· + n), i') ∧ FirstAt xs (if hb then immTarget c else none) r
  | [], i, n, _, _, _ => ⟨none, i, rfl, by intro x hx; simp at hx⟩
  | x :: xs, i, n, hc, h, hj => by
    obtain ⟨i1, e1, h1, h2⟩ := jumpingAddress_fresh ids i c hc hb h hj
    unfold CapsInst.branchPos
    rw [e1]
    simp only [bind, Except.bind]
    by_cases ht : (if hb then immTarget c else none) = some (x.address : Int)
    · rw [if_pos ht]
      exact ⟨some 0, i1, by simp, ⟨x, rfl, ht⟩, fun j hj => by omega⟩
    · rw [if_neg ht]
      obtain ⟨r, i2, e2, h3⟩ := branchPos_eq ids c hb xs i1 (n + 1) (h1.trans hc) ((isBranch_congr h1).trans h) h2
      refine ⟨r.map (· + 1), i2, ?_, firstAt_shift ht r h3⟩
      rw [e2]
      cases r with
      | none => rfl
      | some k => simp [Nat.add_assoc, Nat.add_comm 1 n]

/-- The position found is that of the instruction `branch_to` returns. -/
theorem C133_branch_to (ids : CapIds) : ∀ (prog : List CapsInst) (i : CapsInst) (n : Nat),
    (i.branchTo ids prog).map (·.1) =
      (i.branchPos ids prog n).map fun r => r.1.bind fun k => prog[k - n]?
  | [], i, n => rfl
  | x :: xs, i, n => by
    unfold CapsInst.branchTo CapsInst.branchPos
    cases i.jumpingAddress ids with
    | error e => rfl
    | ok a =>
      simp only [bind, Except.bind]
      split
      · simp [Except.map]
      · rw [C133_branch_to ids xs a.2 (n + 1)]
        cases hp : a.2.branchPos ids xs (n + 1) with
        | error e => rfl
        | ok r =>
          simp only [Except.map]
          congr 1
          cases hr : r.1 with
          | none => rfl
          | some k =>
            have hge : ∀ (ys : List CapsInst) (j : CapsInst) (m : Nat) r, j.branchPos ids ys m = .ok r → ∀ k, r.1 = some k → m ≤ k := by
              intro ys
              induction ys with
              | nil => intro j m r h k hk; cases h; cases hk
              | cons y ys ih =>
                intro j m r h k hk
                unfold CapsInst.branchPos at h
                cases hj : j.jumpingAddress ids with
                | error e => rw [hj] at h; cases h
                | ok b =>
                  rw [hj] at h
                  simp only [bind, Except.bind] at h
                  split at h
                  · cases h; cases hk; exact Nat.le_refl _
                  · exact Nat.le_of_succ_le (ih _ _ _ h _ hk)
            have := hge xs a.2 (n + 1) r hp k hr
            show xs[k - (n + 1)]? = (x :: xs)[k - n]?
            rw [show k - n = (k - (n + 1)) + 1 by omega, List.getElem?_cons_succ]

theorem answers_ok (ids : CapIds) (prog : List CapsInst) (i : CapsInst)
    (hj : ∀ c, i.cap = some c → i.jumpCache = none ∨ i.jumpCache = immTarget c) :
    ((∀ c, i.cap = some c → NamedBranch ids c ∨ Readable c ∨ "push".toList <+: c.text) →
      ∃ a, i.answers ids prog = .ok a ∧ Says ids prog i a) ∧
    ((¬ ∀ c, i.cap = some c → NamedBranch ids c ∨ Readable c ∨ "push".toList <+: c.text) →
      i.answers ids prog = .error .key) := by
  unfold CapsInst.answers
  cases hc : i.cap with
  | none =>
    refine ⟨fun _ => ⟨_, rfl, by simp [hc], by simp [hc], by simp [hc], fun _ => rfl, rfl, by simp [hc], fun _ => rfl⟩, fun h => ?_⟩
    exact absurd (by simp) h
  | some c =>
    obtain ⟨h1, h2⟩ := branch_ok ids i c hc
    have hcf : i.condField = .ok (c.cc - 1) := by unfold CapsInst.condField; rw [hc]
    simp only [hcf, Option.some.injEq, forall_eq']
    constructor
    · intro h
      obtain ⟨b, hb⟩ := h1 h
      cases b with
      | false =>
        refine ⟨{ cond := condNumber (c.cc - 1) }, ?_, ?_⟩
        · rw [hb]; rfl
        · exact ⟨by simp [hc], by simp [hc], by simp [hb], by simp [hc], rfl, by simp, fun _ => rfl⟩
      | true =>
        obtain ⟨r, i', e, hr⟩ := branchPos_eq ids c true prog i 0 hc hb (hj c hc)
        refine ⟨{ cond := condNumber (c.cc - 1), branch := true, link := i.encoding.testBit 24, target := r }, ?_, ?_⟩
        · rw [hb]
          simp only [bind, Except.bind]
          rw [e]
          simp
        · refine ⟨by simp [hc], by simp [hc], by simp [hb], by simp [hc], by simp, fun c' hc' _ => ?_, by simp⟩
          rw [hc] at hc'
          cases hc'
          exact hr
    · intro h
      rw [h2 h]; rfl

theorem mapM_first {α β : Type} (f : α → Py β) (P : α → Prop) (Q : α → β → Prop) (e : Err) (l : List α)
    (h : ∀ x ∈ l, (P x → ∃ y, f x = .ok y ∧ Q x y) ∧ (¬ P x → f x = .error e)) :
    ((∀ x ∈ l, P x) → ∃ r, l.mapM f = .ok r ∧ List.Forall₂ Q l r) ∧ ((¬ ∀ x ∈ l, P x) → l.mapM f = .error e) := by
  induction l with
  | nil => exact ⟨fun _ => ⟨[], rfl, .nil⟩, fun h => absurd (by simp) h⟩
  | cons x l ih =>
    obtain ⟨g1, g2⟩ := ih fun y hy => h y (List.mem_cons_of_mem _ hy)
    obtain ⟨k1, k2⟩ := h x (by simp)
    rw [List.mapM_cons]
    by_cases hx : P x
    · obtain ⟨y, hy, hq⟩ := k1 hx
      rw [hy]
      constructor
      · intro ha
        obtain ⟨r, hr, hf⟩ := g1 fun z hz => ha z (List.mem_cons_of_mem _ hz)
        rw [hr]
        exact ⟨y :: r, rfl, .cons hq hf⟩
      · intro ha
        rw [g2 fun hall => ha fun z hz => by
          rcases List.mem_cons.1 hz with rfl | hz
          · exact hx
          · exact hall z hz]
        rfl
    · rw [k2 hx]
      exact ⟨fun ha => absurd (ha x (by simp)) hx, fun _ => rfl⟩

/-- **C133, the control flow graph.**  The graph of decoded instructions is built exactly
when every one that is defined is a branch by name or a push, or its memory operands have
known registers; `KeyError` is raised otherwise.  It is the graph of what the instructions
say: their conditions, whether they branch, and the first instruction at their target. -/
theorem C133_graph (ids : CapIds) (prog : List CapsInst) (hne : prog ≠ [])
    (hj : ∀ i ∈ prog, ∀ c, i.cap = some c → i.jumpCache = none ∨ i.jumpCache = immTarget c) :
    ((∀ i ∈ prog, ∀ c, i.cap = some c → NamedBranch ids c ∨ Readable c ∨ "push".toList <+: c.text) →
      ∃ l g, List.Forall₂ (Says ids prog) prog l ∧ buildCfg l (-1) = .ok g ∧ decodedCfg ids prog = .ok g) ∧
    ((¬ ∀ i ∈ prog, ∀ c, i.cap = some c → NamedBranch ids c ∨ Readable c ∨ "push".toList <+: c.text) →
      decodedCfg ids prog = .error .key) := by
  obtain ⟨h1, h2⟩ := mapM_first (CapsInst.answers ids prog)
    (fun i => ∀ c, i.cap = some c → NamedBranch ids c ∨ Readable c ∨ "push".toList <+: c.text) (Says ids prog) .key prog
    fun i hi => answers_ok ids prog i (hj i hi)
  constructor
  · intro h
    obtain ⟨l, e, hl⟩ := h1 h
    have hl' : l ≠ [] := by
      intro e'; subst e'; cases hl; exact hne rfl
    obtain ⟨g, _, hg, -⟩ := C115_exact hl' (fun _ => ⟨[], []⟩) (Nat.lt_succ_self _)
    refine ⟨l, g, hl, hg, ?_⟩
    unfold decodedCfg
    rw [e]
    exact hg
  · intro h
    unfold decodedCfg
    rw [h2 h]
    rfl

/-- What the SSA form is told of an instruction. -/
def Spec.Accesses (ids : CapIds) (i : CapsInst) (a : Access) : Prop :=
  (i.cap = none → a = ⟨[], []⟩) ∧ ∀ c, i.cap = some c → i.freshRead ids = .ok a.reads ∧ i.freshWritten ids = .ok a.writes

theorem readsMemory_ok (ids : CapIds) (i : CapsInst) (c : CapInst) (hc : i.cap = some c) : ∃ b, i.readsMemory ids = .ok b := by
  unfold CapsInst.readsMemory CapsInst.writesMemory
  rw [hc]
  simp only [bind, Except.bind]
  split <;> exact ⟨_, rfl⟩

theorem access_ok (ids : CapIds) (i : CapsInst) (hk : CacheOk ids i) :
    ((∀ c, i.cap = some c → Readable c) → ∃ a, i.access ids = .ok a ∧ Accesses ids i a) ∧
    ((¬ ∀ c, i.cap = some c → Readable c) → (i.readCache = [] ∧ i.writtenCache = []) → i.access ids = .error .key) := by
  unfold CapsInst.access
  cases hc : i.cap with
  | none =>
    exact ⟨fun _ => ⟨_, rfl, by simp, by simp [hc]⟩, fun h => absurd (by simp) h⟩
  | some c =>
    simp only [Option.some.injEq, forall_eq']
    obtain ⟨h1, h2⟩ := used_ok i c hc
    obtain ⟨w1, w2⟩ := written_ok i c hc
    obtain ⟨b1, -⟩ := branch_ok ids i c hc
    obtain ⟨m, hm⟩ := readsMemory_ok ids i c hc
    have hw : i.writesMemory ids = .ok (decide (ids.str ≥ c.id ∧ c.id ≥ ids.strbt)) := by
      unfold CapsInst.writesMemory; rw [hc]
    constructor
    · intro hr
      obtain ⟨u, hu⟩ := h1 hr
      obtain ⟨v, hv⟩ := w1 (Or.inl hr)
      obtain ⟨b, hb⟩ := b1 (Or.inr (Or.inl hr))
      have hfr : ∃ r, i.freshRead ids = .ok r := by
        unfold CapsInst.freshRead CapsInst.registersRead CapsInst.readBase
        rw [hu, hm]
        split <;> exact ⟨_, rfl⟩
      have hfw : ∃ w, i.freshWritten ids = .ok w := by
        unfold CapsInst.freshWritten
        rw [hv, hw, hb]
        simp only [bind, Except.bind]
        split <;> split <;> exact ⟨_, rfl⟩
      obtain ⟨r, hr'⟩ := hfr
      obtain ⟨w, hw'⟩ := hfw
      have qr : (i.query ids .read).1 = .ok r := by
        unfold CapsInst.query
        simp only [hr']
        rcases hk.2.2 with h | h
        · simp [h]
        · rw [hr'] at h
          cases h
          split <;> rfl
      have qw : (i.query ids .written).1 = .ok w := by
        unfold CapsInst.query
        simp only [hw']
        rcases hk.2.1 with h | h
        · simp [h]
        · rw [hw'] at h
          cases h
          split <;> rfl
      refine ⟨⟨r, w⟩, ?_, by simp [hc], fun c' _ => ⟨hr', hw'⟩⟩
      rw [qr, qw]
      rfl
    · intro hr ⟨e1, e2⟩
      have hu := h2 hr
      by_cases hp : i.isA ['p', 'o', 'p'] = true
      · have hpush : ¬ "push".toList <+: c.text := by
          intro e
          have := not_push_and_pop i hp
          rw [show i.isA ['p', 'u', 's', 'h'] = true from (isA_iff hc _).2 e] at this
          cases this
        have hfw : i.freshWritten ids = .error .key := by
          unfold CapsInst.freshWritten
          rw [w2 fun h => h.elim hr hpush]
          rfl
        have hfr : ∃ r, i.freshRead ids = .ok r := by
          unfold CapsInst.freshRead CapsInst.registersRead CapsInst.readBase
          rw [if_pos hp, hm]
          exact ⟨_, rfl⟩
        obtain ⟨r, hfr⟩ := hfr
        have qr : (i.query ids .read).1 = .ok r := by
          unfold CapsInst.query
          simp [e1, hfr]
        have qw : (i.query ids .written).1 = .error .key := by
          unfold CapsInst.query
          simp [e2, hfw]
        rw [qr, qw]
        rfl
      · have hfr : i.freshRead ids = .error .key := by
          unfold CapsInst.freshRead CapsInst.registersRead CapsInst.readBase
          rw [if_neg hp, hu]
          rfl
        have qr : (i.query ids .read).1 = .error .key := by
          unfold CapsInst.query
          simp [e1, hfr]
        rw [qr]
        rfl

/-- **C133, the graph of the values.**  When all memory operands have known registers, the
program is analysed by what its instructions say and by the storages they read and write;
otherwise `KeyError` is raised. -/
theorem C133_values (ids : CapIds) (prog : List CapsInst) (fuel : Nat)
    (hj : ∀ i ∈ prog, i.jumpCache = none ∧ i.readCache = [] ∧ i.writtenCache = [] ∧ i.usedCache = []) :
    ((∀ i ∈ prog, ∀ c, i.cap = some c → Readable c) →
      ∃ l acc, List.Forall₂ (Says ids prog) prog l ∧ List.Forall₂ (Accesses ids) prog acc ∧
        decodedValues ids prog fuel = programValues l (fun n => acc[n]?.getD ⟨[], []⟩) fuel) ∧
    ((¬ ∀ i ∈ prog, ∀ c, i.cap = some c → Readable c) →
      decodedValues ids prog fuel = (raiseRun .key : Run NameGraph)) := by
  obtain ⟨h1, h2⟩ := mapM_first (CapsInst.answers ids prog)
    (fun i => ∀ c, i.cap = some c → NamedBranch ids c ∨ Readable c ∨ "push".toList <+: c.text) (Says ids prog) .key prog
    fun i hi => answers_ok ids prog i fun _ _ => Or.inl (hj i hi).1
  have hcache : ∀ i ∈ prog, CacheOk ids i := fun i hi =>
    ⟨Or.inl (hj i hi).2.2.2, Or.inl (hj i hi).2.2.1, Or.inl (hj i hi).2.1⟩
  obtain ⟨g1, g2⟩ := mapM_first (CapsInst.access ids) (fun i => ∀ c, i.cap = some c → Readable c) (Accesses ids) .key prog
    fun i hi => ⟨(access_ok ids i (hcache i hi)).1, fun h => (access_ok ids i (hcache i hi)).2 h ⟨(hj i hi).2.1, (hj i hi).2.2.1⟩⟩
  constructor
  · intro h
    obtain ⟨l, e, hl⟩ := h1 fun i hi c hc => Or.inr (Or.inl (h i hi c hc))
    obtain ⟨acc, e', hacc⟩ := g1 h
    refine ⟨l, acc, hl, hacc, ?_⟩
    unfold decodedValues
    rw [e, e']
    rfl
  · intro h
    unfold decodedValues
    by_cases ha : ∀ i ∈ prog, ∀ c, i.cap = some c → NamedBranch ids c ∨ Readable c ∨ "push".toList <+: c.text
    · obtain ⟨l, e, -⟩ := h1 ha
      rw [e, g2 h]
      rfl
    · rw [h2 ha]
      rfl

/-- `mov r1, #5`, `subs r1, r1, #1`, `bne` back to the subtraction, `bx lr`, with a word that
is no instruction before the last. -/
def countLoop : List CapsInst :=
  [{ cap := some { text := "mov\tr1, #5".toList, id := 9, cc := 15, operands := [.reg 67, .imm 5] }, encoding := 0xe3a01005, address := 0 },
   { cap := some { text := "subs\tr1, r1, #1".toList, id := 10, cc := 15, operands := [.reg 67, .reg 67, .imm 1] },
     encoding := 0xe2511001, address := 4 },
   { cap := some { text := "bne\t#4".toList, id := 1, cc := 2, operands := [.imm 4] }, encoding := 0x1afffffd, address := 8 },
   { cap := none, encoding := 0xffffffff, address := 12 },
   { cap := some { text := "bx\tlr".toList, id := 2, cc := 15, operands := [.reg 10] }, encoding := 0xe12fff1e, address := 16 }]

/-- The loop is found: the branch leads to the second instruction, and the return to an
unknown place. -/
theorem C133_case :
    (∀ i ∈ countLoop, ∀ c, i.cap = some c → Readable c) ∧
    (∃ g, decodedCfg someIds countLoop = .ok g ∧ (∃ u ∈ g.nodes, ∃ v ∈ g.nodes, g.insts u = [2] ∧ g.insts v = [1] ∧ (u, v) ∈ g.edges) ∧
      (∃ u ∈ g.nodes, ∃ v ∈ g.nodes, g.insts u = [4] ∧ g.kind v = .unknown ∧ (u, v) ∈ g.edges)) ∧
    decodedCfg someIds [{ cap := some { text := "vldr\ts0, [d3]".toList, id := 9, cc := 15, operands := [.mem 17 0] }, encoding := 0, address := 0 }] =
      .error .key := by
  refine ⟨?_, ⟨_, rfl, by decide +kernel, by decide +kernel⟩, rfl⟩
  intro i hi c hc b x hm
  simp only [countLoop, List.mem_cons, List.not_mem_nil, or_false] at hi
  rcases hi with rfl | rfl | rfl | rfl | rfl <;> cases hc <;> simp at hm

end Verif
