import Verif.Props.DecodedProgram

/-!
# C134: where decoded instructions are loaded

The control flow graph and the values of a program do not depend on where it is loaded,
except for instructions that are no branches by name, write the program counter and have
an immediate operand: that is taken for an address, though it does not move.
-/

namespace Verif

namespace Spec

/-- An operand of a branch after the program has moved. -/
def movedOperand (d : Int) : Operand → Operand
  | .imm v => .imm (v + d)
  | o => o

/-- The same instruction at another place: only the targets of the branches by name move. -/
structure Moved (ids : CapIds) (d : Int) (i j : CapsInst) : Prop where
  address : (j.address : Int) = i.address + d
  encoding : j.encoding = i.encoding
  jump : i.jumpCache = none ∧ j.jumpCache = none
  caches : j.readCache = i.readCache ∧ j.writtenCache = i.writtenCache
  decoded : (i.cap = none ∧ j.cap = none) ∨ ∃ c c', i.cap = some c ∧ j.cap = some c' ∧ c'.id = c.id ∧ c'.cc = c.cc ∧
    ("push".toList <+: c'.text ↔ "push".toList <+: c.text) ∧ ("pop".toList <+: c'.text ↔ "pop".toList <+: c.text) ∧
    (NamedBranch ids c → c'.operands = c.operands.map (movedOperand d)) ∧ (¬ NamedBranch ids c → c'.operands = c.operands)

/-- No instruction that writes the program counter, other than branches by name, has an
immediate that is the address of an instruction. -/
def NoFixedTargets (ids : CapIds) (prog : List CapsInst) : Prop :=
  ∀ i ∈ prog, ∀ c, i.cap = some c → ¬ NamedBranch ids c → i.isBranch ids = .ok true →
    ∀ v, immTarget c = some v → ∀ x ∈ prog, (x.address : Int) ≠ v

end Spec

open Spec

theorem moved_fold (d : Int) : ∀ (os : List Operand) (r : List Nat),
    (os.map (movedOperand d)).foldlM addOperand r = os.foldlM addOperand r
  | [], r => rfl
  | o :: os, r => by
    rw [List.map_cons, List.foldlM_cons, List.foldlM_cons]
    have h : addOperand r (movedOperand d o) = addOperand r o := by cases o <;> rfl
    rw [h]
    congr 1
    funext r'
    exact moved_fold d os r'

theorem moved_target (d : Int) (os : List Operand) :
    ((os.map (movedOperand d)).findSome? fun o => match o with | .imm v => some v | _ => none) =
      (os.findSome? fun o => match o with | .imm v => some v | _ => none).map (· + d) := by
  induction os with
  | nil => rfl
  | cons o os ih =>
    cases o <;> simp only [List.map_cons, movedOperand, List.findSome?_cons, ih, Option.map_some]

section
variable {ids : CapIds} {d : Int} {i j : CapsInst}

theorem Spec.Moved.isA (h : Moved ids d i j) : j.isA ['p', 'u', 's', 'h'] = i.isA ['p', 'u', 's', 'h'] ∧
    j.isA ['p', 'o', 'p'] = i.isA ['p', 'o', 'p'] := by
  rcases h.decoded with ⟨h1, h2⟩ | ⟨c, c', h1, h2, -, -, h3, h4, -⟩
  · unfold CapsInst.isA; rw [h1, h2]; exact ⟨rfl, rfl⟩
  · constructor
    · rw [Bool.eq_iff_iff]
      exact (isA_iff h2 _).trans (h3.trans (isA_iff h1 _).symm)
    · rw [Bool.eq_iff_iff]
      exact (isA_iff h2 _).trans (h4.trans (isA_iff h1 _).symm)

theorem Spec.Moved.used (h : Moved ids d i j) : j.registersUsed = i.registersUsed := by
  unfold CapsInst.registersUsed CapsInst.isPushPop
  rw [h.isA.1, h.isA.2]
  rcases h.decoded with ⟨h1, h2⟩ | ⟨c, c', h1, h2, -, -, -, -, h3, h4⟩
  · rw [h1, h2]
  · rw [h1, h2]
    dsimp only
    by_cases hn : NamedBranch ids c
    · rw [h3 hn, moved_fold]
    · rw [h4 hn]

theorem Spec.Moved.written (h : Moved ids d i j) : j.registersWritten = i.registersWritten := by
  unfold CapsInst.registersWritten
  rw [h.isA.1, h.isA.2, h.used]

theorem Spec.Moved.read (h : Moved ids d i j) : j.registersRead = i.registersRead := by
  unfold CapsInst.registersRead CapsInst.readBase CapsInst.isPushPop
  rw [h.isA.1, h.isA.2, h.used]

theorem Spec.Moved.branch (h : Moved ids d i j) : j.isBranch ids = i.isBranch ids := by
  unfold CapsInst.isBranch
  rw [h.written]
  rcases h.decoded with ⟨h1, h2⟩ | ⟨c, c', h1, h2, h3, -⟩
  · rw [h1, h2]
  · rw [h1, h2]; dsimp only; rw [h3]

theorem Spec.Moved.writes (h : Moved ids d i j) : j.writesMemory ids = i.writesMemory ids := by
  unfold CapsInst.writesMemory
  rcases h.decoded with ⟨h1, h2⟩ | ⟨c, c', h1, h2, h3, -⟩
  · rw [h1, h2]
  · rw [h1, h2]; dsimp only; rw [h3]

theorem Spec.Moved.reads (h : Moved ids d i j) : j.readsMemory ids = i.readsMemory ids := by
  unfold CapsInst.readsMemory
  rw [h.writes]
  rcases h.decoded with ⟨h1, h2⟩ | ⟨c, c', h1, h2, -, -, -, -, h3, h4⟩
  · rw [h1, h2]
  · rw [h1, h2]
    dsimp only
    by_cases hn : NamedBranch ids c
    · rw [h3 hn, List.any_map]
      congr 2
      refine congrArg (List.any c.operands) ?_
      funext o
      cases o <;> rfl
    · rw [h4 hn]

theorem Spec.Moved.access (h : Moved ids d i j) : j.access ids = i.access ids := by
  have hr : j.freshRead ids = i.freshRead ids := by
    unfold CapsInst.freshRead; rw [h.read, h.reads]
  have hw : j.freshWritten ids = i.freshWritten ids := by
    unfold CapsInst.freshWritten; rw [h.written, h.writes, h.branch]
  have q1 : (j.query ids .read).1 = (i.query ids .read).1 := by
    unfold CapsInst.query
    simp only [h.caches.1, hr]
    split
    · rfl
    · split <;> rfl
  have q2 : (j.query ids .written).1 = (i.query ids .written).1 := by
    unfold CapsInst.query
    simp only [h.caches.2, hw]
    split
    · rfl
    · split <;> rfl
  unfold CapsInst.access
  rw [q1, q2]
  rcases h.decoded with ⟨h1, h2⟩ | ⟨c, c', h1, h2, -⟩
  · rw [h1, h2]
  · rw [h1, h2]

end

theorem firstAt_unique {prog : List CapsInst} {t : Option Int} {r s : Option Nat} (h : FirstAt prog t r) (h' : FirstAt prog t s) :
    r = s := by
  cases r with
  | none =>
    cases s with
    | none => rfl
    | some k =>
      obtain ⟨⟨x, hx, e⟩, -⟩ := h'
      exact absurd e (h x (List.mem_of_getElem? hx))
  | some k =>
    obtain ⟨⟨x, hx, e⟩, h2⟩ := h
    cases s with
    | none => exact absurd e (h' x (List.mem_of_getElem? hx))
    | some l =>
      obtain ⟨⟨y, hy, e'⟩, h2'⟩ := h'
      rcases Nat.lt_trichotomy k l with hl | hl | hl
      · exact absurd e (h2' k hl x hx)
      · rw [hl]
      · exact absurd e' (h2 l hl y hy)

theorem firstAt_moved {ids : CapIds} {d : Int} {prog prog' : List CapsInst} (h : List.Forall₂ (Moved ids d) prog prog') {t : Option Int}
    {r : Option Nat} (hr : FirstAt prog' (t.map (· + d)) r) : FirstAt prog t r := by
  have hlen := h.length_eq
  have hget : ∀ (k : Nat) (x : CapsInst), prog[k]? = some x → ∃ y : CapsInst, prog'[k]? = some y ∧ (y.address : Int) = x.address + d := by
    intro k x hx
    obtain ⟨hk, rfl⟩ := List.getElem?_eq_some_iff.1 hx
    exact ⟨prog'[k]'(by omega), List.getElem?_eq_getElem _, (h.get hk (by omega)).address⟩
  have heq : ∀ x y : CapsInst, (y.address : Int) = x.address + d → (t.map (· + d) = some (y.address : Int) ↔ t = some (x.address : Int)) := by
    intro x y e
    cases t with
    | none => simp
    | some v => simp only [Option.map_some, Option.some.injEq]; omega
  cases r with
  | none =>
    intro x hx
    obtain ⟨k, hk⟩ := List.getElem?_of_mem hx
    obtain ⟨y, hy, e⟩ := hget k x hk
    exact fun e' => hr y (List.mem_of_getElem? hy) ((heq x y e).2 e')
  | some k =>
    obtain ⟨⟨y, hy, e⟩, h2⟩ := hr
    have hk : k < prog.length := by
      have := (List.getElem?_eq_some_iff.1 hy).1
      omega
    obtain ⟨y', hy', e'⟩ := hget k _ (List.getElem?_eq_getElem hk)
    rw [hy] at hy'
    cases hy'
    refine ⟨⟨_, List.getElem?_eq_getElem hk, (heq _ _ e').1 e⟩, fun l hl x hx e'' => ?_⟩
    obtain ⟨z, hz, ez⟩ := hget l x hx
    exact h2 l hl z hz ((heq x z ez).2 e'')

theorem answers_moved {ids : CapIds} {d : Int} {prog prog' : List CapsInst} (h : List.Forall₂ (Moved ids d) prog prog')
    (h1 : NoFixedTargets ids prog) (h2 : NoFixedTargets ids prog') {i j : CapsInst} (hi : i ∈ prog) (hj : j ∈ prog')
    (hm : Moved ids d i j) : j.answers ids prog' = i.answers ids prog := by
  unfold CapsInst.answers
  rcases hm.decoded with ⟨e1, e2⟩ | ⟨c, c', e1, e2, e3, e4, -, -, e5, e6⟩
  · rw [e1, e2]
  · rw [e1, e2]
    have hcf : j.condField = i.condField := by unfold CapsInst.condField; rw [e1, e2]; dsimp only; rw [e4]
    simp only [hcf, hm.branch, hm.encoding]
    cases hb : i.isBranch ids with
    | error e => rfl
    | ok b =>
      cases b with
      | false => rfl
      | true =>
        have hb' : j.isBranch ids = .ok true := by rw [hm.branch]; exact hb
        obtain ⟨r, i', er, hr⟩ := branchPos_eq ids c true prog i 0 e1 hb (Or.inl hm.jump.1)
        obtain ⟨s, j', es, hs⟩ := branchPos_eq ids c' true prog' j 0 e2 hb' (Or.inl hm.jump.2)
        have hrs : r = s := by
          by_cases hn : NamedBranch ids c
          · have ht : immTarget c' = (immTarget c).map (· + d) := by
              unfold immTarget
              rw [e5 hn]
              exact moved_target d c.operands
            simp only [if_true] at hr hs
            rw [ht] at hs
            exact firstAt_unique hr (firstAt_moved h hs)
          · have ht : immTarget c' = immTarget c := by unfold immTarget; rw [e6 hn]
            have hn' : ¬ NamedBranch ids c' := by unfold NamedBranch; rw [e3]; exact hn
            have a1 : FirstAt prog (immTarget c) none := fun x hx e => h1 i hi c e1 hn hb _ e x hx rfl
            have a2 : FirstAt prog' (immTarget c') none := fun x hx e => h2 j hj c' e2 hn' hb' _ e x hx rfl
            simp only [if_true] at hr hs
            rw [firstAt_unique hr a1, firstAt_unique hs a2]
        simp only [bind, Except.bind]
        rw [er, es, hrs]

theorem forall2_mapM {α β γ : Type} {R : α → β → Prop} {f : α → Py γ} {g : β → Py γ} {l : List α} {l' : List β}
    (h : List.Forall₂ R l l') (hfg : ∀ x ∈ l, ∀ y ∈ l', R x y → g y = f x) : l'.mapM g = l.mapM f := by
  induction h with
  | nil => rfl
  | cons hx hl ih =>
    rw [List.mapM_cons, List.mapM_cons, hfg _ (by simp) _ (by simp) hx,
      ih fun x hx y hy => hfg x (List.mem_cons_of_mem _ hx) y (List.mem_cons_of_mem _ hy)]

/-- **C134, what holds.**  A program loaded at another place has the same control flow graph
and the same values, when no immediate of an instruction that writes the program counter
and is no branch by name is an address of the program.  Missing: the other programs, for
which it is false (`C134_refuted`). -/
theorem C134_moved_partial (ids : CapIds) (d : Int) (prog prog' : List CapsInst) (h : List.Forall₂ (Moved ids d) prog prog')
    (h1 : NoFixedTargets ids prog) (h2 : NoFixedTargets ids prog') :
    decodedCfg ids prog' = decodedCfg ids prog ∧ ∀ fuel, decodedValues ids prog' fuel = decodedValues ids prog fuel := by
  have ha : prog'.mapM (CapsInst.answers ids prog') = prog.mapM (CapsInst.answers ids prog) :=
    forall2_mapM h fun i hi j hj hm => answers_moved h h1 h2 hi hj hm
  have hc : prog'.mapM (CapsInst.access ids) = prog.mapM (CapsInst.access ids) :=
    forall2_mapM h fun i _ j _ hm => hm.access
  unfold decodedCfg decodedValues
  rw [ha, hc]
  exact ⟨rfl, fun _ => rfl⟩

/-- `add pc, pc, #4` and two more instructions. -/
def pcAdder (a : Nat) : List CapsInst :=
  [{ cap := some { text := "add\tpc, pc, #4".toList, id := 9, cc := 15, operands := [.reg 11, .reg 11, .imm 4] }, encoding := 0xe28ff004, address := a },
   { cap := some { text := "mov\tr1, r2".toList, id := 10, cc := 15, operands := [.reg 67, .reg 68] }, encoding := 0xe1a01002, address := a + 4 },
   { cap := some { text := "mov\tr1, r3".toList, id := 10, cc := 15, operands := [.reg 67, .reg 69] }, encoding := 0xe1a01003, address := a + 8 }]

/-- **C134 is false**: at address 0 the immediate of `add pc, pc, #4` is taken for the address of
the next instruction, elsewhere it leads to an unknown place. -/
theorem C134_refuted : ∃ prog prog' g g', List.Forall₂ (Moved someIds 100) prog prog' ∧
    decodedCfg someIds prog = .ok g ∧ decodedCfg someIds prog' = .ok g' ∧
    (∀ n ∈ g.nodes, g.kind n ≠ .unknown) ∧ ∃ n ∈ g'.nodes, g'.kind n = .unknown := by
  refine ⟨pcAdder 0, pcAdder 100, _, _, ?_, rfl, rfl, by decide +kernel, by decide +kernel⟩
  have hn : ∀ k, k ∉ [1, 2, 3, 4] → ∀ c : CapInst, c.id = k → ¬ NamedBranch someIds c := by
    intro k hk c hc h
    unfold NamedBranch at h
    rw [hc] at h
    exact hk (by simpa [someIds] using h)
  refine .cons ?_ (.cons ?_ (.cons ?_ .nil)) <;>
    exact ⟨by decide, rfl, ⟨rfl, rfl⟩, ⟨rfl, rfl⟩, Or.inr ⟨_, _, rfl, rfl, rfl, rfl, Iff.rfl, Iff.rfl,
      fun h => absurd h (hn _ (by decide) _ rfl), fun _ => rfl⟩⟩

/-- The loop of `countLoop` loaded at 0x8000. -/
def countLoopMoved : List CapsInst :=
  [{ cap := some { text := "mov\tr1, #5".toList, id := 9, cc := 15, operands := [.reg 67, .imm 5] }, encoding := 0xe3a01005, address := 0x8000 },
   { cap := some { text := "subs\tr1, r1, #1".toList, id := 10, cc := 15, operands := [.reg 67, .reg 67, .imm 1] },
     encoding := 0xe2511001, address := 0x8004 },
   { cap := some { text := "bne\t#0x8004".toList, id := 1, cc := 2, operands := [.imm 0x8004] }, encoding := 0x1afffffd, address := 0x8008 },
   { cap := none, encoding := 0xffffffff, address := 0x800c },
   { cap := some { text := "bx\tlr".toList, id := 2, cc := 15, operands := [.reg 10] }, encoding := 0xe12fff1e, address := 0x8010 }]

theorem C134_case : List.Forall₂ (Moved someIds 0x8000) countLoop countLoopMoved ∧
    NoFixedTargets someIds countLoop ∧ NoFixedTargets someIds countLoopMoved ∧
    decodedCfg someIds countLoopMoved = decodedCfg someIds countLoop := by
  have hn : ∀ k, k ∉ [1, 2, 3, 4] → ∀ c : CapInst, c.id = k → ¬ NamedBranch someIds c := by
    intro k hk c hc h
    unfold NamedBranch at h
    rw [hc] at h
    exact hk (by simpa [someIds] using h)
  have hm : List.Forall₂ (Moved someIds 0x8000) countLoop countLoopMoved := by
    refine .cons ?_ (.cons ?_ (.cons ?_ (.cons ?_ (.cons ?_ .nil))))
    · exact ⟨by decide, rfl, ⟨rfl, rfl⟩, ⟨rfl, rfl⟩, Or.inr ⟨_, _, rfl, rfl, rfl, rfl, Iff.rfl, Iff.rfl,
        fun h => absurd h (hn _ (by decide) _ rfl), fun _ => rfl⟩⟩
    · exact ⟨by decide, rfl, ⟨rfl, rfl⟩, ⟨rfl, rfl⟩, Or.inr ⟨_, _, rfl, rfl, rfl, rfl, Iff.rfl, Iff.rfl,
        fun h => absurd h (hn _ (by decide) _ rfl), fun _ => rfl⟩⟩
    · exact ⟨by decide, rfl, ⟨rfl, rfl⟩, ⟨rfl, rfl⟩, Or.inr ⟨_, _, rfl, rfl, rfl, rfl, by decide, by decide,
        fun _ => rfl, fun h => absurd (Or.inl rfl) h⟩⟩
    · exact ⟨by decide, rfl, ⟨rfl, rfl⟩, ⟨rfl, rfl⟩, Or.inl ⟨rfl, rfl⟩⟩
    · exact ⟨by decide, rfl, ⟨rfl, rfl⟩, ⟨rfl, rfl⟩, Or.inr ⟨_, _, rfl, rfl, rfl, rfl, Iff.rfl, Iff.rfl,
        fun _ => rfl, fun h => absurd (Or.inr (Or.inl rfl)) h⟩⟩
  have hf : ∀ p : List CapsInst, (∀ i ∈ p, (∃ c, i.cap = some c ∧ (c.id = 1 ∨ c.id = 2)) ∨ i.isBranch someIds ≠ .ok true) →
      NoFixedTargets someIds p := by
    intro p hp i hi c hc hnb hb
    rcases hp i hi with ⟨c', hc', h⟩ | h
    · rw [hc] at hc'
      cases hc'
      exact absurd (h.imp id Or.inl) hnb
    · exact absurd hb h
  have f1 := hf countLoop (by
    intro i hi
    simp only [countLoop, List.mem_cons, List.not_mem_nil, or_false] at hi
    rcases hi with rfl | rfl | rfl | rfl | rfl
    · exact Or.inr (by intro h; cases h)
    · exact Or.inr (by intro h; cases h)
    · exact Or.inl ⟨_, rfl, Or.inl rfl⟩
    · exact Or.inr (by intro h; cases h)
    · exact Or.inl ⟨_, rfl, Or.inr rfl⟩)
  have f2 := hf countLoopMoved (by
    intro i hi
    simp only [countLoopMoved, List.mem_cons, List.not_mem_nil, or_false] at hi
    rcases hi with rfl | rfl | rfl | rfl | rfl
    · exact Or.inr (by intro h; cases h)
    · exact Or.inr (by intro h; cases h)
    · exact Or.inl ⟨_, rfl, Or.inl rfl⟩
    · exact Or.inr (by intro h; cases h)
    · exact Or.inl ⟨_, rfl, Or.inr rfl⟩)
  exact ⟨hm, f1, f2, (C134_moved_partial someIds 0x8000 _ _ hm f1 f2).1⟩

end Verif
