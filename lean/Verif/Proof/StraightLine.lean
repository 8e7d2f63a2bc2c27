import Mathlib.Data.List.Chain
import Verif.Proof.Pipeline
import Verif.Proof.DomLine

/-!
# Helper lemmas: the graph of a program without branches
-/

namespace Verif

open Spec (Reach Rooted Via Idom)

/-- From one block to another through conditional nodes. -/
abbrev Cfg.Leads (c : Cfg) : Nat → Nat → Prop := Via (fun u v => (u, v) ∈ c.edges) (fun k => c.kind k = .cond)

/-- `w` is the next block after `m`: `m` leads to it, and what else does leads to `m`. -/
def Cfg.Next (c : Cfg) (m w : Nat) : Prop :=
  c.Leads m w ∧ ∀ v, c.kind v ≠ .cond → c.Leads v w → v = m ∨ c.Leads v m

/-- The loop over instructions without branches. -/
structure LineInv (prog : List CfgInst) (c : Cfg) (cb : Nat) (last : Option Nat) (bs : List Nat) : Prop where
  bound : ∀ n ∈ c.nodes, n ≤ c.lastIdx
  ends : ∀ u v, (u, v) ∈ c.edges → u ∈ c.nodes ∧ v ∈ c.nodes
  nodes : c.nodes.filter (fun n => decide (c.kind n ≠ .cond)) = 1 :: 2 :: bs
  cur : (1 :: bs).getLast? = some cb
  pend : c.pending = []
  noBr : ∀ n, c.lastIsBranch prog n = false
  chain : (1 :: bs).IsChain c.Next
  lastIn : ∀ l, last = some l → l ∈ c.nodes ∧ c.kind l = .cond ∧ (l, cb) ∈ c.edges
  into : ∀ u, (u, 2) ∉ c.edges

theorem leads_mono {c c2 : Cfg} (hE : ∀ u v, (u, v) ∈ c.edges → u ∈ c.nodes ∧ v ∈ c.nodes)
    (he : ∀ e ∈ c.edges, e ∈ c2.edges) (hk : ∀ n ∈ c.nodes, c2.kind n = c.kind n) {a b : Nat} (p : c.Leads a b) : c2.Leads a b := by
  induction p with
  | direct e => exact .direct (he _ e)
  | thru e k _ ih => exact .thru (he _ e) (by rw [hk _ (hE _ _ e).2]; exact k) ih

theorem leads_old {c c2 : Cfg} (hE : ∀ u v, (u, v) ∈ c.edges → u ∈ c.nodes ∧ v ∈ c.nodes)
    (he : ∀ u v, (u, v) ∈ c2.edges → v ∈ c.nodes → (u, v) ∈ c.edges) (hk : ∀ n ∈ c.nodes, c2.kind n = c.kind n) {a b : Nat}
    (p : c2.Leads a b) (hb : b ∈ c.nodes) : c.Leads a b := by
  induction p with
  | direct e => exact .direct (he _ _ e hb)
  | @thru a k b e k' _ ih =>
    have q := ih hb
    have hm : k ∈ c.nodes := (via_ends hE q).1
    exact .thru (he _ _ e hm) (by rw [← hk _ hm]; exact k') q

theorem next_mono {c c2 : Cfg} (hE : ∀ u v, (u, v) ∈ c.edges → u ∈ c.nodes ∧ v ∈ c.nodes)
    (he : ∀ e ∈ c.edges, e ∈ c2.edges) (he' : ∀ u v, (u, v) ∈ c2.edges → v ∈ c.nodes → (u, v) ∈ c.edges)
    (hk : ∀ n ∈ c.nodes, c2.kind n = c.kind n) {m w : Nat} (h : c.Next m w) (hw : w ∈ c.nodes) : c2.Next m w := by
  refine ⟨leads_mono hE he hk h.1, fun v hv p => ?_⟩
  have q := leads_old hE he' hk p hw
  rcases h.2 v (by rw [← hk v (via_ends hE q).1]; exact hv) q with h | h
  · exact .inl h
  · exact .inr (leads_mono hE he hk h)

theorem LineInv.mem {prog : List CfgInst} {c : Cfg} {cb : Nat} {last : Option Nat} {bs : List Nat} (I : LineInv prog c cb last bs)
    {n : Nat} (hn : n ∈ 1 :: 2 :: bs) : n ∈ c.nodes ∧ c.kind n ≠ .cond := by
  rw [← I.nodes, List.mem_filter, decide_eq_true_eq] at hn
  exact hn

theorem LineInv.mem' {prog : List CfgInst} {c : Cfg} {cb : Nat} {last : Option Nat} {bs : List Nat} (I : LineInv prog c cb last bs)
    {n : Nat} (hn : n ∈ 1 :: bs) : n ∈ c.nodes ∧ c.kind n ≠ .cond := by
  refine I.mem ?_
  rcases List.mem_cons.1 hn with h | h
  · simp [h]
  · simp [h]

theorem LineInv.curIn {prog : List CfgInst} {c : Cfg} {cb : Nat} {last : Option Nat} {bs : List Nat} (I : LineInv prog c cb last bs) :
    cb ∈ c.nodes ∧ c.kind cb ≠ .cond := I.mem' (List.mem_of_getLast? I.cur)

/-- A new block, with a conditional node before it or not. -/
theorem LineInv.grow {prog : List CfgInst} {c : Cfg} {cb : Nat} {last : Option Nat} {bs : List Nat} (I : LineInv prog c cb last bs)
    {c2 : Cfg} {b : Nat} {en : Option Nat} (hb : b ∉ c.nodes) (hen : ∀ n, en = some n → n ∉ c.nodes ∧ n ≠ b ∧ c2.kind n = .cond)
    (hnodes : c2.nodes = c.nodes ++ b :: en.toList) (hbound : ∀ n ∈ c2.nodes, n ≤ c2.lastIdx) (hkb : c2.kind b ≠ .cond)
    (hk : ∀ n ∈ c.nodes, c2.kind n = c.kind n) (hpend : c2.pending = []) (hbr : ∀ n, c2.lastIsBranch prog n = false)
    (hedges : ∀ u v, (u, v) ∈ c2.edges ↔ (u, v) ∈ c.edges ∨ (v = en.getD b ∧ (u = cb ∨ last = some u)) ∨ (en = some u ∧ v = b)) :
    LineInv prog c2 b en (bs ++ [b]) := by
  have hcb := I.curIn
  have hfresh : en.getD b ∉ c.nodes := by
    cases en with
    | none => exact hb
    | some n => exact (hen n rfl).1
  have he : ∀ e ∈ c.edges, e ∈ c2.edges := fun e h => (hedges e.1 e.2).2 (.inl h)
  have he' : ∀ u v, (u, v) ∈ c2.edges → v ∈ c.nodes → (u, v) ∈ c.edges := by
    intro u v h hv
    rcases (hedges u v).1 h with h | ⟨h, _⟩ | ⟨_, h⟩
    · exact h
    · rw [h] at hv; exact absurd hv hfresh
    · rw [h] at hv; exact absurd hv hb
  have hcbe : (cb, en.getD b) ∈ c2.edges := (hedges _ _).2 (.inr (.inl ⟨rfl, .inl rfl⟩))
  -- what leads to the entry
  have hentry : ∀ v y, c2.Leads v y → y = en.getD b → v = cb ∨ c2.Leads v cb := by
    intro v y p
    induction p with
    | @direct a y e =>
      rintro rfl
      rcases (hedges _ _).1 e with h | ⟨_, h | h⟩ | ⟨h1, h2⟩
      · exact absurd (I.ends _ _ h).2 hfresh
      · exact .inl h
      · exact .inr (.direct (he _ (I.lastIn _ h).2.2))
      · rw [h1] at h2
        exact absurd h2 (hen _ h1).2.1
    | @thru a k y e hk' _ ih =>
      intro hy
      rcases ih hy with h | h
      · rw [h, hk cb hcb.1] at hk'
        exact absurd hk' hcb.2
      · exact .inr (.thru e hk' h)
  have hb' : ∀ v y, c2.Leads v y → y = b → v = en.getD b ∨ c2.Leads v (en.getD b) := by
    intro v y p
    cases hE : en with
    | none => rintro rfl; exact .inr p
    | some n =>
      show y = b → v = n ∨ c2.Leads v n
      induction p with
      | @direct a y e =>
        rintro rfl
        rcases (hedges _ _).1 e with h | ⟨h, _⟩ | ⟨h1, h2⟩
        · exact absurd (I.ends _ _ h).2 hb
        · rw [hE] at h
          exact absurd h.symm (hen n hE).2.1
        · rw [hE] at h1
          cases h1
          exact .inl rfl
      | @thru a k y e hk' _ ih =>
        intro hy
        rcases ih hy with h | h
        · rw [h] at e
          exact .inr (.direct e)
        · exact .inr (.thru e hk' h)
  have hnext : c2.Next cb b := by
    constructor
    · cases hE : en with
      | none =>
        rw [hE] at hcbe
        exact .direct hcbe
      | some n =>
        rw [hE] at hcbe
        exact .thru hcbe (hen n hE).2.2 (.direct ((hedges _ _).2 (.inr (.inr ⟨hE, rfl⟩))))
    · intro v hv p
      rcases hb' v b p rfl with h | h
      · cases hE : en with
        | none =>
          rw [hE] at h
          subst h
          exact hentry v v p (by rw [hE]; rfl)
        | some n =>
          rw [hE] at h
          subst h
          exact absurd (hen _ hE).2.2 hv
      · exact hentry v _ h rfl
  refine ⟨hbound, ?_, ?_, ?_, hpend, hbr, ?_, ?_, ?_⟩
  · intro u v h
    rw [hnodes]
    rcases (hedges u v).1 h with h | ⟨h1, h2⟩ | ⟨h1, h2⟩
    · have := I.ends u v h
      exact ⟨List.mem_append_left _ this.1, List.mem_append_left _ this.2⟩
    · refine ⟨List.mem_append_left _ ?_, List.mem_append_right _ ?_⟩
      · rcases h2 with h2 | h2
        · rw [h2]; exact hcb.1
        · exact (I.lastIn u h2).1
      · rw [h1]
        cases en <;> simp
    · rw [h1, h2]
      simp
  · rw [hnodes, List.filter_append]
    have h1 : c.nodes.filter (fun n => decide (c2.kind n ≠ .cond)) = c.nodes.filter (fun n => decide (c.kind n ≠ .cond)) :=
      List.filter_congr fun n hn => by rw [hk n hn]
    rw [h1, I.nodes, List.filter_cons_of_pos (by simpa using hkb)]
    cases hE : en with
    | none => simp
    | some n =>
      have := (hen n hE).2.2
      simp [this]
  · rw [← List.cons_append, List.getLast?_append]
    rfl
  · rw [← List.cons_append, List.isChain_append]
    refine ⟨?_, by simp, ?_⟩
    · refine I.chain.imp_of_mem_imp fun m w _ hw h => next_mono I.ends he he' hk h (I.mem' hw).1
    · intro x hx y hy
      rw [I.cur] at hx
      cases hx
      cases hy
      exact hnext
  · intro l hl
    refine ⟨?_, (hen l hl).2.2, (hedges _ _).2 (.inr (.inr ⟨hl, rfl⟩))⟩
    rw [hnodes, hl]
    simp
  · intro u h
    exact I.into u (he' u 2 h (I.mem (by simp)).1)

theorem cfg_bind_ok {α β : Type} {m : Py α} {f : α → Py β} {b : β} (h : (m >>= f) = .ok b) : ∃ a, m = .ok a ∧ f a = .ok b := by
  cases m with
  | error e => cases h
  | ok a => exact ⟨a, rfl, h⟩

theorem addBlock_inv {c c' : Cfg} {k : BlockKind} {l : List Nat} {n : Nat} (h : c.addBlock k l = .ok (n, c'))
    (hb : ∀ n ∈ c.nodes, n ≤ c.lastIdx) : n = c.lastIdx + 1 ∧ c' = c.withBlock k l := by
  unfold Cfg.addBlock at h
  split at h
  · cases h
  · have hf : c.lastIdx + 1 ∉ c.nodes := fun h => absurd (hb _ h) (by omega)
    simp only [hf, if_false] at h
    cases h
    exact ⟨rfl, rfl⟩

theorem addEdge_inv {c c' : Cfg} {u v : Nat} (h : c.addEdge u v = .ok c') : c' = { c with edges := c.edges ++ [(u, v)] } := by
  unfold Cfg.addEdge at h
  split at h
  · cases h; rfl
  · cases h

theorem needEdge_inv {c c' : Cfg} {u v : Nat} (h : c.needEdge u v = .ok c') :
    ∃ es, c' = { c with edges := es } ∧ ∀ a b, (a, b) ∈ es ↔ (a, b) ∈ c.edges ∨ (a = u ∧ b = v) := by
  unfold Cfg.needEdge at h
  split at h
  · rename_i h'
    cases h
    refine ⟨_, rfl, fun a b => ⟨.inl, ?_⟩⟩
    rintro (h | ⟨rfl, rfl⟩)
    · exact h
    · exact h'
  · rw [addEdge_inv h]
    exact ⟨_, rfl, fun a b => by simp⟩

theorem fromCond_inv {c c' : Cfg} {last : Option Nat} {v : Nat} (h : c.fromCond last v = .ok c') :
    ∃ es, c' = { c with edges := es } ∧ ∀ a b, (a, b) ∈ es ↔ (a, b) ∈ c.edges ∨ (b = v ∧ last = some a) := by
  unfold Cfg.fromCond at h
  split at h
  · cases h
    exact ⟨_, rfl, fun a b => by simp⟩
  · obtain ⟨es, e1, e2⟩ := needEdge_inv h
    refine ⟨es, e1, fun a b => ?_⟩
    rw [e2, Option.some.injEq]
    tauto

theorem fallThrough_inv {prog : List CfgInst} {c c' : Cfg} {cb v : Nat} (h : c.fallThrough prog cb v = .ok c')
    (hb : c.lastIsBranch prog cb = false) : c' = { c with edges := c.edges ++ [(cb, v)] } := by
  unfold Cfg.fallThrough at h
  rw [hb] at h
  exact addEdge_inv h

theorem fromPending_inv {c c' : Cfg} {n i : Nat} (h : c.fromPending n i = .ok c') (hp : c.pending = []) : c' = c := by
  unfold Cfg.fromPending at h
  rw [hp] at h
  exact (Except.ok.inj h).symm

theorem lastIsBranch_set {prog : List CfgInst} {c c2 : Cfg} {b : Nat} {l : List Nat} (h : ∀ n, c.lastIsBranch prog n = false)
    (hi : c2.insts = setAt c.insts b l) (hl : ∀ i, l.getLast? = some i → ((prog[i]?).map (·.branch)).getD false = false) (n : Nat) :
    c2.lastIsBranch prog n = false := by
  by_cases hn : n = b
  · unfold Cfg.lastIsBranch
    rw [hi, hn, setAt_same]
    cases hl' : l.getLast? with
    | none => rfl
    | some i => exact hl i hl'
  · have := h n
    unfold Cfg.lastIsBranch at this ⊢
    rw [hi, setAt_ne _ _ hn]
    exact this

/-- The new blocks of an instruction. -/
theorem branchConditional_line {prog : List CfgInst} {c : Cfg} {cb : Nat} {last : Option Nat} {bs : List Nat}
    (I : LineInv prog c cb last bs) {i : Nat} (hi : ((prog[i]?).map (·.branch)).getD false = false) {r : Cfg × Nat × Option Nat}
    (h : c.branchConditional prog i cb last = .ok r) : LineInv prog r.1 r.2.1 r.2.2 (bs ++ [r.2.1]) := by
  unfold Cfg.branchConditional at h
  obtain ⟨⟨b, c1⟩, h1, h⟩ := cfg_bind_ok h
  obtain ⟨rfl, rfl⟩ := addBlock_inv h1 I.bound
  have hin : ∀ n ∈ c.nodes, n ≠ c.lastIdx + 1 := fun n hn e => by have := I.bound n hn; omega
  have hin2 : ∀ n ∈ c.nodes, n ≠ c.lastIdx + 1 + 1 := fun n hn e => by have := I.bound n hn; omega
  have hcb := I.curIn
  have hbr1 : ∀ n, (c.withBlock .block [i]).lastIsBranch prog n = false :=
    lastIsBranch_set I.noBr rfl (by intro j hj; cases hj; exact hi)
  have hbd1 : ∀ n ∈ (c.withBlock .block [i]).nodes, n ≤ (c.withBlock .block [i]).lastIdx := by
    intro n hn
    rcases List.mem_append.1 hn with h | h
    · exact Nat.le_succ_of_le (I.bound n h)
    · rw [List.mem_singleton.1 h]; exact Nat.le_refl _
  split at h
  · obtain ⟨⟨n, c2⟩, h2, h⟩ := cfg_bind_ok h
    obtain ⟨rfl, rfl⟩ := addBlock_inv h2 hbd1
    obtain ⟨c3, h3, h⟩ := cfg_bind_ok h
    have := addEdge_inv h3
    subst this
    obtain ⟨c4, h4, h⟩ := cfg_bind_ok h
    have hbr2 : ∀ n, ((c.withBlock .block [i]).withBlock .cond []).lastIsBranch prog n = false :=
      lastIsBranch_set hbr1 rfl (by intro j hj; cases hj)
    have := fallThrough_inv h4 (hbr2 cb)
    subst this
    obtain ⟨c5, h5, h⟩ := cfg_bind_ok h
    obtain ⟨es, rfl, hes⟩ := fromCond_inv h5
    obtain ⟨c6, h6, h⟩ := cfg_bind_ok h
    have hp := fromPending_inv h6 I.pend
    subst hp
    cases h
    refine I.grow (fun h => hin _ h rfl) ?_ ?_ ?_ ?_ ?_ I.pend hbr2 ?_
    · rintro n hn
      cases hn
      exact ⟨fun h => hin2 _ h rfl, Nat.succ_ne_self _, setAt_same _ _ _⟩
    · show (c.nodes ++ [c.lastIdx + 1]) ++ [c.lastIdx + 1 + 1] = _
      simp [Cfg.withBlock]
    · intro n hn
      show n ≤ c.lastIdx + 1 + 1
      have hn : n ∈ (c.nodes ++ [c.lastIdx + 1]) ++ [c.lastIdx + 1 + 1] := hn
      rw [List.mem_append, List.mem_append, List.mem_singleton, List.mem_singleton] at hn
      rcases hn with (h | h) | h
      · have := I.bound n h; omega
      · omega
      · omega
    · show setAt (setAt c.kind (c.lastIdx + 1) .block) (c.lastIdx + 1 + 1) .cond (c.lastIdx + 1) ≠ .cond
      rw [setAt_ne _ _ (by omega), setAt_same]
      decide
    · intro n hn
      show setAt (setAt c.kind (c.lastIdx + 1) .block) (c.lastIdx + 1 + 1) .cond n = _
      rw [setAt_ne _ _ (hin2 n hn), setAt_ne _ _ (hin n hn)]
    · intro u v
      show (u, v) ∈ es ↔ _
      refine (hes u v).trans ?_
      simp only [Cfg.withBlock, List.mem_append, List.mem_singleton, Prod.mk.injEq, Option.getD_some, Option.some.injEq]
      constructor
      · rintro (((h | ⟨rfl, rfl⟩) | ⟨rfl, rfl⟩) | ⟨rfl, h⟩)
        · exact .inl h
        · exact .inr (.inr ⟨rfl, rfl⟩)
        · exact .inr (.inl ⟨rfl, .inl rfl⟩)
        · exact .inr (.inl ⟨rfl, .inr h⟩)
      · rintro (h | ⟨rfl, rfl | h⟩ | ⟨rfl, rfl⟩)
        · exact .inl (.inl (.inl h))
        · exact .inl (.inr ⟨rfl, rfl⟩)
        · exact .inr ⟨rfl, h⟩
        · exact .inl (.inl (.inr ⟨rfl, rfl⟩))
  · obtain ⟨c4, h4, h⟩ := cfg_bind_ok h
    have := fallThrough_inv h4 (hbr1 cb)
    subst this
    obtain ⟨c5, h5, h⟩ := cfg_bind_ok h
    obtain ⟨es, rfl, hes⟩ := fromCond_inv h5
    cases h
    refine I.grow (fun h => hin _ h rfl) (by intro n hn; cases hn) rfl hbd1 ?_ ?_ I.pend hbr1 ?_
    · show setAt c.kind (c.lastIdx + 1) .block (c.lastIdx + 1) ≠ .cond
      rw [setAt_same]
      decide
    · exact fun n hn => setAt_ne _ _ (hin n hn)
    · intro u v
      show (u, v) ∈ es ↔ _
      refine (hes u v).trans ?_
      simp only [Cfg.withBlock, List.mem_append, List.mem_singleton, Prod.mk.injEq, Option.getD_none]
      constructor
      · rintro ((h | ⟨rfl, rfl⟩) | ⟨rfl, h⟩)
        · exact .inl h
        · exact .inr (.inl ⟨rfl, .inl rfl⟩)
        · exact .inr (.inl ⟨rfl, .inr h⟩)
      · rintro (h | ⟨rfl, rfl | h⟩ | ⟨h, _⟩)
        · exact .inl (.inl h)
        · exact .inl (.inr ⟨rfl, rfl⟩)
        · exact .inr ⟨rfl, h⟩
        · cases h

/-- The loop. -/
theorem loop_line {prog : List CfgInst} (hbr : ∀ (i : Nat) (info : CfgInst), prog[i]? = some info → info.undefined = false → info.branch = false) (l : List Nat) :
    ∀ (s s' : CfgSt) (bs : List Nat), LineInv prog s.cfg s.cb s.lastNode bs → l.foldlM (cfgStep prog 2) s = .ok s' →
    ∃ bs', LineInv prog s'.cfg s'.cb s'.lastNode bs' := by
  induction l with
  | nil =>
    intro s s' bs I h
    cases h
    exact ⟨bs, I⟩
  | cons i l ih =>
    intro s s' bs I h
    rw [List.foldlM_cons] at h
    obtain ⟨s1, h1, h⟩ := cfg_bind_ok h
    unfold cfgStep at h1
    split at h1
    · cases h1
    rename_i info hinfo
    split at h1
    · cases h1
      exact ih _ _ _ I h
    rename_i hu
    have hb := hbr i info hinfo (by simpa using hu)
    have hb' : ((prog[i]?).map (·.branch)).getD false = false := by rw [hinfo]; exact hb
    unfold cfgDefined at h1
    rw [hb] at h1
    split at h1
    · have : dictGet s.cfg.pending i = none := by rw [I.pend]; rfl
      simp only [Bool.false_eq_true, if_false] at h1
      rw [this] at h1
      have h1 := Except.ok.inj h1
      subst h1
      refine ih _ _ bs ?_ h
      refine ⟨I.bound, I.ends, I.nodes, I.cur, I.pend, ?_, I.chain, I.lastIn, I.into⟩
      refine lastIsBranch_set I.noBr rfl ?_
      intro j hj
      rw [List.getLast?_append] at hj
      cases hj
      exact hb'
    · obtain ⟨r, h2, h1⟩ := cfg_bind_ok h1
      simp only [Bool.false_eq_true, if_false] at h1
      have h1 := Except.ok.inj h1
      subst h1
      exact ih _ _ _ (branchConditional_line I hb' h2) h

/-- The graph of a program without branches, after the conditional nodes are removed. -/
structure LineGraph (c : Cfg) (cb : Nat) (bs : List Nat) : Prop where
  nodes : c.nodes = 1 :: 2 :: bs
  cur : (1 :: bs).getLast? = some cb
  chain : (1 :: bs).IsChain fun m w => (m, w) ∈ c.edges ∧ ∀ v, (v, w) ∈ c.edges → v = m ∨ (v, m) ∈ c.edges
  into : ∀ v, (v, 2) ∈ c.edges ↔ v = cb

theorem straight_graph {prog : List CfgInst} (hne : prog ≠ [])
    (hbr : ∀ (i : Nat) (info : CfgInst), prog[i]? = some info → info.undefined = false → info.branch = false)
    {c c' : Cfg} (h : buildCfg prog (-1) = .ok c) (h' : c.removeConditionals = .ok c') : ∃ cb bs, LineGraph c' cb bs := by
  obtain ⟨c0, order, e, G, _⟩ := buildCfg_ok (P := fun _ => False) hne (-1) (by simp) (fun _ _ _ _ _ _ _ _ _ h => h)
  rw [h] at e
  have e := Except.ok.inj e
  subst e
  obtain ⟨c1, r1, r2, r3, r4, r5, r6, _⟩ := cfg_remove_conditionals G.nodup G.enodup G.ends
  rw [h'] at r1
  have r1 := Except.ok.inj r1
  subst r1
  unfold buildCfg at h
  rw [if_neg hne] at h
  obtain ⟨⟨a, c1⟩, h1, h⟩ := cfg_bind_ok h
  obtain ⟨rfl, rfl⟩ := addBlock_inv h1 (by simp)
  obtain ⟨⟨b, c2⟩, h2, h⟩ := cfg_bind_ok h
  obtain ⟨rfl, rfl⟩ := addBlock_inv h2 (by
    intro n hn
    have hn : n = 1 := by simpa [Cfg.withBlock] using hn
    rw [hn]
    exact Nat.le_refl 1)
  obtain ⟨s, h3, h⟩ := cfg_bind_ok h
  have I0 : LineInv prog ((({} : Cfg).withBlock .root []).withBlock .fin []) 1 none [] := by
    refine ⟨?_, ?_, by decide, rfl, rfl, ?_, by simp, by simp, ?_⟩
    · intro n hn
      have hn : n = 1 ∨ n = 2 := by simpa [Cfg.withBlock] using hn
      show n ≤ 2
      omega
    · intro u v h
      cases h
    · intro n
      have : ((({} : Cfg).withBlock .root []).withBlock .fin []).insts n = [] := by
        show setAt (setAt (fun _ => []) 1 []) 2 [] n = []
        unfold setAt
        split
        · rfl
        · split <;> rfl
      unfold Cfg.lastIsBranch
      rw [this]
      rfl
    · intro u h
      cases h
  obtain ⟨bs, I⟩ := loop_line hbr _ _ _ _ I0 h3
  obtain ⟨es, e1, hes⟩ := needEdge_inv h
  have hes : ∀ a b, (a, b) ∈ es ↔ (a, b) ∈ s.cfg.edges ∨ (a = s.cb ∧ b = 2) := hes
  have hn2 : ∀ n ∈ 1 :: bs, n ≠ 2 := by
    intro n hn
    rintro rfl
    have hd : (1 :: 2 :: bs).Nodup := by
      rw [← I.nodes]
      have := G.nodup
      rw [e1] at this
      exact this.filter _
    rcases List.mem_cons.1 hn with h | h
    · exact absurd h (by decide)
    · exact (List.nodup_cons.1 (List.nodup_cons.1 hd).2).1 h
  have hk : c.kind = s.cfg.kind := by rw [e1]
  have he : c.edges = es := by rw [e1]
  have hcb := I.curIn
  have hto : ∀ a b, c.Leads a b → b ≠ 2 → s.cfg.Leads a b := by
    intro a b p
    induction p with
    | direct e =>
      intro hb
      rw [he] at e
      rcases (hes _ _).1 e with h | ⟨_, h⟩
      · exact .direct h
      · exact absurd h hb
    | @thru a k b e k' _ ih =>
      intro hb
      rw [he] at e
      rw [hk] at k'
      rcases (hes _ _).1 e with h | ⟨_, h⟩
      · exact .thru h k' (ih hb)
      · rw [h] at k'
        exact absurd k' (I.mem (n := 2) (by simp)).2
  have hfrom : ∀ a b, s.cfg.Leads a b → c.Leads a b := by
    intro a b p
    induction p with
    | direct e => exact .direct (by rw [he]; exact (hes _ _).2 (.inl e))
    | thru e k' _ ih => exact .thru (by rw [he]; exact (hes _ _).2 (.inl e)) (by rw [hk]; exact k') ih
  refine ⟨s.cb, bs, ?_, I.cur, ?_, ?_⟩
  · rw [r4, e1]
    exact I.nodes
  · refine I.chain.imp_of_mem_imp fun m w hm hw h => ?_
    have hm' := (I.mem' hm).2
    have hw' := (I.mem' hw).2
    rw [← hk] at hm' hw'
    refine ⟨(r6 m w).2 ⟨hfrom _ _ h.1, hm', hw'⟩, fun v hv => ?_⟩
    obtain ⟨p, hv', _⟩ := (r6 v w).1 hv
    rcases h.2 v (by rw [← hk]; exact hv') (hto v w p (hn2 w hw)) with h | h
    · exact .inl h
    · exact .inr ((r6 v m).2 ⟨hfrom _ _ h, hv', hm'⟩)
  · intro v
    have hk2 : c.kind 2 ≠ .cond := by rw [hk]; exact (I.mem (by simp)).2
    have hkc : c.kind s.cb ≠ .cond := by rw [hk]; exact hcb.2
    rw [r6]
    constructor
    · rintro ⟨p, _, _⟩
      have : ∀ a b, c.Leads a b → b = 2 → a = s.cb := by
        intro a b p
        induction p with
        | direct e =>
          rintro rfl
          rw [he] at e
          rcases (hes _ _).1 e with h | ⟨h, _⟩
          · exact absurd h (I.into _)
          · exact h
        | thru e k' _ ih =>
          intro hb
          rw [ih hb] at k'
          exact absurd k' hkc
      exact this v 2 p rfl
    · rintro rfl
      exact ⟨.direct (by rw [he]; exact (hes _ _).2 (.inr ⟨rfl, rfl⟩)), hkc, hk2⟩

theorem LineGraph.reach {c : Cfg} {cb : Nat} {bs : List Nat} (L : LineGraph c cb bs) : ∀ n ∈ c.nodes, Reach c.neighbors 1 n := by
  have hall : ∀ n ∈ 1 :: bs, Reach c.neighbors 1 n := by
    have : ∀ (l : List Nat) (a : Nat), (a :: l).IsChain (fun m w => (m, w) ∈ c.edges ∧ ∀ v, (v, w) ∈ c.edges → v = m ∨ (v, m) ∈ c.edges) →
        Reach c.neighbors 1 a → ∀ n ∈ a :: l, Reach c.neighbors 1 n := by
      intro l
      induction l with
      | nil =>
        intro a _ ha n hn
        rw [List.mem_singleton.1 hn]
        exact ha
      | cons b l ih =>
        intro a hc ha n hn
        rw [List.isChain_cons_cons] at hc
        rcases List.mem_cons.1 hn with rfl | hn
        · exact ha
        · exact ih b hc.2 (reach_edge ha (mem_neighbors.2 hc.1.1)) n hn
    exact this bs 1 L.chain ⟨_, .single 1⟩
  intro n hn
  rw [L.nodes] at hn
  rcases List.mem_cons.1 hn with rfl | hn
  · exact hall 1 (by simp)
  · rcases List.mem_cons.1 hn with rfl | hn
    · exact reach_edge (hall cb (List.mem_of_getLast? L.cur)) (mem_neighbors.2 ((L.into cb).2 rfl))
    · exact hall n (List.mem_cons_of_mem _ hn)

/-- The walk of the dominator tree of such a graph never leaves a block that has merge
functions and dominates nothing as the last one. -/
theorem LineGraph.last {c : Cfg} {cb : Nat} {bs : List Nat} (L : LineGraph c cb bs) (hnd : c.nodes.Nodup)
    (hE : ∀ u v, (u, v) ∈ c.edges → u ∈ c.nodes ∧ v ∈ c.nodes) {fuel : Nat} (hf : c.nodes.length ≤ fuel) {t : DomTree}
    (h : buildDominatorTree c.flow fuel 1 = (pure t : Run DomTree)) {n m : Nat} (hlast : (t.domSucc n).getLast? = some m)
    (hm : t.domSucc m = []) : m = 2 := by
  have hr := flow_rooted (root := 1) (c := c) (by rw [L.nodes]; simp) hE
  obtain ⟨t', e, _, _, _, d4, _, _, d7, _⟩ := dominator_tree hr (fun w _ _ v hv => L.reach v (hE _ _ (mem_incidents.1 hv)).1) hf
  rw [h] at e
  have e := run_pure_inj e
  subst e
  have d4 : ∀ w, Reach c.neighbors 1 w → w ≠ 1 → ∃ d, t.idom w = some d := d4
  have d7 : ∀ d w, w ∈ t.domSucc d ↔ Reach c.neighbors 1 w ∧ Idom c.neighbors 1 d w := d7
  have hmn := (d7 n m).1 (List.mem_of_getLast? hlast)
  have hn : c.nodes.Nodup := hnd
  have hmem : m ∈ c.nodes := by
    have := List.mem_of_getLast? hlast
    rw [domSucc_filter h hnd] at this
    exact (List.mem_filter.1 this).1
  rw [L.nodes] at hmem hn
  obtain ⟨hn1, hn2⟩ := List.nodup_cons.1 hn
  obtain ⟨hn2, hn3⟩ := List.nodup_cons.1 hn2
  rcases List.mem_cons.1 hmem with rfl | hmem
  · exact absurd hmn.2 idom_root
  rcases List.mem_cons.1 hmem with rfl | hmem
  · rfl
  exfalso
  obtain ⟨xs, ys, hxy⟩ := List.append_of_mem hmem
  cases ys with
  | nil =>
    have hcb : cb = m := by
      have := L.cur
      rw [hxy, ← List.cons_append, List.getLast?_append] at this
      cases this
      rfl
    have : 2 ∈ t.domSucc m := by
      refine (d7 m 2).2 ⟨L.reach 2 (by rw [L.nodes]; simp), idom_only (by decide) ?_ (mem_neighbors.2 ((L.into m).2 hcb.symm)) ?_⟩
      · rintro rfl
        exact hn2 hmem
      · intro v hv
        rw [(L.into v).1 (mem_neighbors.1 hv), hcb]
    rw [hm] at this
    cases this
  | cons w ys =>
    have hc := L.chain
    rw [hxy, ← List.cons_append, List.isChain_append_cons_cons] at hc
    obtain ⟨_, ⟨c1, c2⟩, _⟩ := hc
    have hwb : w ∈ bs := by rw [hxy]; simp
    have hw1 : w ≠ 1 := by
      rintro rfl
      exact hn1 (List.mem_cons_of_mem _ hwb)
    have hwr : Reach c.neighbors 1 w := L.reach w (by rw [L.nodes]; simp [hwb])
    obtain ⟨d, hd⟩ := d4 w hwr hw1
    have hwd : w ∈ t.domSucc d := by
      rw [domSucc_filter h hnd]
      refine List.mem_filter.2 ⟨?_, by simpa using hd⟩
      show w ∈ c.nodes
      rw [L.nodes]
      simp [hwb]
    have hdm : d ≠ m := by
      rintro rfl
      rw [hm] at hwd
      cases hwd
    have := idom_same hw1 hwr (mem_neighbors.2 c1) (fun v hv => (c2 v (mem_neighbors.1 hv)).imp id fun h => mem_neighbors.2 h) hmn.2
      ((d7 d w).1 hwd).2 hdm
    subst this
    refine domSucc_last h hnd (xs := 1 :: 2 :: xs) (ys := w :: ys) (w := w) ?_ (by simp) hlast hwd
    show c.nodes = _
    rw [L.nodes, hxy]
    rfl

end Verif
