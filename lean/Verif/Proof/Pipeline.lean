import Mathlib.Data.List.Pairwise
import Verif.Model.Pipeline
import Verif.Props.Cfg
import Verif.Props.SsaTrace
import Verif.Props.SsaExact

/-!
# Helper lemmas: the control flow graph as the analyses ask it
-/

namespace Verif

open Spec (Reach Rooted Via)

theorem flow_rooted {c : Cfg} {root : Nat} (hr : root ∈ c.nodes) (hE : ∀ u v, (u, v) ∈ c.edges → u ∈ c.nodes ∧ v ∈ c.nodes) :
    Rooted c.flow.nodes c.flow.succ c.flow.pred root :=
  ⟨hr, fun x _ y hy => (hE x y (mem_neighbors.1 hy)).2, fun _ _ => mem_incidents.trans mem_neighbors.symm⟩

/-- The graph that the SSA form is built of, for a list of instructions. -/
structure Prepared (prog : List CfgInst) (c : Cfg) : Prop where
  nodup : c.nodes.Nodup
  enodup : c.edges.Nodup
  ends : ∀ u v, (u, v) ∈ c.edges → u ∈ c.nodes ∧ v ∈ c.nodes
  kinds : ∀ n ∈ c.nodes, c.kind n ≠ .cond
  root : 1 ∈ c.nodes ∧ c.kind 1 = .root
  fin : 2 ∈ c.nodes ∧ c.kind 2 = .fin
  rootOnly : ∀ n ∈ c.nodes, c.kind n = .root → n = 1
  finOnly : ∀ n ∈ c.nodes, c.kind n = .fin → n = 2
  noin : ∀ u, (u, 1) ∉ c.edges
  noout : ∀ v, (2, v) ∉ c.edges
  empty : ∀ n ∈ c.nodes, c.insts n = [] ↔ c.kind n ≠ .block
  order : ∃ order : List Nat, order.Nodup ∧ (∀ n, n ∈ order ↔ n ∈ c.nodes ∧ c.kind n = .block) ∧
    order.flatMap c.insts = cfgLine prog (-1)

theorem prepared {prog : List CfgInst} (hne : prog ≠ []) :
    ∃ c c', buildCfg prog (-1) = .ok c ∧ c.removeConditionals = .ok c' ∧ Prepared prog c' := by
  obtain ⟨c, order, e, I, _⟩ := buildCfg_ok (P := fun _ => False) hne (-1) (by simp) (fun _ _ _ _ _ _ _ _ _ h => h)
  obtain ⟨c', h1, h2, h3, h4, h5, h6, _⟩ := cfg_remove_conditionals I.nodup I.enodup I.ends
  have hmem : ∀ n, n ∈ c'.nodes ↔ n ∈ c.nodes ∧ c.kind n ≠ .cond := by
    intro n
    rw [h4, List.mem_filter, decide_eq_true_eq]
  refine ⟨c, c', e, h1, ?_⟩
  refine ⟨?_, h5, ?_, ?_, ?_, ?_, ?_, ?_, ?_, ?_, ?_, ?_⟩
  · rw [h4]; exact I.nodup.filter _
  · intro u v h
    obtain ⟨p, hu, hv⟩ := (h6 u v).1 h
    have := via_ends I.ends p
    exact ⟨(hmem u).2 ⟨this.1, hu⟩, (hmem v).2 ⟨this.2, hv⟩⟩
  · intro n hn
    rw [h2]
    exact ((hmem n).1 hn).2
  · rw [h2]
    exact ⟨(hmem 1).2 ⟨I.one.1, by rw [I.one.2]; decide⟩, I.one.2⟩
  · rw [h2]
    exact ⟨(hmem 2).2 ⟨I.two.1, by rw [I.two.2]; decide⟩, I.two.2⟩
  · intro n hn
    rw [h2]
    exact (I.others n ((hmem n).1 hn).1).1
  · intro n hn
    rw [h2]
    exact (I.others n ((hmem n).1 hn).1).2
  · intro u h
    obtain ⟨p, _⟩ := (h6 u 1).1 h
    have : ∀ a b, Via (fun u v => (u, v) ∈ c.edges) (fun k => c.kind k = .cond) a b → b ≠ 1 := by
      intro a b p
      induction p with
      | direct e => rintro rfl; exact I.noin _ e
      | thru _ _ _ ih => exact ih
    exact this _ _ p rfl
  · intro v h
    obtain ⟨p, _⟩ := (h6 2 v).1 h
    cases p with
    | direct e => exact I.noout _ e
    | thru e _ _ => exact I.noout _ e
  · intro n hn
    rw [h2, h3]
    exact ⟨fun h hk => I.full n ((hmem n).1 hn).1 hk h, I.empty n ((hmem n).1 hn).1⟩
  · refine ⟨order, I.onodup, fun n => ?_, ?_⟩
    · rw [I.ord, hmem, h2]
      constructor
      · rintro ⟨a, b⟩; exact ⟨⟨a, by rw [b]; decide⟩, b⟩
      · rintro ⟨⟨a, _⟩, b⟩; exact ⟨a, b⟩
    · rw [h3]
      exact I.flat

theorem Prepared.rooted {prog : List CfgInst} {c : Cfg} (h : Prepared prog c) : Rooted c.flow.nodes c.flow.succ c.flow.pred 1 :=
  flow_rooted h.root.1 h.ends

/-- No instruction is twice in the blocks of a list without repetitions. -/
theorem Prepared.once {prog : List CfgInst} {c : Cfg} (h : Prepared prog c) {l : List Nat} (hl : l.Nodup) (hm : ∀ n ∈ l, n ∈ c.nodes) :
    (l.flatMap c.insts).Nodup := by
  obtain ⟨order, h1, h2, h3⟩ := h.order
  have hline : (cfgLine prog (-1)).Nodup := (List.nodup_range).filter _
  rw [← h3] at hline
  rw [List.nodup_flatMap] at hline ⊢
  have hb : ∀ n ∈ c.nodes, c.kind n ≠ .block → c.insts n = [] := fun n hn hk => (h.empty n hn).2 hk
  have hdis : ∀ a ∈ order, ∀ b ∈ order, a ≠ b → List.Disjoint (c.insts a) (c.insts b) := by
    intro a ha b hb hab
    have : Std.Symm (Function.onFun List.Disjoint c.insts) := ⟨fun _ _ h x h1 h2 => h h2 h1⟩
    exact List.Pairwise.forall hline.2 ha hb hab
  refine ⟨fun n hn => ?_, ?_⟩
  · by_cases hk : c.kind n = .block
    · exact hline.1 n ((h2 n).2 ⟨hm n hn, hk⟩)
    · rw [hb n (hm n hn) hk]
      exact List.nodup_nil
  · refine hl.imp_of_mem ?_
    intro a b ha hb' hab
    by_cases hka : c.kind a = .block
    · by_cases hkb : c.kind b = .block
      · exact hdis a ((h2 a).2 ⟨hm a ha, hka⟩) b ((h2 b).2 ⟨hm b hb', hkb⟩) hab
      · show List.Disjoint _ _
        rw [hb b (hm b hb') hkb]
        exact List.disjoint_nil_right _
    · show List.Disjoint _ _
      rw [hb a (hm a ha) hka]
      exact List.disjoint_nil_left _

theorem run_ofPy_ok {α β : Type} {a : α} (f : α → Run β) : (ofPy (.ok a) >>= f) = f a := rfl

/-- The value graph never adds an exception. -/
theorem values_of {c : Cfg} (h1 : 1 ∈ c.nodes) (acc : Nat → Access) (fuel : Nat) :
    c.values acc fuel = ssaBuild c.flow c.insts acc (fun n => decide (c.kind n = .fin)) fuel 1 >>= fun r =>
      ofPy (valueGraph r.1 c.nodes r.2) := by
  unfold Cfg.values
  rw [if_pos h1]

theorem programValues_of {prog : List CfgInst} {c c' : Cfg} (h1 : buildCfg prog (-1) = .ok c) (h2 : c.removeConditionals = .ok c')
    (acc : Nat → Access) (fuel : Nat) : programValues prog acc fuel = c'.values acc fuel := by
  unfold programValues
  rw [h1, run_ofPy_ok, h2, run_ofPy_ok]

theorem values_raise {c : Cfg} (h1 : 1 ∈ c.nodes) (acc : Nat → Access) (fuel : Nat) (e : Err) :
    c.values acc fuel = (raiseRun e : Run NameGraph) ↔
      ssaBuild c.flow c.insts acc (fun n => decide (c.kind n = .fin)) fuel 1 = (raiseRun e : Run (SsaProg × SsaSt)) := by
  rw [values_of h1]
  match ssaBuild c.flow c.insts acc (fun n => decide (c.kind n = .fin)) fuel 1 with
  | none =>
    constructor
    · intro h
      cases h
    · intro h
      cases h
  | some (.error e') =>
    constructor
    · intro h
      have h : (some (.error e') : Option (Except Err NameGraph)) = some (.error e) := h
      cases h
      rfl
    · intro h
      cases h
      rfl
  | some (.ok r) =>
    obtain ⟨d, hd, _⟩ := value_graph_exact r.1 c.nodes r.2
    constructor
    · intro h
      have h : (some (valueGraph r.1 c.nodes r.2) : Option (Except Err NameGraph)) = some (.error e) := h
      rw [hd] at h
      cases h
    · intro h
      cases h

theorem values_ok {c : Cfg} (h1 : 1 ∈ c.nodes) (acc : Nat → Access) (fuel : Nat) :
    (∃ d, c.values acc fuel = (pure d : Run NameGraph)) ↔
      ∃ r, ssaBuild c.flow c.insts acc (fun n => decide (c.kind n = .fin)) fuel 1 = (pure r : Run (SsaProg × SsaSt)) := by
  rw [values_of h1]
  constructor
  · rintro ⟨d, h⟩
    obtain ⟨r, hr, _⟩ := run_bind_inv h
    exact ⟨r, hr⟩
  · rintro ⟨r, hr⟩
    obtain ⟨d, hd, _⟩ := value_graph_exact r.1 c.nodes r.2
    refine ⟨d, ?_⟩
    rw [hr]
    show ofPy (valueGraph r.1 c.nodes r.2) = _
    rw [hd]
    rfl

end Verif
