import Verif.Proof.Cfg
import Verif.Spec.Cfg
import Verif.Spec.Graph

/-! # Removing the conditional nodes -/

namespace Verif

open Spec

theorem mem_neighbors {c : Cfg} {a b : Nat} : b ∈ c.neighbors a ↔ (a, b) ∈ c.edges := by
  unfold Cfg.neighbors
  rw [List.mem_map]
  constructor
  · rintro ⟨⟨x, y⟩, h, rfl⟩
    rw [List.mem_filter, beq_iff_eq] at h
    obtain ⟨h1, rfl⟩ := h
    exact h1
  · intro h
    exact ⟨(a, b), by rw [List.mem_filter, beq_iff_eq]; exact ⟨h, rfl⟩, rfl⟩

theorem needEdge_mem {c : Cfg} {u v : Nat} (hu : u ∈ c.nodes) (hv : v ∈ c.nodes) (hn : c.edges.Nodup) :
    ∃ es, c.needEdge u v = .ok { c with edges := es } ∧ es.Nodup ∧ ∀ a b, (a, b) ∈ es ↔ (a, b) ∈ c.edges ∨ (a = u ∧ b = v) := by
  unfold Cfg.needEdge
  split
  · rename_i h
    refine ⟨c.edges, rfl, hn, fun a b => ⟨Or.inl, ?_⟩⟩
    rintro (h' | ⟨rfl, rfl⟩)
    · exact h'
    · exact h
  · rename_i h
    unfold Cfg.addEdge
    rw [if_pos ⟨hu, hv, h⟩]
    refine ⟨_, rfl, ?_, fun a b => by rw [List.mem_append, List.mem_singleton, Prod.mk.injEq]⟩
    rw [List.nodup_append]
    exact ⟨hn, by simp, fun a ha b hb => by rw [List.mem_singleton] at hb; rw [hb]; rintro rfl; exact h ha⟩

theorem bypassInner {p : Nat} : ∀ (l : List Nat) (c : Cfg), p ∈ c.nodes → (∀ s ∈ l, s ∈ c.nodes) → c.edges.Nodup →
    ∃ es, l.foldlM (fun c s => c.needEdge p s) c = .ok { c with edges := es } ∧ es.Nodup ∧
      ∀ a b, (a, b) ∈ es ↔ (a, b) ∈ c.edges ∨ (a = p ∧ b ∈ l) := by
  intro l
  induction l with
  | nil => intro c _ _ hn; exact ⟨c.edges, rfl, hn, fun a b => by simp⟩
  | cons s l ih =>
    intro c hp hl hn
    obtain ⟨e1, h1, n1, m1⟩ := needEdge_mem hp (hl s (by simp)) hn
    obtain ⟨e2, h2, n2, m2⟩ := ih { c with edges := e1 } hp (fun s hs => hl s (List.mem_cons_of_mem _ hs)) n1
    refine ⟨e2, ?_, n2, fun a b => ?_⟩
    · rw [List.foldlM_cons, h1]
      exact h2
    · rw [m2]
      show ((a, b) ∈ e1 ∨ _) ↔ _
      rw [m1, List.mem_cons]
      tauto

theorem bypassOuter {n : Nat} (S : Nat → Prop) : ∀ (l : List Nat) (c : Cfg), (∀ p ∈ l, p ∈ c.nodes) → (∀ s, S s → s ∈ c.nodes) →
    (∀ s, (n, s) ∈ c.edges ↔ S s) → c.edges.Nodup →
    ∃ es, l.foldlM (fun c p => (c.neighbors n).foldlM (fun c s => c.needEdge p s) c) c = .ok { c with edges := es } ∧ es.Nodup ∧
      ∀ a b, (a, b) ∈ es ↔ (a, b) ∈ c.edges ∨ (a ∈ l ∧ S b) := by
  intro l
  induction l with
  | nil => intro c _ _ _ hn; exact ⟨c.edges, rfl, hn, fun a b => by simp⟩
  | cons p l ih =>
    intro c hl hS hs hn
    obtain ⟨e1, h1, n1, m1⟩ := bypassInner (p := p) (c.neighbors n) c (hl p (by simp))
      (fun s h => hS s ((hs s).1 (mem_neighbors.1 h))) hn
    obtain ⟨e2, h2, n2, m2⟩ := ih { c with edges := e1 } (fun s hs => hl s (List.mem_cons_of_mem _ hs)) hS (by
      intro s
      show (n, s) ∈ e1 ↔ _
      rw [m1, mem_neighbors, hs]
      tauto) n1
    refine ⟨e2, ?_, n2, fun a b => ?_⟩
    · rw [List.foldlM_cons, h1]
      exact h2
    · rw [m2]
      show ((a, b) ∈ e1 ∨ _) ↔ _
      rw [m1, List.mem_cons, mem_neighbors, hs]
      tauto

theorem bypass_ok {c : Cfg} {n : Nat} (hE : ∀ u v, (u, v) ∈ c.edges → u ∈ c.nodes ∧ v ∈ c.nodes) (hn : c.edges.Nodup) :
    ∃ es, c.bypass n = .ok { c with edges := es } ∧ es.Nodup ∧
      ∀ a b, (a, b) ∈ es ↔ (a, b) ∈ c.edges ∨ ((a, n) ∈ c.edges ∧ (n, b) ∈ c.edges) := by
  obtain ⟨es, h1, h2, h3⟩ := bypassOuter (n := n) (fun s => (n, s) ∈ c.edges) (c.incidents n) c
    (fun p hp => (hE p n (mem_incidents.1 hp)).1) (fun s hs => (hE n s hs).2) (fun s => Iff.rfl) hn
  exact ⟨es, h1, h2, fun a b => by rw [h3, mem_incidents]⟩

theorem via_mono {E : Nat → Nat → Prop} {K K' : Nat → Prop} (h : ∀ k, K k → K' k) {a b : Nat} (p : Via E K a b) : Via E K' a b := by
  induction p with
  | direct e => exact .direct e
  | thru e k _ ih => exact .thru e (h _ k) ih

theorem via_join {E : Nat → Nat → Prop} {K : Nat → Prop} {a n b : Nat} (p : Via E K a n) (hn : K n) (q : Via E K n b) : Via E K a b := by
  induction p with
  | direct e => exact .thru e hn q
  | thru e k _ ih => exact .thru e k (ih hn q)

theorem via_add {E : Nat → Nat → Prop} {K : Nat → Prop} {n a b : Nat} :
    Via E (fun k => K k ∨ k = n) a b ↔ Via E K a b ∨ (Via E K a n ∧ Via E K n b) := by
  constructor
  · intro p
    induction p with
    | direct e => exact Or.inl (.direct e)
    | thru e k _ ih =>
      rcases k with k | rfl
      · rcases ih with ih | ⟨h1, h2⟩
        · exact Or.inl (.thru e k ih)
        · exact Or.inr ⟨.thru e k h1, h2⟩
      · rcases ih with ih | ⟨h1, h2⟩
        · exact Or.inr ⟨.direct e, ih⟩
        · exact Or.inr ⟨.direct e, h2⟩
  · rintro (p | ⟨p, q⟩)
    · exact via_mono (fun _ => Or.inl) p
    · exact via_join (via_mono (fun _ => Or.inl) p) (Or.inr rfl) (via_mono (fun _ => Or.inl) q)

theorem via_ends {E : Nat → Nat → Prop} {K : Nat → Prop} {N : Nat → Prop} (h : ∀ u v, E u v → N u ∧ N v) {a b : Nat} (p : Via E K a b) :
    N a ∧ N b := by
  induction p with
  | direct e => exact h _ _ e
  | thru e _ _ ih => exact ⟨(h _ _ e).1, ih.2⟩

theorem bypassAll {E : Nat → Nat → Prop} : ∀ (l : List Nat) (K : Nat → Prop) (c : Cfg), (∀ u v, E u v → u ∈ c.nodes ∧ v ∈ c.nodes) →
    c.edges.Nodup → (∀ a b, (a, b) ∈ c.edges ↔ Via E K a b) →
    ∃ es, l.foldlM Cfg.bypass c = .ok { c with edges := es } ∧ es.Nodup ∧
      ∀ a b, (a, b) ∈ es ↔ Via E (fun k => K k ∨ k ∈ l) a b := by
  intro l
  induction l with
  | nil =>
    intro K c _ hn hm
    exact ⟨c.edges, rfl, hn, fun a b => by rw [hm]; simp⟩
  | cons n l ih =>
    intro K c hE hn hm
    obtain ⟨e1, h1, n1, m1⟩ := bypass_ok (c := c) (n := n) (fun u v h => via_ends hE ((hm u v).1 h)) hn
    obtain ⟨e2, h2, n2, m2⟩ := ih (fun k => K k ∨ k = n) { c with edges := e1 } hE n1 (fun a b => by
      show (a, b) ∈ e1 ↔ _
      rw [m1, hm, hm, hm, via_add])
    refine ⟨e2, ?_, n2, fun a b => ?_⟩
    · rw [List.foldlM_cons, h1]
      exact h2
    · rw [m2]
      simp only [List.mem_cons, or_assoc]

theorem delAll : ∀ (l : List Nat) (c : Cfg), c.nodes.Nodup → c.edges.Nodup → ∃ ns es, l.foldl Cfg.delNode c = { c with nodes := ns, edges := es } ∧
    ns = c.nodes.filter (fun n => decide (n ∉ l)) ∧ es.Nodup ∧ ∀ a b, (a, b) ∈ es ↔ (a, b) ∈ c.edges ∧ a ∉ l ∧ b ∉ l := by
  intro l
  induction l with
  | nil =>
    intro c _ hn
    refine ⟨c.nodes, c.edges, rfl, ?_, hn, fun a b => by simp⟩
    simp
  | cons n l ih =>
    intro c hn he
    obtain ⟨ns, es, h1, h2, h3, h4⟩ := ih (c.delNode n) (hn.erase n) (he.filter _)
    refine ⟨ns, es, by rw [List.foldl_cons, h1]; rfl, ?_, h3, fun a b => ?_⟩
    · rw [h2]
      show (c.nodes.erase n).filter _ = _
      rw [hn.erase_eq_filter, List.filter_filter]
      apply List.filter_congr
      intro x _
      simp only [List.mem_cons, not_or]
      by_cases h : x = n <;> by_cases h' : x ∈ l <;> simp [h, h']
    · rw [h4]
      show ((a, b) ∈ c.edges.filter _ ∧ _) ↔ _
      rw [List.mem_filter]
      simp only [List.mem_cons, not_or, decide_eq_true_eq]
      tauto

theorem removeConditionals_ok {c : Cfg} (hn : c.nodes.Nodup) (he : c.edges.Nodup)
    (hE : ∀ u v, (u, v) ∈ c.edges → u ∈ c.nodes ∧ v ∈ c.nodes) :
    ∃ es, c.removeConditionals = .ok { c with nodes := c.nodes.filter (fun n => decide (c.kind n ≠ .cond)), edges := es } ∧ es.Nodup ∧
      ∀ a b, (a, b) ∈ es ↔ Via (fun u v => (u, v) ∈ c.edges) (fun k => c.kind k = .cond) a b ∧ c.kind a ≠ .cond ∧ c.kind b ≠ .cond := by
  have h0 : ∀ a b, (a, b) ∈ c.edges ↔ Via (fun u v => (u, v) ∈ c.edges) (fun _ => False) a b := by
    intro a b
    constructor
    · intro e
      exact .direct e
    · intro p
      cases p with
      | direct e => exact e
      | thru _ h _ => exact h.elim
  have hmem : ∀ k, k ∈ c.nodes.filter (fun n => decide (c.kind n = .cond)) ↔ k ∈ c.nodes ∧ c.kind k = .cond := fun k => by
    rw [List.mem_filter, decide_eq_true_eq]
  obtain ⟨e1, h1, n1, m1⟩ := bypassAll (c.nodes.filter fun n => decide (c.kind n = .cond)) (fun _ => False) c hE he h0
  obtain ⟨ns, es, h2, h3, h4, h5⟩ := delAll (c.nodes.filter fun n => decide (c.kind n = .cond)) { c with edges := e1 } hn n1
  refine ⟨es, ?_, h4, fun a b => ?_⟩
  · unfold Cfg.removeConditionals
    dsimp only
    rw [h1]
    show Except.ok _ = _
    rw [h2]
    have : ns = c.nodes.filter (fun n => decide (c.kind n ≠ .cond)) := by
      rw [h3]
      apply List.filter_congr
      intro x hx
      rw [decide_eq_decide, hmem]
      tauto
    rw [this]
  · rw [h5]
    show ((a, b) ∈ e1 ∧ _) ↔ _
    rw [m1]
    have hv : ∀ a b, Via (fun u v => (u, v) ∈ c.edges) (fun k => False ∨ k ∈ c.nodes.filter (fun n => decide (c.kind n = .cond))) a b ↔
        Via (fun u v => (u, v) ∈ c.edges) (fun k => c.kind k = .cond) a b := by
      intro a b
      constructor
      · exact via_mono fun k hk => ((hmem k).1 (hk.resolve_left id)).2
      · intro p
        induction p with
        | direct e => exact .direct e
        | thru e k _ ih => exact .thru e (Or.inr ((hmem _).2 ⟨(hE _ _ e).2, k⟩)) ih
    rw [hv]
    constructor
    · rintro ⟨p, h1, h2⟩
      have := via_ends hE p
      exact ⟨p, fun h => h1 ((hmem a).2 ⟨this.1, h⟩), fun h => h2 ((hmem b).2 ⟨this.2, h⟩)⟩
    · rintro ⟨p, h1, h2⟩
      exact ⟨p, fun h => h1 ((hmem a).1 h).2, fun h => h2 ((hmem b).1 h).2⟩

theorem reach_step {succ : Nat → List Nat} {a b d : Nat} (h : b ∈ succ a) (r : Reach succ b d) : Reach succ a d := by
  obtain ⟨l, p⟩ := r
  exact ⟨a :: l, .step h p⟩

theorem via_reach {c : Cfg} {K : Nat → Prop} {a b d : Nat} (p : Via (fun u v => (u, v) ∈ c.edges) K a b) (r : Reach c.neighbors b d) :
    Reach c.neighbors a d := by
  induction p with
  | direct e => exact reach_step (mem_neighbors.2 e) r
  | thru e _ _ ih => exact reach_step (mem_neighbors.2 e) (ih r)

/-- Reachability between nodes outside of `K` does not change. -/
theorem reach_bypassed {c c' : Cfg} {K : Nat → Prop}
    (h : ∀ a b, (a, b) ∈ c'.edges ↔ Via (fun u v => (u, v) ∈ c.edges) K a b ∧ ¬ K a ∧ ¬ K b) {a b : Nat} (ha : ¬ K a) (hb : ¬ K b) :
    Reach c'.neighbors a b ↔ Reach c.neighbors a b := by
  constructor
  · rintro ⟨l, p⟩
    induction p with
    | single a => exact ⟨[a], .single a⟩
    | step e _ ih =>
      have := (h _ _).1 (mem_neighbors.1 e)
      exact via_reach this.1 (ih this.2.2 hb)
  · have key : ∀ x l, Path c.neighbors x l b → (¬ K x → Reach c'.neighbors x b) ∧
        (K x → ∃ d, Via (fun u v => (u, v) ∈ c.edges) K x d ∧ ¬ K d ∧ Reach c'.neighbors d b) := by
      intro x l p
      induction p with
      | single a => exact ⟨fun _ => ⟨[a], .single a⟩, fun h => absurd h hb⟩
      | @step x y z l e _ ih =>
        have e := mem_neighbors.1 e
        have ih := ih hb
        by_cases hy : K y
        · obtain ⟨d, h1, h2, h3⟩ := ih.2 hy
          exact ⟨fun hx => reach_step (mem_neighbors.2 ((h _ _).2 ⟨.thru e hy h1, hx, h2⟩)) h3, fun _ => ⟨d, .thru e hy h1, h2, h3⟩⟩
        · exact ⟨fun hx => reach_step (mem_neighbors.2 ((h _ _).2 ⟨.direct e, hx, hy⟩)) (ih.1 hy), fun _ => ⟨y, .direct e, hy, ih.1 hy⟩⟩
    rintro ⟨l, p⟩
    exact (key a l p).1 ha

end Verif
