import Verif.Model.Ssa
import Verif.Proof.Run

/-! # Dead merge functions and the graph of the values -/

namespace Verif

theorem keepPhi_false {s : SsaSt} {nm : Name} (is : List Nat) :
    keepPhi s nm is = false ↔
      ∃ a i b, is = a ++ i :: b ∧ (∀ j ∈ a, nm ∉ s.rd j) ∧ nm ∉ s.rd i ∧ ∃ w ∈ s.wr i, w.1 = nm.1 ∧ nm.2 < w.2 := by
  induction is with
  | nil => simp [keepPhi]
  | cons i is ih =>
    unfold keepPhi phiFate
    by_cases h : nm ∈ s.rd i
    · simp only [h, if_true]
      constructor
      · intro h'; cases h'
      · rintro ⟨a, j, b, e, h1, h2, _⟩
        cases a with
        | nil => cases e; exact absurd h h2
        | cons c a => cases e; exact absurd h (h1 i (by simp))
    · simp only [h, if_false]
      cases hw : (s.wr i).any fun w => decide (nm.1 = w.1) && decide (nm.2 < w.2) with
      | true =>
        simp only [true_iff]
        rw [List.any_eq_true] at hw
        obtain ⟨w, hw1, hw2⟩ := hw
        simp only [Bool.and_eq_true, decide_eq_true_eq] at hw2
        exact ⟨[], i, is, rfl, by simp, h, w, hw1, hw2.1.symm, hw2.2⟩
      | false =>
        simp only
        rw [ih]
        rw [List.any_eq_false] at hw
        constructor
        · rintro ⟨a, j, b, e, h1, h2, h3⟩
          refine ⟨i :: a, j, b, by rw [e]; rfl, ?_, h2, h3⟩
          intro k hk
          rcases List.mem_cons.1 hk with rfl | hk
          · exact h
          · exact h1 k hk
        · rintro ⟨a, j, b, e, h1, h2, w, h3, h4, h5⟩
          cases a with
          | nil =>
            cases e
            have := hw w h3
            simp [h4, h5] at this
          | cons c a =>
            cases e
            exact ⟨a, j, b, rfl, fun k hk => h1 k (List.mem_cons_of_mem _ hk), h2, w, h3, h4, h5⟩

theorem keepPhi_congr {s s' : SsaSt} (h1 : s'.rd = s.rd) (h2 : s'.wr = s.wr) (nm : Name) (is : List Nat) :
    keepPhi s' nm is = keepPhi s nm is := by
  induction is with
  | nil => rfl
  | cons i is ih => unfold keepPhi phiFate; rw [h1, h2, ih]

theorem removeDeadPhi_eq (p : SsaProg) (nodes : List Nat) (s : SsaSt) :
    (removeDeadPhi p nodes s).rd = s.rd ∧ (removeDeadPhi p nodes s).wr = s.wr ∧
    ∀ b, (removeDeadPhi p nodes s).phis b =
      if b ∈ nodes then (s.phis b).filter fun e => keepPhi s e.1 (p.insts b) else s.phis b := by
  unfold removeDeadPhi
  induction nodes generalizing s with
  | nil => exact ⟨rfl, rfl, fun b => by simp⟩
  | cons n nodes ih =>
    rw [List.foldl_cons]
    obtain ⟨h1, h2, h3⟩ := ih { s with phis := put s.phis n ((s.phis n).filter fun e => keepPhi s e.1 (p.insts n)) }
    refine ⟨h1, h2, fun b => ?_⟩
    rw [h3 b]
    have hk : ∀ b, (fun e : Name × List Name => keepPhi { s with phis := put s.phis n ((s.phis n).filter fun e => keepPhi s e.1 (p.insts n)) } e.1 (p.insts b))
        = fun e => keepPhi s e.1 (p.insts b) := fun b => by
      funext e
      apply keepPhi_congr <;> rfl
    rw [hk]
    show (if b ∈ nodes then (put s.phis n _ b).filter _ else put s.phis n _ b) = _
    by_cases hb : b = n
    · subst hb
      rw [put_same]
      by_cases hm : b ∈ nodes
      · rw [if_pos hm, if_pos (by simp), List.filter_filter]
        simp
      · rw [if_neg hm, if_pos (by simp)]
    · rw [put_ne _ _ _ hb]
      have : b ∈ n :: nodes ↔ b ∈ nodes := by simp [hb]
      simp only [this]

/-! ### The graph -/

/-- The graph has these nodes and edges, each once, and the ends of the edges are
nodes. -/
structure GraphIs (d : NameGraph) (N : Name → Prop) (E : Name → Name → Prop) : Prop where
  node : ∀ x, x ∈ d.nodes ↔ N x
  edge : ∀ a b, (a, b) ∈ d.edges ↔ E a b
  nodup : d.nodes.Nodup
  enodup : d.edges.Nodup

theorem GraphIs.congr {d : NameGraph} {N N' : Name → Prop} {E E' : Name → Name → Prop} (h : GraphIs d N E)
    (h1 : ∀ x, N x ↔ N' x) (h2 : ∀ a b, E a b ↔ E' a b) : GraphIs d N' E' :=
  ⟨fun x => (h.node x).trans (h1 x), fun a b => (h.edge a b).trans (h2 a b), h.nodup, h.enodup⟩

theorem needNode_ok {d : NameGraph} {N : Name → Prop} {E : Name → Name → Prop} (h : GraphIs d N E) (x : Name) :
    ∃ d', needNode d x = .ok d' ∧ GraphIs d' (fun y => N y ∨ y = x) E := by
  unfold needNode
  by_cases hx : x ∈ d.nodes
  · rw [if_pos hx]
    refine ⟨d, rfl, h.congr (fun y => ⟨Or.inl, ?_⟩) fun _ _ => Iff.rfl⟩
    rintro (h' | rfl)
    · exact h'
    · exact (h.node y).1 hx
  · rw [if_neg hx]
    unfold NameGraph.addNode
    rw [if_neg hx]
    refine ⟨_, rfl, ⟨fun y => ?_, h.edge, ?_, h.enodup⟩⟩
    · show y ∈ d.nodes ++ [x] ↔ _
      rw [List.mem_append, List.mem_singleton, h.node]
    · show (d.nodes ++ [x]).Nodup
      rw [List.nodup_append]
      exact ⟨h.nodup, by simp, fun a ha b hb => by
        rw [List.mem_singleton] at hb
        subst hb
        rintro rfl
        exact hx ha⟩

theorem needEdge_ok {d : NameGraph} {N : Name → Prop} {E : Name → Name → Prop} (h : GraphIs d N E) {x y : Name}
    (hx : N x) (hy : N y) :
    ∃ d', needEdge d (x, y) = .ok d' ∧ GraphIs d' N (fun a b => E a b ∨ (a = x ∧ b = y)) := by
  unfold needEdge
  by_cases he : (x, y) ∈ d.edges
  · rw [if_pos he]
    refine ⟨d, rfl, h.congr (fun _ => Iff.rfl) fun a b => ⟨Or.inl, ?_⟩⟩
    rintro (h' | ⟨rfl, rfl⟩)
    · exact h'
    · exact (h.edge a b).1 he
  · rw [if_neg he]
    unfold NameGraph.addEdge
    rw [if_pos ⟨(h.node x).2 hx, (h.node y).2 hy, he⟩]
    refine ⟨_, rfl, ⟨h.node, fun a b => ?_, h.nodup, ?_⟩⟩
    · show (a, b) ∈ d.edges ++ [(x, y)] ↔ _
      rw [List.mem_append, List.mem_singleton, h.edge, Prod.mk.injEq]
    · show (d.edges ++ [(x, y)]).Nodup
      rw [List.nodup_append]
      exact ⟨h.enodup, by simp, fun a ha b hb => by
        rw [List.mem_singleton] at hb
        subst hb
        rintro rfl
        exact he ha⟩

/-- A loop that adds to the graph. -/
theorem graph_fold {α : Type} (f : NameGraph → α → Py NameGraph) (N : α → Name → Prop) (E : α → Name → Name → Prop)
    (l : List α)
    (hf : ∀ x ∈ l, ∀ d N0 E0, GraphIs d N0 E0 → ∃ d', f d x = .ok d' ∧
      GraphIs d' (fun y => N0 y ∨ N x y) (fun a b => E0 a b ∨ E x a b)) :
    ∀ d N0 E0, GraphIs d N0 E0 → ∃ d', l.foldlM f d = .ok d' ∧
      GraphIs d' (fun y => N0 y ∨ ∃ x ∈ l, N x y) (fun a b => E0 a b ∨ ∃ x ∈ l, E x a b) := by
  induction l with
  | nil =>
    intro d N0 E0 h
    exact ⟨d, rfl, h.congr (fun y => by simp) fun a b => by simp⟩
  | cons x l ih =>
    intro d N0 E0 h
    obtain ⟨d1, h1, h2⟩ := hf x (by simp) d N0 E0 h
    obtain ⟨d2, h3, h4⟩ := ih (fun y hy => hf y (List.mem_cons_of_mem _ hy)) d1 _ _ h2
    refine ⟨d2, ?_, h4.congr (fun y => ?_) fun a b => ?_⟩
    · rw [List.foldlM_cons, h1]
      exact h3
    · simp only [List.mem_cons, exists_eq_or_imp, or_assoc]
    · simp only [List.mem_cons, exists_eq_or_imp, or_assoc]

theorem addValue_ok {d : NameGraph} {N : Name → Prop} {E : Name → Name → Prop} (h : GraphIs d N E) (tgt : Name)
    (vs : List Name) :
    ∃ d', addValue d tgt vs = .ok d' ∧
      GraphIs d' (fun y => N y ∨ (y = tgt ∨ y ∈ vs)) (fun a b => E a b ∨ (b = tgt ∧ a ∈ vs)) := by
  unfold addValue
  obtain ⟨d1, h1, h2⟩ := needNode_ok h tgt
  have key : ∀ (vs : List Name) (d : NameGraph) (N : Name → Prop) (E : Name → Name → Prop), GraphIs d N E → N tgt →
      ∃ d', vs.foldlM (addSource tgt) d = .ok d' ∧
        GraphIs d' (fun y => N y ∨ y ∈ vs) (fun a b => E a b ∨ (b = tgt ∧ a ∈ vs)) := by
    intro vs
    induction vs with
    | nil =>
      intro d N E h _
      exact ⟨d, rfl, h.congr (fun y => by simp) fun a b => by simp⟩
    | cons v vs ih =>
      intro d N E h ht
      obtain ⟨d1, g1, g2⟩ := needNode_ok h v
      obtain ⟨d2, g3, g4⟩ := needEdge_ok g2 (x := v) (y := tgt) (Or.inr rfl) (Or.inl ht)
      obtain ⟨d3, g5, g6⟩ := ih d2 _ _ g4 (Or.inl ht)
      refine ⟨d3, ?_, g6.congr (fun y => ?_) fun a b => ?_⟩
      · rw [List.foldlM_cons]
        have : addSource tgt d v = .ok d2 := by
          unfold addSource
          rw [g1]
          exact g3
        rw [this]
        exact g5
      · rw [List.mem_cons, or_assoc]
      · rw [List.mem_cons, or_assoc]
        constructor
        · rintro (h | ⟨rfl, rfl⟩ | ⟨rfl, h⟩)
          · exact Or.inl h
          · exact Or.inr ⟨rfl, Or.inl rfl⟩
          · exact Or.inr ⟨rfl, Or.inr h⟩
        · rintro (h | ⟨rfl, rfl | h⟩)
          · exact Or.inl h
          · exact Or.inr (Or.inl ⟨rfl, rfl⟩)
          · exact Or.inr (Or.inr ⟨rfl, h⟩)
  obtain ⟨d2, h3, h4⟩ := key vs d1 _ _ h2 (Or.inr rfl)
  refine ⟨d2, ?_, h4.congr (fun y => by rw [or_assoc]) fun _ _ => Iff.rfl⟩
  rw [h1]
  exact h3

theorem valueGraph_ok (p : SsaProg) (nodes : List Nat) (s : SsaSt) :
    ∃ d, valueGraph p nodes s = .ok d ∧ GraphIs d
      (fun y => ∃ n ∈ nodes, (∃ e ∈ s.phis n, y = e.1 ∨ y ∈ e.2) ∨
        ∃ i ∈ p.insts n, ∃ w ∈ s.wr i, y = w ∨ y ∈ s.rd i)
      (fun a b => ∃ n ∈ nodes, (∃ e ∈ s.phis n, b = e.1 ∧ a ∈ e.2) ∨
        ∃ i ∈ p.insts n, ∃ w ∈ s.wr i, b = w ∧ a ∈ s.rd i) := by
  have h0 : GraphIs {} (fun _ => False) (fun _ _ => False) := ⟨by simp, by simp, .nil, .nil⟩
  unfold valueGraph
  obtain ⟨d, h1, h2⟩ := graph_fold (fun (d : NameGraph) (n : Nat) => (do
      let d ← (s.phis n).foldlM (fun (d : NameGraph) (e : Name × List Name) => addValue d e.1 e.2) d
      (p.insts n).foldlM (fun d i => (s.wr i).foldlM (fun d w => addValue d w (s.rd i)) d) d : Py NameGraph))
    (fun n y => (∃ e ∈ s.phis n, y = e.1 ∨ y ∈ e.2) ∨ ∃ i ∈ p.insts n, ∃ w ∈ s.wr i, y = w ∨ y ∈ s.rd i)
    (fun n a b => (∃ e ∈ s.phis n, b = e.1 ∧ a ∈ e.2) ∨ ∃ i ∈ p.insts n, ∃ w ∈ s.wr i, b = w ∧ a ∈ s.rd i)
    nodes (by
      intro n _ d N0 E0 h
      obtain ⟨d1, g1, g2⟩ := graph_fold (fun (d : NameGraph) (e : Name × List Name) => addValue d e.1 e.2)
        (fun e y => y = e.1 ∨ y ∈ e.2) (fun e a b => b = e.1 ∧ a ∈ e.2) (s.phis n)
        (fun e _ d N0 E0 h => addValue_ok h e.1 e.2) d N0 E0 h
      obtain ⟨d2, g3, g4⟩ := graph_fold (fun d i => (s.wr i).foldlM (fun d w => addValue d w (s.rd i)) d)
        (fun i y => ∃ w ∈ s.wr i, y = w ∨ y ∈ s.rd i) (fun i a b => ∃ w ∈ s.wr i, b = w ∧ a ∈ s.rd i) (p.insts n)
        (fun i _ d N0 E0 h => graph_fold (fun d w => addValue d w (s.rd i)) (fun w y => y = w ∨ y ∈ s.rd i)
          (fun w a b => b = w ∧ a ∈ s.rd i) (s.wr i) (fun w _ d N0 E0 h => addValue_ok h w (s.rd i)) d N0 E0 h)
        d1 _ _ g2
      refine ⟨d2, ?_, g4.congr (fun y => by rw [or_assoc]) fun a b => by rw [or_assoc]⟩
      rw [g1]
      exact g3) {} _ _ h0
  exact ⟨d, h1, h2.congr (fun y => by simp) fun a b => by simp⟩

end Verif
