import Verif.Spec.Dot
import Verif.Model.Recuperator
import Verif.Props.Evidence

/-!
# Lemmas about the errors of drawing, reading and scoring
-/

namespace Verif

open Spec

/-- Every error is one of some. -/
def ErrsIn (P : Err → Prop) {α : Type} (x : Py α) : Prop := ∀ e, x = .error e → P e

section
variable {P : Err → Prop}

theorem errsIn_ok {α : Type} (a : α) : ErrsIn P (.ok a : Py α) := fun _ h => by cases h

theorem errsIn_err {α : Type} {e : Err} (h : P e) : ErrsIn P (.error e : Py α) := fun _ h' => by cases h'; exact h

theorem ErrsIn.bind {α β : Type} {x : Py α} {f : α → Py β} (h1 : ErrsIn P x) (h2 : ∀ a, x = .ok a → ErrsIn P (f a)) : ErrsIn P (x >>= f) := by
  intro e h
  cases hx : x with
  | error e' =>
    rw [hx] at h
    cases h
    exact h1 _ hx
  | ok a =>
    rw [hx] at h
    exact h2 a hx e h

theorem ErrsIn.map {α β : Type} {x : Py α} {f : α → β} (h : ErrsIn P x) : ErrsIn P (f <$> x) := by
  intro e he
  cases hx : x with
  | error e' =>
    rw [hx] at he
    cases he
    exact h _ hx
  | ok a =>
    rw [hx] at he
    cases he

theorem errsIn_ite {α : Type} {c : Prop} [Decidable c] {x y : Py α} (h1 : c → ErrsIn P x) (h2 : ¬ c → ErrsIn P y) :
    ErrsIn P (if c then x else y) := by
  split
  · exact h1 (by assumption)
  · exact h2 (by assumption)

theorem errsIn_foldlM {α σ : Type} {f : σ → α → Py σ} (h : ∀ s a, ErrsIn P (f s a)) : ∀ (l : List α) (s : σ), ErrsIn P (l.foldlM f s) := by
  intro l
  induction l with
  | nil => exact fun s => errsIn_ok s
  | cons a l ih =>
    intro s
    rw [List.foldlM_cons]
    exact (h s a).bind fun s' _ => ih s'

theorem errsIn_mapM {α β : Type} {f : α → Py β} (h : ∀ a, ErrsIn P (f a)) : ∀ l : List α, ErrsIn P (l.mapM f) := by
  intro l
  induction l with
  | nil => exact errsIn_ok _
  | cons a l ih =>
    rw [List.mapM_cons]
    exact (h a).bind fun b _ => ih.bind fun bs _ => errsIn_ok _

end

theorem readDot_nodes_ok : ∀ (l : List DotNode) (g : Gr String), (l.map (·.name)).Nodup → (∀ n ∈ l, n.name ∉ g.nodes) →
    ∃ g', l.foldlM readDotNode g = .ok g' ∧ g'.edges = g.edges ∧ g'.directed = g.directed := by
  intro l
  induction l with
  | nil => exact fun g _ _ => ⟨g, rfl, rfl, rfl⟩
  | cons n l ih =>
    intro g h1 h2
    have hat : ∀ (as : DotAttrs) (g : Gr String), (as.foldl (fun g a => g.addNodeAttr n.name a) g).nodes = g.nodes ∧
        (as.foldl (fun g a => g.addNodeAttr n.name a) g).edges = g.edges ∧
        (as.foldl (fun g a => g.addNodeAttr n.name a) g).directed = g.directed := by
      intro as
      induction as with
      | nil => exact fun _ => ⟨rfl, rfl, rfl⟩
      | cons a as ih => exact fun g => ih _
    rw [List.map_cons, List.nodup_cons] at h1
    have hs : readDotNode g n = .ok (n.attrs.foldl (fun g a => g.addNodeAttr n.name a) { g with nodes := g.nodes ++ [n.name] }) := by
      unfold readDotNode Gr.addNode
      rw [if_neg (h2 n (by simp))]
      rfl
    obtain ⟨g', e1, e2, e3⟩ := ih (n.attrs.foldl (fun g a => g.addNodeAttr n.name a) { g with nodes := g.nodes ++ [n.name] }) h1.2
      (fun m hm => by
        rw [(hat _ _).1]
        intro hmem
        rcases List.mem_append.1 hmem with h | h
        · exact h2 m (List.mem_cons_of_mem _ hm) h
        · exact h1.1 (List.mem_map.2 ⟨m, hm, List.mem_singleton.1 h⟩))
    refine ⟨g', ?_, e2.trans (hat _ _).2.1, e3.trans (hat _ _).2.2⟩
    rw [List.foldlM_cons, hs]
    exact e1

theorem readDot_nodes_nodup : ∀ (l : List DotNode) (g g' : Gr String), l.foldlM readDotNode g = .ok g' →
    (l.map (·.name)).Nodup ∧ (∀ n ∈ l, n.name ∉ g.nodes) ∧ g'.edges = g.edges ∧ g'.directed = g.directed := by
  intro l
  induction l with
  | nil =>
    intro g g' h
    cases h
    simp
  | cons n l ih =>
    intro g g' h
    have hat : ∀ (as : DotAttrs) (g : Gr String), (as.foldl (fun g a => g.addNodeAttr n.name a) g).nodes = g.nodes ∧
        (as.foldl (fun g a => g.addNodeAttr n.name a) g).edges = g.edges ∧
        (as.foldl (fun g a => g.addNodeAttr n.name a) g).directed = g.directed := by
      intro as
      induction as with
      | nil => exact fun _ => ⟨rfl, rfl, rfl⟩
      | cons a as ih => exact fun g => ih _
    rw [List.foldlM_cons] at h
    obtain ⟨g1, h1, h2⟩ := except_bind_ok h
    unfold readDotNode Gr.addNode at h1
    obtain ⟨g2, h3, h4⟩ := except_bind_ok h1
    split at h3
    · cases h3
    · rename_i hnn
      cases h3
      cases h4
      obtain ⟨i1, i2, i3, i4⟩ := ih _ _ h2
      rw [(hat _ _).1] at i2
      rw [(hat _ _).2.1] at i3
      rw [(hat _ _).2.2] at i4
      refine ⟨?_, ?_, i3, i4⟩
      · rw [List.map_cons, List.nodup_cons]
        refine ⟨fun hm => ?_, i1⟩
        obtain ⟨m, hm1, hm2⟩ := List.mem_map.1 hm
        exact i2 m hm1 (by rw [hm2]; simp)
      · intro m hm
        rcases List.mem_cons.1 hm with rfl | hm
        · exact hnn
        · exact fun h => i2 m hm (List.mem_append_left _ h)

theorem readDotEdge_spec (g : Gr String) (e : DotEdge) :
    ((e.src, e.dst) ∈ g.edges → ∀ g', readDotEdge g e ≠ .ok g') ∧
    ((e.src, e.dst) ∉ g.edges → ∃ g', readDotEdge g e = .ok g' ∧ g'.directed = g.directed ∧ g'.edges = g.edges ++ g.both e.src e.dst) := by
  have need : ∀ (g : Gr String) n, ∃ g', g.needNode n = .ok g' ∧ g'.directed = g.directed ∧ g'.edges = g.edges := by
    intro g n
    unfold Gr.needNode Gr.addNode
    split
    · exact ⟨g, rfl, rfl, rfl⟩
    · exact ⟨_, rfl, rfl, rfl⟩
  have hat : ∀ (as : DotAttrs) (g : Gr String),
      (as.foldl (fun g a => if ["weight", "label"].contains a.1 then g else g.addEdgeAttr e.src e.dst a) g).directed = g.directed ∧
      (as.foldl (fun g a => if ["weight", "label"].contains a.1 then g else g.addEdgeAttr e.src e.dst a) g).edges = g.edges := by
    intro as
    induction as with
    | nil => exact fun _ => ⟨rfl, rfl⟩
    | cons a as ih =>
      intro g
      rw [List.foldl_cons]
      refine ⟨(ih _).1.trans ?_, (ih _).2.trans ?_⟩ <;> split <;> rfl
  obtain ⟨g1, a1, a2, a3⟩ := need g e.src
  obtain ⟨g2, b1, b2, b3⟩ := need g1 e.dst
  have hr : readDotEdge g e = (g2.addEdge e.src e.dst ((dictGet e.attrs "weight").getD "1") ((dictGet e.attrs "label").getD "")) >>=
      fun g => .ok (e.attrs.foldl (fun g a => if ["weight", "label"].contains a.1 then g else g.addEdgeAttr e.src e.dst a) g) := by
    unfold readDotEdge
    rw [a1]
    show (g1.needNode e.dst >>= _) = _
    rw [b1]
    rfl
  rw [hr]
  unfold Gr.addEdge
  rw [b3, a3]
  refine ⟨fun hm g' h => ?_, fun hm => ?_⟩
  · rw [if_pos hm] at h
    cases h
  · rw [if_neg hm]
    refine ⟨_, rfl, (hat _ _).1.trans (b2.trans a2), (hat _ _).2.trans ?_⟩
    show g.edges ++ g2.both _ _ = _
    unfold Gr.both
    rw [b2, a2]

theorem readDot_edges : ∀ (l : List DotEdge) (g : Gr String),
    (∃ g', l.foldlM readDotEdge g = .ok g') ↔
      l.Pairwise (fun a b => ¬ SameLine g.directed a b) ∧ ∀ e ∈ l, (e.src, e.dst) ∉ g.edges := by
  intro l
  induction l with
  | nil => exact fun g => ⟨fun _ => ⟨List.Pairwise.nil, by simp⟩, fun _ => ⟨g, rfl⟩⟩
  | cons a l ih =>
    intro g
    rw [List.foldlM_cons, List.pairwise_cons]
    by_cases hm : (a.src, a.dst) ∈ g.edges
    · constructor
      · rintro ⟨g', h⟩
        obtain ⟨g1, h1, _⟩ := except_bind_ok h
        exact absurd h1 ((readDotEdge_spec g a).1 hm g1)
      · exact fun h => absurd hm (h.2 a (by simp))
    · obtain ⟨g1, h1, h2, h3⟩ := (readDotEdge_spec g a).2 hm
      rw [h1]
      refine Iff.trans (ih g1) ?_
      rw [h2, h3]
      have hb : ∀ b : DotEdge, (b.src, b.dst) ∈ g.both a.src a.dst ↔ SameLine g.directed a b := by
        intro b
        unfold Gr.both SameLine
        cases g.directed <;> by_cases hs : a.src = a.dst <;> simp [hs, Prod.ext_iff, eq_comm] <;> grind
      constructor
      · rintro ⟨p1, p2⟩
        refine ⟨⟨fun b hb' hs => p2 b hb' (List.mem_append_right _ ((hb b).2 hs)), p1⟩, fun b hb' h => ?_⟩
        rcases List.mem_cons.1 hb' with rfl | hb'
        · exact hm h
        · exact p2 b hb' (List.mem_append_left _ h)
      · rintro ⟨⟨p1, p2⟩, p3⟩
        refine ⟨p2, fun b hb' h => ?_⟩
        rcases List.mem_append.1 h with h | h
        · exact p3 b (List.mem_cons_of_mem _ hb') h
        · exact p1 b hb' ((hb b).1 h)

theorem errsIn_pyDiv (a b : Rat) : ErrsIn (fun e => e = .key ∨ e = .zeroDiv ∨ e = .runtime) (pyDiv a b) :=
  errsIn_ite (fun _ => errsIn_err (Or.inr (Or.inl rfl))) fun _ => errsIn_ok _

end Verif
