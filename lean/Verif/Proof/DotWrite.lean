import Verif.Spec.Dot
import Verif.Proof.Dot

/-!
# What is drawn
-/

namespace Verif

open Spec

theorem attrDict_lastFor (l : DotAttrs) (k : String) : dictGet (attrDict l) k = lastFor l k := by
  rw [attrDict_get]
  unfold lastFor
  rw [List.findRev?_eq_find?_reverse, List.getLast?_map, ← List.head?_reverse, ← List.filter_reverse, ← List.head?_filter]

theorem edgeDict_get {α : Type} (g : Gr α) (weighted : Bool) (e : α × α) (k : String) :
    dictGet (edgeDict g weighted e) k =
      if k = "weight" ∧ weighted = true then some (g.weight e)
      else if k = "label" ∧ g.label e ≠ "" then some (g.label e)
      else if k = "label" ∧ weighted = true then some (g.weight e)
      else lastFor (g.edgeAttrs e) k := by
  unfold edgeDict
  by_cases hw : weighted = true <;> by_cases hl : g.label e ≠ "" <;>
    simp only [hw, hl, if_true, if_false, dictGet_dictSet, attrDict_lastFor, and_true, and_false, ne_eq, not_true_eq_false,
      not_false_eq_true, Bool.false_eq_true, @eq_comm _ _ k] <;> (repeat' split) <;> first | rfl | (subst_vars; simp_all)

theorem edgeDict_keys {α : Type} (g : Gr α) (weighted : Bool) (e : α × α) (p : String × String) (h : p ∈ edgeDict g weighted e) :
    p.1 = "weight" ∨ p.1 = "label" ∨ p.1 ∈ (g.edgeAttrs e).map (·.1) := by
  have h : p.1 ∈ (edgeDict g weighted e).map (·.1) := List.mem_map_of_mem h
  rw [← dictGet_isSome, edgeDict_get] at h
  by_cases h1 : p.1 = "weight"
  · exact .inl h1
  · by_cases h2 : p.1 = "label"
    · exact .inr (.inl h2)
    · rw [if_neg (fun x => h1 x.1), if_neg (fun x => h2 x.1), if_neg (fun x => h2 x.1), ← attrDict_lastFor, dictGet_isSome,
        attrDict_keys] at h
      exact .inr (.inr h)

theorem mkDotNode_ok {name : String} {attrs : DotAttrs}
    (h : ∀ k ∈ attrs.map (·.1), k ≠ "self" ∧ k ≠ "name" ∧ k ≠ "obj_dict") : mkDotNode name attrs = .ok ⟨name, attrs⟩ := by
  unfold mkDotNode
  rw [if_neg]
  intro hc
  obtain ⟨p, hp, hc⟩ := List.any_eq_true.mp hc
  have := h p.1 (List.mem_map_of_mem hp)
  simp_all

theorem mkDotEdge_ok {src dst : String} {attrs : DotAttrs}
    (h : ∀ k ∈ attrs.map (·.1), k ≠ "self" ∧ k ≠ "src" ∧ k ≠ "dst" ∧ k ≠ "obj_dict") :
    mkDotEdge src dst attrs = .ok ⟨src, dst, attrs⟩ := by
  unfold mkDotEdge
  rw [if_neg]
  intro hc
  obtain ⟨p, hp, hc⟩ := List.any_eq_true.mp hc
  have := h p.1 (List.mem_map_of_mem hp)
  simp_all

theorem forall2_map {α β : Type} {R : α → β → Prop} (f : α → β) : ∀ l : List α, (∀ x ∈ l, R x (f x)) → List.Forall₂ R l (l.map f)
  | [], _ => .nil
  | a :: l, h => .cons (h a List.mem_cons_self) (forall2_map f l fun x hx => h x (List.mem_cons_of_mem _ hx))

theorem forall2_eq {α β γ : Type} {R : α → β → Prop} {f : α → γ} {k : β → γ} : ∀ {l : List α} {m : List β}, List.Forall₂ R l m →
    (∀ a b, R a b → k b = f a) → m.map k = l.map f
  | _, _, .nil, _ => rfl
  | _, _, .cons h t, e => by rw [List.map_cons, List.map_cons, e _ _ h, forall2_eq t e]

theorem mapM_draw {α β : Type} {f : α → Py β} {k : α → β} : ∀ l : List α, (∀ x ∈ l, f x = .ok (k x)) → l.mapM f = .ok (l.map k)
  | [], _ => rfl
  | a :: l, h => by
    rw [List.mapM_cons, h a List.mem_cons_self, mapM_draw l fun x hx => h x (List.mem_cons_of_mem _ hx)]
    rfl

/-- What is drawn: the nodes, and the edges that are kept. -/
theorem writeDot_eq {α : Type} (str : α → String) (g : Gr α) (weighted : Bool) (hf : FreeAttrs g) :
    writeDot str g weighted = .ok ⟨g.directed, g.nodes.map (fun n => ⟨str n, attrDict (g.nodeAttrs n)⟩),
      (keptEdges str g.directed [] g.edges).map (drawEdge str g weighted)⟩ := by
  obtain ⟨seen, h⟩ := writeEdges_eq str g weighted (fun e he => mkDotEdge_ok (by
    intro k hk
    obtain ⟨p, hp, rfl⟩ := List.mem_map.mp hk
    rcases edgeDict_keys g weighted e p hp with h | h | h
    · rw [h]; decide
    · rw [h]; decide
    · obtain ⟨q, hq, e'⟩ := List.mem_map.mp h
      rw [← e']; exact hf.2 e he q hq)) g.edges (fun _ h => h) ([], [])
  unfold writeDot
  rw [mapM_draw (k := fun n => ⟨str n, attrDict (g.nodeAttrs n)⟩), h]
  · rfl
  · intro n hn
    refine mkDotNode_ok fun k hk => ?_
    rw [attrDict_keys] at hk
    obtain ⟨q, hq, e'⟩ := List.mem_map.mp hk
    rw [← e']; exact hf.1 n hn q hq

theorem writeDot_shows {α : Type} (str : α → String) (g : Gr α) (weighted : Bool) (hf : FreeAttrs g) :
    ∃ d, writeDot str g weighted = .ok d ∧ Shows str g weighted (keptEdges str g.directed [] g.edges) d :=
  ⟨_, writeDot_eq str g weighted hf, rfl,
    forall2_map (fun n => (⟨str n, attrDict (g.nodeAttrs n)⟩ : DotNode)) _ fun n _ => ⟨rfl, attrDict_lastFor _⟩,
    forall2_map (drawEdge str g weighted) _ fun e _ => ⟨rfl, rfl, edgeDict_get g weighted e⟩⟩

end Verif
