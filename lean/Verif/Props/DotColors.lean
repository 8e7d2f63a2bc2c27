import Verif.Model.Dot
import Mathlib.Data.List.Nodup

/-! # C104: the colours of the hyperedges -/

namespace Verif

/-- The node drawn for the `i`-th hyperedge of a hypergraph. -/
def drawnHyperedge {α : Type} (str : α → String) (h : Hyper α) (colored : Bool) (i : Nat) : Option DotNode :=
  (writeHyper str h colored).nodes[h.nodes.length + i]?

theorem drawnHyperedge_eq {α : Type} (str : α → String) (h : Hyper α) (colored : Bool) (i : Nat)
    (hi : i < h.hyperedges.length) :
    drawnHyperedge str h colored i = some (hyperEdgeNode colored i (str h.hyperedges[i])) := by
  unfold drawnHyperedge writeHyper
  dsimp only
  rw [List.getElem?_append_right (by simp)]
  simp [hi]

/-- **C104, colours.**  A colored drawing gives every hyperedge one of the 24 colours, also when
there are more hyperedges, and two hyperedges have the same colour exactly when they are a
multiple of 24 places apart.  Without colours no node has one. -/
theorem C104_colors {α : Type} (str : α → String) (h : Hyper α) :
    (∀ i < h.hyperedges.length, ∃ n c, drawnHyperedge str h true i = some n ∧ h.hyperedges[i]?.map str = some n.name ∧
      dictGet n.attrs "color" = some c ∧ c ∈ dotColors) ∧
    (∀ i < h.hyperedges.length, ∀ j < h.hyperedges.length, ∀ n m, drawnHyperedge str h true i = some n →
      drawnHyperedge str h true j = some m →
      (dictGet n.attrs "color" = dictGet m.attrs "color" ↔ i % 24 = j % 24)) ∧
    ∀ n ∈ (writeHyper str h false).nodes, dictGet n.attrs "color" = none := by
  have hget : ∀ i name, dictGet (hyperEdgeNode true i name).attrs "color" = some (dotColors.getD (i % 24) "") := by
    intro i name
    rfl
  have hlt : ∀ i : Nat, i % 24 < dotColors.length := fun i => Nat.mod_lt _ (by decide)
  have hval : ∀ i : Nat, dotColors.getD (i % 24) "" = dotColors[i % 24]'(hlt i) := by
    intro i
    rw [List.getD_eq_getElem?_getD, List.getElem?_eq_getElem (hlt i)]
    rfl
  refine ⟨fun i hi => ?_, fun i hi j hj n m hn hm => ?_, fun n hn => ?_⟩
  · refine ⟨_, _, drawnHyperedge_eq str h true i hi, ?_, hget _ _, ?_⟩
    · simp [hi, hyperEdgeNode]
    · rw [hval]
      exact List.getElem_mem _
  · rw [drawnHyperedge_eq str h true i hi] at hn
    rw [drawnHyperedge_eq str h true j hj] at hm
    cases hn
    cases hm
    rw [hget, hget, hval, hval, Option.some.injEq]
    have hnd : dotColors.Nodup := by decide +kernel
    exact List.Nodup.getElem_inj_iff hnd
  · unfold writeHyper at hn
    dsimp only at hn
    rcases List.mem_append.1 hn with h1 | h1
    · obtain ⟨a, _, rfl⟩ := List.mem_map.1 h1
      rfl
    · obtain ⟨a, _, rfl⟩ := List.mem_map.1 h1
      rfl

/-- Twenty-six hyperedges: the first and the twenty-fifth have the same colour. -/
example : ∃ n m, drawnHyperedge toString ({ nodes := [100], hyperedges := List.range 26, links := fun _ => [100] } : Hyper Nat)
      true 0 = some n ∧
    drawnHyperedge toString ({ nodes := [100], hyperedges := List.range 26, links := fun _ => [100] } : Hyper Nat)
      true 24 = some m ∧ n ≠ m ∧ dictGet n.attrs "color" = dictGet m.attrs "color" :=
  ⟨_, _, rfl, rfl, by decide +kernel, rfl⟩

end Verif
