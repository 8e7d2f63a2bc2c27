import Verif.Proof.DotRead
import Mathlib.Data.List.Nodup

/-!
# Reading what was written
-/

namespace Verif

open Spec

theorem edgeDict_filter {α : Type} (g : Gr α) (weighted : Bool) (e : α × α) (hn : ((g.edgeAttrs e).map (·.1)).Nodup)
    (hk : ∀ p ∈ g.edgeAttrs e, p.1 ≠ "label" ∧ p.1 ≠ "weight") :
    (edgeDict g weighted e).filter (fun a => !["weight", "label"].contains a.1) = g.edgeAttrs e := by
  have h0 : (g.edgeAttrs e).filter (fun a => !["weight", "label"].contains a.1) = g.edgeAttrs e := by
    rw [List.filter_eq_self]
    intro p hp
    have := hk p hp
    simp [this.1, this.2]
  have hl : "label" ∉ (g.edgeAttrs e).map (·.1) := by
    intro h
    obtain ⟨p, hp, he⟩ := List.mem_map.mp h
    exact (hk p hp).1 he
  have hw : "weight" ∉ (g.edgeAttrs e).map (·.1) := by
    intro h
    obtain ⟨p, hp, he⟩ := List.mem_map.mp h
    exact (hk p hp).2 he
  unfold edgeDict
  rw [attrDict_nodup _ hn]
  dsimp only
  have e1 : ∀ x : String, (dictSet (g.edgeAttrs e) "label" x) = g.edgeAttrs e ++ [("label", x)] := fun x => dictSet_end _ _ _ hl
  have hw' : ∀ x : String, "weight" ∉ (g.edgeAttrs e ++ [("label", x)]).map (·.1) := by
    intro x
    simp only [List.map_append, List.map_cons, List.map_nil, List.mem_append, List.mem_singleton, not_or]
    exact ⟨hw, by decide⟩
  have f1 : ∀ x : String, (g.edgeAttrs e ++ [("label", x)]).filter (fun a => !["weight", "label"].contains a.1) = g.edgeAttrs e := by
    intro x
    rw [List.filter_append, h0]
    simp
  have f2 : ∀ x y : String, (g.edgeAttrs e ++ [("label", x)] ++ [("weight", y)]).filter (fun a => !["weight", "label"].contains a.1) =
      g.edgeAttrs e := by
    intro x y
    rw [List.filter_append, f1]
    simp
  by_cases hw2 : weighted = true <;> by_cases hl2 : g.label e ≠ ""
  · rw [if_pos hw2, if_pos hl2, e1, dictSet_end _ _ _ (hw' _), f2]
  · rw [if_pos hw2, if_neg hl2, if_pos hw2, e1, dictSet_end _ _ _ (hw' _), f2]
  · rw [if_neg hw2, if_pos hl2, e1, f1]
  · rw [if_neg hw2, if_neg hl2, if_neg hw2, h0]

theorem mem_bothWays {d : Bool} {u v x y : String} : (x, y) ∈ bothWays d u v ↔ (x = u ∧ y = v) ∨ (d = false ∧ x = v ∧ y = u) := by
  unfold bothWays
  cases d
  · by_cases e : u = v
    · simp [e]
    · simp [e]
  · simp

theorem lastFor_none {l : DotAttrs} {k : String} (h : ∀ p ∈ l, p.1 ≠ k) : lastFor l k = none := by
  unfold lastFor
  rw [List.filter_eq_nil_iff.mpr fun p hp => by simpa using h p hp]
  rfl

theorem readBack {α : Type} (str : α → String) (g : Gr α) (weighted : Bool) (P : ProperGraph g)
    (hk : ∀ u ∈ g.nodes, ∀ v ∈ g.nodes, ∀ u' ∈ g.nodes, ∀ v' ∈ g.nodes,
      str u ++ "-" ++ str v = str u' ++ "-" ++ str v' → u = u' ∧ v = v') :
    ∃ d g', writeDot str g weighted = .ok d ∧ readDot d = .ok g' ∧ ReadBack str g weighted g' := by
  have hwr := writeDot_eq str g weighted P.free
  generalize hl : keptEdges str g.directed [] g.edges = l at hwr
  have hinj : ∀ u ∈ g.nodes, ∀ v ∈ g.nodes, str u = str v → u = v := fun u hu v hv e =>
    (hk u hu u hu v hv u hu (by rw [e])).1
  have hsub : l.Sublist g.edges := hl ▸ keptEdges_sub str _ _ _
  have hpw := (keptEdges_new str g.directed g.edges []).2
  rw [hl] at hpw
  have hall : ∀ u v, (u, v) ∈ g.edges → (u, v) ∈ l ∨ (g.directed = false ∧ (v, u) ∈ l) := by
    intro u v h
    have hm := P.ends _ h
    rcases keptEdges_all str g.directed g.edges [] _ h with (x | ⟨_, x⟩) | ⟨f, hf, x⟩
    · exact absurd x List.not_mem_nil
    · exact absurd x List.not_mem_nil
    · rw [hl] at hf
      have hm' := P.ends _ (hsub.subset hf)
      rcases x with x | ⟨d, x⟩
      · have := hk _ hm'.1 _ hm'.2 _ hm.1 _ hm.2 x
        exact .inl ((Prod.ext this.1 this.2 : f = (u, v)) ▸ hf)
      · have := hk _ hm'.1 _ hm'.2 _ hm.2 _ hm.1 x
        exact .inr ⟨d, (Prod.ext this.1 this.2 : f = (v, u)) ▸ hf⟩
  obtain ⟨f, hf, f1, _⟩ := readNodes_ok (g.nodes.map fun n => ⟨str n, attrDict (g.nodeAttrs n)⟩) { directed := g.directed }
    (by
      rw [List.map_map]
      exact (List.nodup_map_iff_inj_on P.nodes).mpr fun x hx y hy e => hinj x hx y hy e)
    (fun _ _ => List.not_mem_nil) (fun _ _ => rfl)
  rw [List.map_map] at hf
  have hpw2 : (l.map (drawEdge str g weighted)).Pairwise fun e f => (f.src, f.dst) ∉ bothWays g.directed e.src e.dst := by
    rw [List.pairwise_map]
    refine hpw.imp fun {a b} h hm => ?_
    rcases mem_bothWays.mp hm with hm | ⟨hd, hm⟩
    · exact h.1 (congrArg₂ (fun x y => x ++ "-" ++ y) hm.1.symm hm.2.symm)
    · exact h.2 hd (congrArg₂ (fun x y => x ++ "-" ++ y) hm.2.symm hm.1.symm)
  obtain ⟨g', r, b1, b2, b3, b4, b5, _⟩ := readEdges_ok (l.map (drawEdge str g weighted))
    { directed := g.directed, nodes := [] ++ g.nodes.map str, nodeAttrs := f }
    (by
      intro e he
      obtain ⟨p, hp, rfl⟩ := List.mem_map.mp he
      have := P.ends _ (hsub.subset hp)
      exact ⟨List.mem_map_of_mem this.1, List.mem_map_of_mem this.2⟩)
    hpw2
    (fun _ _ _ _ => ⟨List.not_mem_nil, rfl⟩)
  -- the edge that was drawn for an edge
  have shown : ∀ u v, (u, v) ∈ g.edges → ∃ e ∈ l, (str u, str v) ∈ bothWays g.directed (str e.1) (str e.2) ∧
      e ∈ g.edges ∧ g.label e = g.label (u, v) ∧ g.weight e = g.weight (u, v) ∧ g.edgeAttrs e = g.edgeAttrs (u, v) := by
    intro u v h
    rcases hall u v h with hm | ⟨hd, hm⟩
    · exact ⟨_, hm, bothWays_self _ _ _, h, rfl, rfl, rfl⟩
    · obtain ⟨s1, s2, s3, s4⟩ := P.sym hd u v h
      refine ⟨_, hm, ?_, s1, s2, s3, s4⟩
      exact mem_bothWays.mpr (.inr ⟨hd, rfl, rfl⟩)
  refine ⟨_, g', hwr, ?_, ?_⟩
  · unfold readDot
    dsimp only
    rw [hf]
    exact r
  · refine ⟨b1, by rw [b2]; rfl, ?_, ?_, ?_, ?_, ?_, ?_⟩
    · intro n hn
      rw [b3]
      have := f1 _ (List.mem_map_of_mem hn)
      exact this.trans <| attrDict_nodup _ (P.nodeKeys n hn)
    · rw [b4]
      simp only [List.nil_append]
      rw [List.nodup_flatMap]
      constructor
      · intro e _
        unfold bothWays
        split
        · simp
        · next hd =>
          simp only [Bool.or_eq_true, not_or, Bool.not_eq_true, decide_eq_false_iff_not] at hd
          simp [Prod.ext_iff, hd.2]
      · exact hpw2.imp fun {a b} h x hx hy => bothWays_disj h hy hx
    · intro x y
      rw [b4]
      simp only [List.nil_append, List.mem_flatMap, List.mem_map]
      constructor
      · rintro ⟨_, ⟨e, he, rfl⟩, hx⟩
        have hm := hsub.subset he
        rcases mem_bothWays.mp hx with hx | ⟨hd, hx⟩
        · exact ⟨e.1, e.2, hm, hx.1.symm, hx.2.symm⟩
        · exact ⟨e.2, e.1, (P.sym hd e.1 e.2 hm).1, hx.1.symm, hx.2.symm⟩
      · rintro ⟨u, v, h, rfl, rfl⟩
        obtain ⟨e, he, hb, _⟩ := shown u v h
        exact ⟨_, ⟨e, he, rfl⟩, hb⟩
    · intro u v h
      obtain ⟨e, he, hb, hm, _, _, h4⟩ := shown u v h
      rw [(b5 _ (List.mem_map_of_mem he) _ hb).2.2, ← h4]
      exact edgeDict_filter g weighted e (P.edgeKeys e hm).1 (P.edgeKeys e hm).2
    · intro u v h
      obtain ⟨e, he, hb, hm, h1, h2, _⟩ := shown u v h
      rw [(b5 _ (List.mem_map_of_mem he) _ hb).1, ← h1, ← h2]
      show (dictGet (edgeDict g weighted e) "label").getD "" = _
      rw [edgeDict_get, lastFor_none fun p hp => ((P.edgeKeys e hm).2 p hp).1]
      by_cases hl' : g.label e = "" <;> by_cases hw : weighted = true <;> simp [hl', hw]
    · intro u v h
      obtain ⟨e, he, hb, hm, _, h2, _⟩ := shown u v h
      rw [(b5 _ (List.mem_map_of_mem he) _ hb).2.1, ← h2]
      show (dictGet (edgeDict g weighted e) "weight").getD "1" = _
      rw [edgeDict_get, lastFor_none fun p hp => ((P.edgeKeys e hm).2 p hp).2]
      by_cases hw : weighted = true <;> simp [hw]

end Verif
