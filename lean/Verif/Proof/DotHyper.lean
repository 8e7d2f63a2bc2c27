import Verif.Proof.DotRead

/-!
# Reading the drawing of a hypergraph
-/

namespace Verif

theorem readHyperNodes_ok : ∀ (ns : List String) (h : Hyper String), ns.Nodup → (∀ n ∈ ns, n ∉ h.nodes) →
    (ns.map hyperNode).foldlM readHyperNode h = .ok { h with nodes := h.nodes ++ ns }
  | [], h, _, _ => by simp; rfl
  | n :: ns, h, hn, hd => by
    rw [List.nodup_cons] at hn
    have h1 : readHyperNode h (hyperNode n) = .ok { h with nodes := h.nodes ++ [n] } := by
      unfold readHyperNode
      rw [if_pos (by rfl)]
      unfold Hyper.addNode
      exact if_neg (hd n List.mem_cons_self)
    rw [List.map_cons, List.foldlM_cons, h1]
    show (ns.map hyperNode).foldlM readHyperNode _ = _
    rw [readHyperNodes_ok ns _ hn.2]
    · simp
    · intro m hm h'
      rcases List.mem_append.mp h' with h' | h'
      · exact hd m (List.mem_cons_of_mem _ hm) h'
      · exact hn.1 (List.mem_singleton.mp h' ▸ hm)

theorem hyperEdgeNode_name (c : Bool) (i : Nat) (s : String) : (hyperEdgeNode c i s).name = s := by
  unfold hyperEdgeNode; split <;> rfl

theorem hyperEdgeNode_type (c : Bool) (i : Nat) (s : String) :
    dictGet (hyperEdgeNode c i s).attrs "hyper_node_type" = some "hyperedge" := by
  unfold hyperEdgeNode; split <;> rfl

theorem readHyperEdges_ok (c : Bool) : ∀ (es : List String) (i : Nat) (h : Hyper String), es.Nodup → (∀ e ∈ es, e ∉ h.hyperedges) →
    ((es.zipIdx i).map fun e => hyperEdgeNode c e.2 e.1).foldlM readHyperNode h =
      .ok { h with hyperedges := h.hyperedges ++ es }
  | [], _, h, _, _ => by simp; rfl
  | e :: es, i, h, hn, hd => by
    rw [List.nodup_cons] at hn
    have h1 : readHyperNode h (hyperEdgeNode c i e) = .ok { h with hyperedges := h.hyperedges ++ [e] } := by
      unfold readHyperNode
      rw [hyperEdgeNode_type, if_neg (by decide), if_pos rfl, hyperEdgeNode_name]
      unfold Hyper.addHyperedge
      rw [if_neg (hd e List.mem_cons_self)]
    rw [List.zipIdx_cons, List.map_cons, List.foldlM_cons, h1]
    show List.foldlM readHyperNode _ _ = _
    rw [readHyperEdges_ok c es (i + 1) _ hn.2]
    · simp
    · intro m hm h'
      rcases List.mem_append.mp h' with h' | h'
      · exact hd m (List.mem_cons_of_mem _ hm) h'
      · exact hn.1 (List.mem_singleton.mp h' ▸ hm)

theorem readLinks_one (e : String) : ∀ (ns : List String) (h : Hyper String) (l : Option (String × String)), ns.Nodup →
    (∀ n ∈ ns, n ∈ h.nodes ∧ n ∉ h.links e) → e ∉ h.nodes → e ∈ h.hyperedges →
    ∃ l', (ns.map fun n => (⟨e, n, []⟩ : DotEdge)).foldlM readHyperLink (h, l) =
      .ok ({ h with links := fun x => if x = e then h.links e ++ ns else h.links x }, l')
  | [], h, l, _, _, _, _ => by
    refine ⟨l, ?_⟩
    have : (fun x => if x = e then h.links e ++ [] else h.links x) = h.links := by
      funext x
      split
      · next hx => rw [hx, List.append_nil]
      · rfl
    rw [this]; rfl
  | n :: ns, h, l, hn, hd, he, he' => by
    rw [List.nodup_cons] at hn
    have h1 : readHyperLink (h, l) ⟨e, n, []⟩ =
        .ok ({ h with links := fun x => if x = e then h.links e ++ [n] else h.links x }, some (n, e)) := by
      unfold readHyperLink
      simp only [if_neg he, if_pos (hd n List.mem_cons_self).1]
      unfold Hyper.link
      rw [if_neg (by simpa using (hd n List.mem_cons_self).1), if_neg (hd n List.mem_cons_self).2, if_neg (by simpa using he')]
      rfl
    obtain ⟨l', ih⟩ := readLinks_one e ns { h with links := fun x => if x = e then h.links e ++ [n] else h.links x } (some (n, e)) hn.2
      (fun m hm => ⟨(hd m (List.mem_cons_of_mem _ hm)).1, by
        simp only [if_true, List.mem_append, List.mem_singleton, not_or]
        exact ⟨(hd m (List.mem_cons_of_mem _ hm)).2, fun x => hn.1 (x ▸ hm)⟩⟩) he he'
    refine ⟨l', ?_⟩
    rw [List.map_cons, List.foldlM_cons, h1]
    show List.foldlM readHyperLink _ _ = _
    rw [ih]
    congr 3
    funext x
    by_cases hx : x = e <;> simp [hx]

theorem readLinks_ok {α : Type} (str : α → String) (links : α → List α) : ∀ (es : List α) (h : Hyper String) (l : Option (String × String)),
    (es.map str).Nodup → (∀ e ∈ es, str e ∉ h.nodes ∧ str e ∈ h.hyperedges ∧ h.links (str e) = [] ∧ ((links e).map str).Nodup ∧
      ∀ n ∈ links e, str n ∈ h.nodes) →
    ∃ f l', (es.flatMap fun e => (links e).map fun n => (⟨str e, str n, []⟩ : DotEdge)).foldlM readHyperLink (h, l) =
      .ok ({ h with links := f }, l') ∧ (∀ e ∈ es, f (str e) = (links e).map str) ∧ ∀ x, x ∉ es.map str → f x = h.links x
  | [], h, l, _, _ => ⟨h.links, l, rfl, fun _ h => absurd h List.not_mem_nil, fun _ _ => rfl⟩
  | e :: es, h, l, hn, hd => by
    rw [List.map_cons, List.nodup_cons] at hn
    obtain ⟨a1, a2, a3, a4, a5⟩ := hd e List.mem_cons_self
    obtain ⟨l1, h1⟩ := readLinks_one (str e) ((links e).map str) h l a4 (fun n hm => by
      obtain ⟨m, hm', rfl⟩ := List.mem_map.mp hm
      exact ⟨a5 m hm', by rw [a3]; exact List.not_mem_nil⟩) a1 a2
    rw [List.map_map] at h1
    obtain ⟨f, l', ih, b1, b2⟩ := readLinks_ok str links es
      { h with links := fun x => if x = str e then h.links (str e) ++ (links e).map str else h.links x } l1 hn.2
      (fun m hm => by
        obtain ⟨c1, c2, c3, c4, c5⟩ := hd m (List.mem_cons_of_mem _ hm)
        refine ⟨c1, c2, ?_, c4, c5⟩
        have : str m ≠ str e := fun x => hn.1 (x ▸ List.mem_map_of_mem hm)
        simp only [if_neg this]
        exact c3)
    refine ⟨f, l', ?_, ?_, ?_⟩
    · rw [List.flatMap_cons, List.foldlM_append]
      have h1' : ((links e).map fun n => (⟨str e, str n, []⟩ : DotEdge)).foldlM readHyperLink (h, l) = _ := h1
      rw [h1']
      exact ih
    · intro m hm
      rcases List.mem_cons.mp hm with rfl | hm
      · rw [b2 _ hn.1]; simp [a3]
      · exact b1 m hm
    · intro x hx
      simp only [List.map_cons, List.mem_cons, not_or] at hx
      rw [b2 x hx.2]
      simp only [if_neg hx.1]

theorem zipIdx_map_str {α : Type} (str : α → String) (c : Bool) : ∀ (es : List α) (i : Nat),
    ((es.zipIdx i).map fun e => hyperEdgeNode c e.2 (str e.1)) = (((es.map str).zipIdx i).map fun e => hyperEdgeNode c e.2 e.1)
  | [], _ => rfl
  | e :: es, i => by
    simp only [List.map_cons, List.zipIdx_cons]
    rw [zipIdx_map_str str c es (i + 1)]

end Verif
