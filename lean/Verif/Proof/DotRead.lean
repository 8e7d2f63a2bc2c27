import Verif.Proof.DotWrite

/-!
# Reading a drawing
-/

namespace Verif

theorem addNodeAttrs_eq {α : Type} [DecidableEq α] (n : α) : ∀ (l : DotAttrs) (g : Gr α),
    l.foldl (fun g a => g.addNodeAttr n a) g =
      { g with nodeAttrs := fun x => if x = n then g.nodeAttrs n ++ l else g.nodeAttrs x }
  | [], g => by
    have : (fun x => if x = n then g.nodeAttrs n ++ [] else g.nodeAttrs x) = g.nodeAttrs := by
      funext x
      split
      · next h => rw [h, List.append_nil]
      · rfl
    rw [this]; rfl
  | a :: l, g => by
    rw [List.foldl_cons, addNodeAttrs_eq n l]
    simp only [Gr.addNodeAttr, if_true, List.append_assoc, List.singleton_append]
    congr
    funext x
    split <;> rfl

theorem readNodes_ok : ∀ (ns : List DotNode) (g : Gr String), (ns.map (·.name)).Nodup →
    (∀ n ∈ ns, n.name ∉ g.nodes) → (∀ x, x ∉ g.nodes → g.nodeAttrs x = []) →
    ∃ f, ns.foldlM readDotNode g = .ok { g with nodes := g.nodes ++ ns.map (·.name), nodeAttrs := f } ∧
      (∀ n ∈ ns, f n.name = n.attrs) ∧ ∀ x, x ∉ ns.map (·.name) → f x = g.nodeAttrs x
  | [], g, _, _, _ => ⟨g.nodeAttrs, by simp; rfl, fun _ h => absurd h List.not_mem_nil, fun _ _ => rfl⟩
  | n :: ns, g, hn, hf, hd => by
    rw [List.map_cons, List.nodup_cons] at hn
    have h1 : readDotNode g n = .ok { g with
        nodes := g.nodes ++ [n.name]
        nodeAttrs := fun x => if x = n.name then n.attrs else g.nodeAttrs x } := by
      unfold readDotNode Gr.addNode
      rw [if_neg (hf n List.mem_cons_self)]
      show Except.ok _ = _
      rw [addNodeAttrs_eq]
      simp only [hd n.name (hf n List.mem_cons_self), List.nil_append]
    obtain ⟨f, e, a, b⟩ := readNodes_ok ns { g with
        nodes := g.nodes ++ [n.name]
        nodeAttrs := fun x => if x = n.name then n.attrs else g.nodeAttrs x } hn.2
      (fun m hm h => by
        rcases List.mem_append.mp h with h | h
        · exact hf m (List.mem_cons_of_mem _ hm) h
        · exact hn.1 (by rw [← List.mem_singleton.mp h]; exact List.mem_map_of_mem hm))
      (fun x hx => by
        simp only [List.mem_append, List.mem_singleton, not_or] at hx
        simp only [if_neg hx.2]
        exact hd x hx.1)
    refine ⟨f, ?_, ?_, ?_⟩
    · rw [List.foldlM_cons, h1]
      show ns.foldlM readDotNode _ = _
      rw [e]
      simp
    · intro m hm
      rcases List.mem_cons.mp hm with rfl | hm
      · rw [b _ hn.1]; simp
      · exact a m hm
    · intro x hx
      simp only [List.map_cons, List.mem_cons, not_or] at hx
      rw [b x hx.2]
      simp only [if_neg hx.1]

theorem addEdgeAttrs_eq {α : Type} [DecidableEq α] (u v : α) : ∀ (l : DotAttrs) (g : Gr α),
    l.foldl (fun g a => if ["weight", "label"].contains a.1 then g else g.addEdgeAttr u v a) g =
      { g with edgeAttrs := fun x => if x ∈ g.both u v
          then g.edgeAttrs x ++ l.filter (fun a => !["weight", "label"].contains a.1) else g.edgeAttrs x }
  | [], g => by simp
  | a :: l, g => by
    rw [List.foldl_cons]
    by_cases h : (["weight", "label"].contains a.1) = true
    · rw [if_pos h, addEdgeAttrs_eq u v l, List.filter_cons_of_neg (by rw [h]; decide)]
    · rw [if_neg h, addEdgeAttrs_eq u v l, List.filter_cons_of_pos (by simpa using h)]
      have hb : (g.addEdgeAttr u v a).both u v = g.both u v := rfl
      rw [hb]
      unfold Gr.addEdgeAttr
      generalize g.both u v = b
      congr
      funext x
      by_cases hx : x ∈ b <;> simp [hx]

/-- The directions in which an edge is kept. -/
def bothWays (directed : Bool) (u v : String) : List (String × String) :=
  if directed || decide (u = v) then [(u, v)] else [(u, v), (v, u)]

theorem bothWays_self (d : Bool) (u v : String) : (u, v) ∈ bothWays d u v := by
  unfold bothWays; split <;> simp

theorem bothWays_disj {d : Bool} {u v u' v' : String} (h : (u', v') ∉ bothWays d u v) {x : String × String}
    (hx : x ∈ bothWays d u' v') : x ∉ bothWays d u v := by
  unfold bothWays at *
  cases d
  · by_cases e : u = v <;> by_cases e' : u' = v' <;> simp_all [Prod.ext_iff] <;> grind
  · simp_all

theorem readEdges_ok : ∀ (es : List DotEdge) (g : Gr String), (∀ e ∈ es, e.src ∈ g.nodes ∧ e.dst ∈ g.nodes) →
    (es.Pairwise fun e f => (f.src, f.dst) ∉ bothWays g.directed e.src e.dst) →
    (∀ e ∈ es, ∀ x ∈ bothWays g.directed e.src e.dst, x ∉ g.edges ∧ g.edgeAttrs x = []) →
    ∃ g', es.foldlM readDotEdge g = .ok g' ∧ g'.directed = g.directed ∧ g'.nodes = g.nodes ∧ g'.nodeAttrs = g.nodeAttrs ∧
      g'.edges = g.edges ++ es.flatMap (fun e => bothWays g.directed e.src e.dst) ∧
      (∀ e ∈ es, ∀ x ∈ bothWays g.directed e.src e.dst, g'.label x = (dictGet e.attrs "label").getD "" ∧
        g'.weight x = (dictGet e.attrs "weight").getD "1" ∧
        g'.edgeAttrs x = e.attrs.filter (fun a => !["weight", "label"].contains a.1)) ∧
      (∀ x, (∀ e ∈ es, x ∉ bothWays g.directed e.src e.dst) → g'.label x = g.label x ∧ g'.weight x = g.weight x ∧
        g'.edgeAttrs x = g.edgeAttrs x)
  | [], g, _, _, _ => ⟨g, rfl, rfl, rfl, rfl, by simp, fun _ h => absurd h List.not_mem_nil, fun _ _ => ⟨rfl, rfl, rfl⟩⟩
  | e :: es, g, hn, hp, hd => by
    rw [List.pairwise_cons] at hp
    have hne : (e.src, e.dst) ∉ g.edges := (hd e List.mem_cons_self _ (bothWays_self _ _ _)).1
    have h1 : readDotEdge g e = .ok { g with
        edges := g.edges ++ bothWays g.directed e.src e.dst
        label := fun x => if x ∈ bothWays g.directed e.src e.dst then (dictGet e.attrs "label").getD "" else g.label x
        weight := fun x => if x ∈ bothWays g.directed e.src e.dst then (dictGet e.attrs "weight").getD "1" else g.weight x
        edgeAttrs := fun x => if x ∈ bothWays g.directed e.src e.dst
          then g.edgeAttrs x ++ e.attrs.filter (fun a => !["weight", "label"].contains a.1) else g.edgeAttrs x } := by
      unfold readDotEdge Gr.needNode
      rw [if_pos (hn e List.mem_cons_self).1]
      simp only [bind, Except.bind]
      rw [if_pos (hn e List.mem_cons_self).2]
      simp only [Gr.addEdge]
      rw [if_neg hne]
      simp only
      rw [addEdgeAttrs_eq]
      rfl
    obtain ⟨g', a1, a2, a3, a4, a5, a6, a7⟩ := readEdges_ok es _
      (show ∀ f ∈ es, f.src ∈ ({ g with
        edges := g.edges ++ bothWays g.directed e.src e.dst
        label := fun x => if x ∈ bothWays g.directed e.src e.dst then (dictGet e.attrs "label").getD "" else g.label x
        weight := fun x => if x ∈ bothWays g.directed e.src e.dst then (dictGet e.attrs "weight").getD "1" else g.weight x
        edgeAttrs := fun x => if x ∈ bothWays g.directed e.src e.dst
          then g.edgeAttrs x ++ e.attrs.filter (fun a => !["weight", "label"].contains a.1) else g.edgeAttrs x } : Gr String).nodes ∧ _
        from fun f hf => hn f (List.mem_cons_of_mem _ hf)) hp.2
      (fun f hf x hx => by
        have := bothWays_disj (hp.1 f hf) hx
        have h2 := hd f (List.mem_cons_of_mem _ hf) x hx
        refine ⟨fun h => ?_, ?_⟩
        · rcases List.mem_append.mp h with h | h
          · exact h2.1 h
          · exact this h
        · simp only [if_neg this]; exact h2.2)
    refine ⟨g', ?_, a2, a3, a4, ?_, ?_, ?_⟩
    · rw [List.foldlM_cons, h1]; exact a1
    · rw [a5, List.flatMap_cons, List.append_assoc]
    · intro f hf x hx
      rcases List.mem_cons.mp hf with rfl | hf
      · obtain ⟨b1, b2, b3⟩ := a7 x (fun f' hf' hx' => bothWays_disj (hp.1 f' hf') hx' hx)
        rw [b1, b2, b3]
        simp only [if_pos hx, (hd f List.mem_cons_self x hx).2, List.nil_append, and_self]
      · exact a6 f hf x hx
    · intro x hx
      obtain ⟨b1, b2, b3⟩ := a7 x fun f hf => hx f (List.mem_cons_of_mem _ hf)
      rw [b1, b2, b3]
      simp only [if_neg (hx e List.mem_cons_self), and_self]

end Verif
