import Verif.Proof.DotWrite
import Verif.Proof.DotRound
import Verif.Proof.DotHyper
import Verif.Props.Cfg

/-!
# C102, C103, C104: drawings
-/

namespace Verif

open Spec

/-- C102, for any names.  All nodes are shown, in order, and of the edges those whose
names, joined by a hyphen, did not occur before (in a graph without directions: in either
direction); so every edge is shown or another one whose names joined are the same. -/
theorem C102_write_partial {α : Type} (str : α → String) (g : Gr α) (weighted : Bool) (hf : FreeAttrs g) :
    ∃ d l, writeDot str g weighted = .ok d ∧ Shows str g weighted l d ∧ l.Sublist g.edges ∧
      (l.Pairwise fun e f => str e.1 ++ "-" ++ str e.2 ≠ str f.1 ++ "-" ++ str f.2 ∧
        (g.directed = false → str e.1 ++ "-" ++ str e.2 ≠ str f.2 ++ "-" ++ str f.1)) ∧
      ∀ e ∈ g.edges, ∃ f ∈ l, str f.1 ++ "-" ++ str f.2 = str e.1 ++ "-" ++ str e.2 ∨
        (g.directed = false ∧ str f.1 ++ "-" ++ str f.2 = str e.2 ++ "-" ++ str e.1) := by
  obtain ⟨d, h, s⟩ := writeDot_shows str g weighted hf
  refine ⟨d, _, h, s, keptEdges_sub str _ _ _, (keptEdges_new str _ _ _).2, fun e he => ?_⟩
  rcases keptEdges_all str g.directed g.edges [] e he with (x | ⟨_, x⟩) | x
  · exact absurd x List.not_mem_nil
  · exact absurd x List.not_mem_nil
  · exact x

/-- C102, for digraphs whose nodes have different names without hyphens: everything is shown. -/
theorem C102_digraph {α : Type} (str : α → String) (g : Gr α) (weighted : Bool) (hf : FreeAttrs g)
    (hd : g.directed = true) (hn : g.edges.Nodup) (he : ∀ e ∈ g.edges, e.1 ∈ g.nodes ∧ e.2 ∈ g.nodes)
    (hi : ∀ u ∈ g.nodes, ∀ v ∈ g.nodes, str u = str v → u = v) (hh : ∀ u ∈ g.nodes, '-' ∉ (str u).toList) :
    ∃ d, writeDot str g weighted = .ok d ∧ Shows str g weighted g.edges d := by
  obtain ⟨d, h, s⟩ := writeDot_shows str g weighted hf
  rw [hd, keptEdges_full str g.edges [] hn] at s
  · exact ⟨d, h, s⟩
  · intro e m f m' k
    obtain ⟨a, b⟩ := plainKey str (hh _ (he e m).1) (hh _ (he f m').1) k
    exact Prod.ext (hi _ (he e m).1 _ (he f m').1 a) (hi _ (he e m).2 _ (he f m').2 b)
  · exact fun _ _ => List.not_mem_nil

/-- C102, for graphs without directions whose nodes have different names without hyphens:
every edge is shown in exactly one of its two directions, once. -/
theorem C102_graph {α : Type} [DecidableEq α] (str : α → String) (g : Gr α) (weighted : Bool) (hf : FreeAttrs g)
    (hd : g.directed = false) (he : ∀ e ∈ g.edges, e.1 ∈ g.nodes ∧ e.2 ∈ g.nodes)
    (hi : ∀ u ∈ g.nodes, ∀ v ∈ g.nodes, str u = str v → u = v) (hh : ∀ u ∈ g.nodes, '-' ∉ (str u).toList) :
    ∃ d l, writeDot str g weighted = .ok d ∧ Shows str g weighted l d ∧ l.Sublist g.edges ∧ l.Nodup ∧
      ∀ u v, (u, v) ∈ g.edges → ((u, v) ∈ l ∨ (v, u) ∈ l) ∧ (u ≠ v → ¬((u, v) ∈ l ∧ (v, u) ∈ l)) := by
  obtain ⟨d, l, h, s, sub, pw, all⟩ := C102_write_partial str g weighted hf
  refine ⟨d, l, h, s, sub, pw.imp fun x e => x.1 (by rw [e]), fun u v m => ⟨?_, ?_⟩⟩
  · obtain ⟨f, hf', k⟩ := all _ m
    have hm := sub.subset hf'
    have key : ∀ a b : α, a ∈ g.nodes → b ∈ g.nodes → str f.1 ++ "-" ++ str f.2 = str a ++ "-" ++ str b → f = (a, b) := by
      intro a b ha hb k
      obtain ⟨x, y⟩ := plainKey str (u := f.1) (v := f.2) (u' := a) (v' := b) (hh _ (he f hm).1) (hh _ ha) k
      exact Prod.ext (hi _ (he f hm).1 _ ha x) (hi _ (he f hm).2 _ hb y)
    rcases k with k | ⟨_, k⟩
    · exact .inl (key u v (he _ m).1 (he _ m).2 k ▸ hf')
    · exact .inr (key v u (he _ m).2 (he _ m).1 k ▸ hf')
  · rintro ne ⟨a, b⟩
    obtain ⟨x, y, rfl⟩ := List.append_of_mem a
    rw [List.pairwise_append, List.pairwise_cons] at pw
    rcases List.mem_append.mp b with b | b
    · exact (pw.2.2 _ b _ List.mem_cons_self).2 hd rfl
    · rcases List.mem_cons.mp b with b | b
      · exact ne (congrArg Prod.snd b)
      · exact (pw.2.1.1 _ b).2 hd rfl

/-- C102, for control flow graphs: whatever the instructions say, everything is shown, and
no two nodes have the same name. -/
theorem C102_cfg (text : Nat → String) (c : Cfg) (edges : List (Nat × Nat)) (weighted : Bool) (hn : edges.Nodup) :
    ∃ d, writeDot (blockText text c) (cfgGr c edges) weighted = .ok d ∧
      Shows (blockText text c) (cfgGr c edges) weighted edges d ∧
      ∀ u v, blockText text c u = blockText text c v → u = v := by
  obtain ⟨d, h, s⟩ := writeDot_shows (blockText text c) (cfgGr c edges) weighted
    ⟨fun _ _ _ h => absurd h List.not_mem_nil, fun _ _ _ h => absurd h List.not_mem_nil⟩
  rw [show (cfgGr c edges).directed = true from rfl, show (cfgGr c edges).edges = edges from rfl,
    keptEdges_full (blockText text c) _ [] hn] at s
  · exact ⟨d, h, s, fun u v e => blockText_inj text c e⟩
  · intro e _ f _ k
    obtain ⟨a, b⟩ := blockKey_inj text c k
    exact Prod.ext a b
  · exact fun _ _ => List.not_mem_nil

/-- C102, for the graph of any program. -/
theorem C102_build (text : Nat → String) {prog : List CfgInst} (count : Int) {c : Cfg} (hne : prog ≠ [])
    (hm : cfgCounter prog count ≤ prog.length) (h : buildCfg prog count = .ok c) (edges : List (Nat × Nat))
    (hp : edges.Perm c.edges) (weighted : Bool) :
    ∃ d, writeDot (blockText text c) (cfgGr c edges) weighted = .ok d ∧
      d.nodes.map (·.name) = c.nodes.map (blockText text c) ∧
      d.edges.map (fun e => (e.src, e.dst)) = edges.map (fun e => (blockText text c e.1, blockText text c e.2)) := by
  obtain ⟨c', _, h', _, he, _⟩ := cfg_partition hne count hm
  rw [h] at h'
  injection h' with h'
  subst h'
  obtain ⟨d, hd, ⟨_, s1, s2⟩, _⟩ := C102_cfg text c edges weighted (hp.nodup_iff.mpr he)
  refine ⟨d, hd, ?_, ?_⟩
  · exact forall2_eq s1 fun a b h => h.1
  · exact forall2_eq s2 fun a b h => Prod.ext h.1 h.2.1

/-- C102 fails: names joined by a hyphen may agree; then one edge is not drawn. -/
theorem C102_hyphen_refuted :
    ∃ d, writeDot id { directed := true, nodes := ["a-b", "c", "a", "b-c"], edges := [("a-b", "c"), ("a", "b-c")] } false = .ok d ∧
      d.edges.map (fun e => (e.src, e.dst)) = [("a-b", "c")] := ⟨_, rfl, by decide +kernel⟩

/-- C102 fails: nodes with the same text (two instructions that read the same) are drawn
under one name, and their edges as one. -/
theorem C102_same_text_refuted :
    ∃ d, writeDot (fun n : Nat => if n = 2 then "ldr r1, [r0]" else "mov r0, #1")
        { directed := true, nodes := [0, 1, 2], edges := [(0, 2), (1, 2)] } false = .ok d ∧
      d.nodes.map (·.name) = ["mov r0, #1", "mov r0, #1", "ldr r1, [r0]"] ∧
      d.edges.map (fun e => (e.src, e.dst)) = [("mov r0, #1", "ldr r1, [r0]")] := ⟨_, rfl, by decide +kernel, by decide +kernel⟩

/-- C102 fails: attributes may have the names of parameters. -/
theorem C102_name_refuted :
    writeDot id { directed := true, nodes := ["a"], nodeAttrs := fun _ => [("name", "x")] } false = .error .type := by
  decide +kernel

/-- A weighted digraph: its labels, weights and attributes are shown. -/
example : writeDot id
      { directed := true
        nodes := ["a", "b"]
        edges := [("a", "b"), ("b", "a")]
        label := fun e => if e.1 = "a" then "up" else ""
        weight := fun e => if e.1 = "a" then "3" else "4"
        edgeAttrs := fun e => if e.1 = "b" then [("color", "red"), ("color", "blue")] else [] } true =
    .ok ⟨true, [⟨"a", []⟩, ⟨"b", []⟩], [⟨"a", "b", [("label", "up"), ("weight", "3")]⟩,
      ⟨"b", "a", [("color", "blue"), ("label", "4"), ("weight", "4")]⟩]⟩ := by decide +kernel

/-- A graph without directions: one edge and one loop. -/
example : writeDot id { directed := false, nodes := ["a", "b"], edges := [("a", "b"), ("a", "a"), ("b", "a")] } false =
    .ok ⟨false, [⟨"a", []⟩, ⟨"b", []⟩], [⟨"a", "b", []⟩, ⟨"a", "a", []⟩]⟩ := by decide +kernel

/-- The graph of a program whose second instruction is conditional. -/
example : (do
    let c ← buildCfg [{}, { cond := 0 }, {}] (-1)
    let d ← writeDot (blockText (fun i => "inst-" ++ toString i) c) (cfgGr c c.edges) false
    .ok (d.nodes.map (·.name), d.edges.length) : Py _) =
    .ok (["1-ROOT", "2-END", "3-inst-0", "4-inst-1", " <5> ", "6-inst-2"], 6) := by decide +kernel

/-! ## C103: reading what was written -/

/-- C103, for any graph whose names are told apart when joined: reading the drawing gives the
graph back except that without `weighted` weights become 1 and with it edges without a label
are labelled with their weight. -/
theorem C103_read_back_partial {α : Type} (str : α → String) (g : Gr α) (weighted : Bool) (P : ProperGraph g)
    (hk : ∀ u ∈ g.nodes, ∀ v ∈ g.nodes, ∀ u' ∈ g.nodes, ∀ v' ∈ g.nodes,
      str u ++ "-" ++ str v = str u' ++ "-" ++ str v' → u = u' ∧ v = v') :
    ∃ d g', writeDot str g weighted = .ok d ∧ readDot d = .ok g' ∧ ReadBack str g weighted g' :=
  readBack str g weighted P hk

/-- C103: nothing changes if all edges have a label and the weights are written. -/
theorem C103_labelled {α : Type} (str : α → String) (g : Gr α) (P : ProperGraph g)
    (hk : ∀ u ∈ g.nodes, ∀ v ∈ g.nodes, ∀ u' ∈ g.nodes, ∀ v' ∈ g.nodes,
      str u ++ "-" ++ str v = str u' ++ "-" ++ str v' → u = u' ∧ v = v') (hl : ∀ e ∈ g.edges, g.label e ≠ "") :
    ∃ d g', writeDot str g true = .ok d ∧ readDot d = .ok g' ∧ g'.directed = g.directed ∧ g'.nodes = g.nodes.map str ∧
      (∀ n ∈ g.nodes, g'.nodeAttrs (str n) = g.nodeAttrs n) ∧
      (∀ x y, (x, y) ∈ g'.edges ↔ ∃ u v, (u, v) ∈ g.edges ∧ str u = x ∧ str v = y) ∧
      ∀ u v, (u, v) ∈ g.edges → g'.edgeAttrs (str u, str v) = g.edgeAttrs (u, v) ∧
        g'.label (str u, str v) = g.label (u, v) ∧ g'.weight (str u, str v) = g.weight (u, v) := by
  obtain ⟨d, g', a, b, R⟩ := readBack str g true P hk
  refine ⟨d, g', a, b, R.directed, R.nodes, R.nodeAttrs, R.edges, fun u v h => ⟨R.edgeAttrs u v h, ?_, ?_⟩⟩
  · rw [R.label u v h, if_neg fun x => hl _ h x.1]
  · rw [R.weight u v h, if_pos rfl]

/-- C103 fails: a weight that is not asked for is lost; one that is asked for labels the edge. -/
theorem C103_weight_refuted :
    let g : Gr String := { directed := true, nodes := ["a", "b"], edges := [("a", "b")], weight := fun _ => "7" }
    ProperGraph g ∧
    (∃ d g', writeDot id g false = .ok d ∧ readDot d = .ok g' ∧ g'.weight ("a", "b") = "1") ∧
    ∃ d g', writeDot id g true = .ok d ∧ readDot d = .ok g' ∧ g.label ("a", "b") = "" ∧ g'.label ("a", "b") = "7" := by
  refine ⟨⟨by decide, by decide, by decide, fun h => absurd h (by decide), ⟨by decide, by decide⟩, by decide, by decide⟩,
    ⟨_, _, rfl, rfl, by decide +kernel⟩, ⟨_, _, rfl, rfl, rfl, by decide +kernel⟩⟩

/-- A graph without directions that meets the conditions. -/
example : ProperGraph
    ({ directed := false
       nodes := ["a", "b"]
       edges := [("a", "b"), ("b", "a")]
       label := fun _ => "to"
       weight := fun _ => "2"
       edgeAttrs := fun _ => [("color", "red")]
       nodeAttrs := fun n => [("shape", n)] } : Gr String) :=
  ⟨by decide, by decide, by decide, fun _ u v h => ⟨by
    simp only [List.mem_cons, Prod.mk.injEq, List.not_mem_nil, or_false] at h ⊢
    exact h.symm.imp And.symm And.symm, rfl, rfl, rfl⟩, ⟨by simp, by simp⟩, by simp, by simp⟩

/-- The graph of a program can be read back. -/
theorem C103_cfg (text : Nat → String) (c : Cfg) (edges : List (Nat × Nat)) (hn : edges.Nodup) (hc : c.nodes.Nodup)
    (he : ∀ e ∈ edges, e.1 ∈ c.nodes ∧ e.2 ∈ c.nodes) :
    ∃ d g', writeDot (blockText text c) (cfgGr c edges) false = .ok d ∧ readDot d = .ok g' ∧
      g'.nodes = c.nodes.map (blockText text c) ∧
      ∀ x y, (x, y) ∈ g'.edges ↔ ∃ u v, (u, v) ∈ edges ∧ blockText text c u = x ∧ blockText text c v = y := by
  obtain ⟨d, g', a, b, R⟩ := readBack (blockText text c) (cfgGr c edges) false
    ⟨hc, hn, he, fun h => absurd (show true = false from h) (by decide),
      ⟨fun _ _ _ h => absurd h List.not_mem_nil, fun _ _ _ h => absurd h List.not_mem_nil⟩,
      fun _ _ => List.nodup_nil, fun _ _ => ⟨List.nodup_nil, fun _ h => absurd h List.not_mem_nil⟩⟩
    (fun u _ v _ u' _ v' _ h => blockKey_inj text c h)
  exact ⟨d, g', a, b, R.nodes, R.edges⟩

/-! ## C104: hypergraphs -/

/-- C104, when all nodes and hyperedges have different names: reading the drawing of a
hypergraph gives the hypergraph back, colored or not. -/
theorem C104_hypergraph_partial {α : Type} (str : α → String) (h : Hyper α) (colored : Bool)
    (hn : ((h.nodes ++ h.hyperedges).map str).Nodup)
    (hl : ∀ e ∈ h.hyperedges, (h.links e).Nodup ∧ ∀ n ∈ h.links e, n ∈ h.nodes) :
    ∃ h', readHyper (writeHyper str h colored) = .ok h' ∧ h'.nodes = h.nodes.map str ∧ h'.hyperedges = h.hyperedges.map str ∧
      ∀ e ∈ h.hyperedges, h'.links (str e) = (h.links e).map str := by
  rw [List.map_append, List.nodup_append] at hn
  obtain ⟨n1, n2, n3⟩ := hn
  have e1 : (writeHyper str h colored).nodes.foldlM readHyperNode {} =
      .ok { nodes := h.nodes.map str, hyperedges := h.hyperedges.map str } := by
    unfold writeHyper
    dsimp only
    rw [List.foldlM_append, show h.nodes.map (fun n => hyperNode (str n)) = (h.nodes.map str).map hyperNode by
      rw [List.map_map]; rfl, readHyperNodes_ok _ _ n1 fun _ _ => List.not_mem_nil, zipIdx_map_str]
    show List.foldlM readHyperNode _ _ = _
    rw [readHyperEdges_ok colored _ _ _ n2 fun _ _ => List.not_mem_nil]
    rfl
  obtain ⟨f, l', r, a, _⟩ := readLinks_ok str h.links h.hyperedges
    { nodes := h.nodes.map str, hyperedges := h.hyperedges.map str } none n2 (fun e he => by
      refine ⟨fun hx => n3 _ hx _ (List.mem_map_of_mem he) rfl, List.mem_map_of_mem he, rfl, ?_,
        fun n hm => List.mem_map_of_mem ((hl e he).2 n hm)⟩
      refine (List.nodup_map_iff_inj_on (hl e he).1).mpr fun x hx y hy e' => ?_
      exact List.inj_on_of_nodup_map n1 ((hl e he).2 x hx) ((hl e he).2 y hy) e')
  refine ⟨{ nodes := h.nodes.map str, hyperedges := h.hyperedges.map str, links := f }, ?_, rfl, rfl, a⟩
  unfold readHyper
  rw [e1]
  show (do let r ← (writeHyper str h colored).edges.foldlM readHyperLink _; _) = _
  unfold writeHyper
  dsimp only
  rw [r]
  rfl

/-- C104 fails with `read`: it makes a digraph of the drawing of a hypergraph, in which the
hyperedges are nodes. -/
theorem C104_read_refuted {α : Type} (str : α → String) (h : Hyper α) (colored : Bool)
    (hn : ((h.nodes ++ h.hyperedges).map str).Nodup)
    (hl : ∀ e ∈ h.hyperedges, (h.links e).Nodup ∧ ∀ n ∈ h.links e, n ∈ h.nodes) :
    ∃ g, readDot (writeHyper str h colored) = .ok g ∧ g.directed = true ∧
      g.nodes = h.nodes.map str ++ h.hyperedges.map str ∧
      g.edges = h.hyperedges.flatMap fun e => (h.links e).map fun n => (str e, str n) := by
  have hnames : (writeHyper str h colored).nodes.map (·.name) = (h.nodes ++ h.hyperedges).map str := by
    unfold writeHyper
    dsimp only
    rw [List.map_append, List.map_append, List.map_map, zipIdx_map_str, List.map_map]
    congr 1
    rw [show ((·.name) ∘ fun e : String × Nat => hyperEdgeNode colored e.2 e.1) = Prod.fst from
      funext fun e => hyperEdgeNode_name _ _ _, List.zipIdx_map_fst]
  have hdis := hn
  rw [List.map_append, List.nodup_append] at hdis
  obtain ⟨n1, n2, n3⟩ := hdis
  obtain ⟨f, e1, _, _⟩ := readNodes_ok (writeHyper str h colored).nodes { directed := true } (by rw [hnames]; exact hn)
    (fun _ _ => List.not_mem_nil) (fun _ _ => rfl)
  rw [hnames] at e1
  obtain ⟨g', r, b1, b2, _, b4, _⟩ := readEdges_ok (writeHyper str h colored).edges
    { directed := true, nodes := [] ++ (h.nodes ++ h.hyperedges).map str, nodeAttrs := f }
    (by
      intro e he
      obtain ⟨x, hx, he⟩ := List.mem_flatMap.mp he
      obtain ⟨n, hm, rfl⟩ := List.mem_map.mp he
      refine ⟨List.mem_map_of_mem (List.mem_append_right _ hx), List.mem_map_of_mem (List.mem_append_left _ ((hl x hx).2 n hm))⟩)
    (by
      unfold writeHyper
      dsimp only
      rw [List.pairwise_flatMap]
      constructor
      · intro e he
        rw [List.pairwise_map]
        refine (hl e he).1.imp_of_mem fun {a b} ha hb ne hx => ?_
        have := (mem_bothWays.mp hx).resolve_right fun x => absurd x.1 (by decide)
        exact ne (List.inj_on_of_nodup_map n1 ((hl e he).2 b hb) ((hl e he).2 a ha) this.2).symm
      · rw [List.Nodup, List.pairwise_map] at n2
        refine n2.imp fun {a b} ne x hx y hy hm => ?_
        obtain ⟨n, _, rfl⟩ := List.mem_map.mp hx
        obtain ⟨m, _, rfl⟩ := List.mem_map.mp hy
        have := (mem_bothWays.mp hm).resolve_right fun x => absurd x.1 (by decide)
        exact ne this.1.symm)
    (fun _ _ _ _ => ⟨List.not_mem_nil, rfl⟩)
  refine ⟨g', ?_, b1, ?_, ?_⟩
  · unfold readDot
    rw [show (writeHyper str h colored).directed = true from rfl, e1]
    exact r
  · rw [b2]; simp
  · rw [b4]
    unfold writeHyper
    simp only [List.nil_append, List.flatMap_assoc]
    congr 1
    funext e
    induction h.links e with
    | nil => rfl
    | cons n l ih => simp only [List.map_cons, List.flatMap_cons, ih]; rfl

/-- C104 fails when a hyperedge has the name of a node: what is written cannot be read. -/
theorem C104_name_refuted :
    readHyper (writeHyper id { nodes := ["a", "b"], hyperedges := ["a"], links := fun _ => ["b"] } false) = .error .key := rfl

/-- A hypergraph with two hyperedges that share a node. -/
example : ∃ h', readHyper (writeHyper (fun n : Nat => toString n)
      { nodes := [1, 2, 3], hyperedges := [10, 11], links := fun e => if e = 10 then [1, 2] else [2, 3] } true) = .ok h' ∧
    h'.links "10" = ["1", "2"] ∧ h'.links "11" = ["2", "3"] := ⟨_, rfl, by decide +kernel, by decide +kernel⟩

end Verif
