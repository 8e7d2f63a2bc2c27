import Verif.Proof.Pipeline
import Verif.Proof.StraightLine
import Verif.Props.SsaMerge

/-!
# Property theorems: from instructions to the graph of their values (C115)
-/

namespace Verif

open Spec (Reach Idom Rooted Exposed Trace Smooth StopsAt Walk Frontier Iterated Writer WrittenFirst)

/-- The graph of the values of the instructions of a program. -/
abbrev preparedGraph (prog : List CfgInst) : Cfg :=
  match (buildCfg prog (-1)).bind Cfg.removeConditionals with
  | .ok c => c
  | .error _ => {}

theorem preparedGraph_eq {prog : List CfgInst} {c c' : Cfg} (h1 : buildCfg prog (-1) = .ok c) (h2 : c.removeConditionals = .ok c') :
    preparedGraph prog = c' := by
  unfold preparedGraph
  rw [h1]
  show (match c.removeConditionals with | .ok c => c | .error _ => {}) = c'
  rw [h2]

/-- C115, exactly.  For every list of instructions that is not empty, the control flow
graph is built and its conditional nodes are removed without an exception; the graph has
one root, without incoming edges, and one end, without outgoing edges, and the defined
instructions are in its blocks, each in one.  Then either some block that can be reached
has a predecessor that cannot, and `RuntimeError` is raised; or the dominator tree, the
frontiers and the merge functions are built, and the walk of the tree is one sequence of
steps: the graph of the values is built exactly when every step can be made, `KeyError` is
raised exactly when the first step that cannot be made is for an unknown storage, and
`IndexError` exactly when it needs a name and none is left. -/
theorem C115_exact {prog : List CfgInst} (hne : prog ≠ []) (acc : Nat → Access) {fuel : Nat}
    (hf : (preparedGraph prog).nodes.length < fuel) :
    ∃ c c', buildCfg prog (-1) = .ok c ∧ c.removeConditionals = .ok c' ∧
      (Rooted c'.nodes c'.neighbors c'.incidents 1 ∧ c'.nodes.Nodup ∧ (∀ n ∈ c'.nodes, c'.kind n ≠ .cond) ∧
        (∀ n ∈ c'.nodes, c'.kind n = .root ↔ n = 1) ∧ (∀ n ∈ c'.nodes, c'.kind n = .fin ↔ n = 2) ∧
        c'.incidents 1 = [] ∧ c'.neighbors 2 = [] ∧
        ∃ order : List Nat, order.Nodup ∧ (∀ n, n ∈ order ↔ n ∈ c'.nodes ∧ c'.kind n = .block) ∧
          order.flatMap c'.insts = cfgLine prog (-1)) ∧
      (programValues prog acc fuel = (raiseRun .runtime : Run NameGraph) ↔
        ∃ w, Reach c'.neighbors 1 w ∧ ∃ v ∈ c'.incidents w, ¬ Reach c'.neighbors 1 v) ∧
      ((∀ w, Reach c'.neighbors 1 w → ∀ v ∈ c'.incidents w, Reach c'.neighbors 1 v) →
        ∃ t df gl phis tr, buildDominatorTree c'.flow fuel 1 = (pure t : Run DomTree) ∧
          buildDominanceFrontier c'.flow fuel true t = (pure df : Run (Nat → List Nat)) ∧
          placePhiNodes c'.nodes (fun n => (c'.insts n).map acc) df (fun n => decide (c'.kind n = .fin)) fuel true
            = (pure (gl, phis) : Run (List Nat × Phis)) ∧
          (∀ u, Trace (fun b => (phis b).map (·.1.1)) c'.insts (fun i => (acc i).reads) (fun i => (acc i).writes) c'.neighbors
            t.domSucc [1] u ↔ u = tr) ∧
          ((∃ d, programValues prog acc fuel = (pure d : Run NameGraph)) ↔ Smooth tr) ∧
          (programValues prog acc fuel = (raiseRun .key : Run NameGraph) ↔ StopsAt tr true) ∧
          (programValues prog acc fuel = (raiseRun .index : Run NameGraph) ↔ StopsAt tr false) ∧
          (Smooth tr ∨ StopsAt tr true ∨ StopsAt tr false)) := by
  classical
  obtain ⟨c, c', e1, e2, I⟩ := prepared hne
  rw [preparedGraph_eq e1 e2] at hf
  have hno : c'.incidents 1 = [] := List.eq_nil_iff_forall_not_mem.2 fun u hu => I.noin u (mem_incidents.1 hu)
  refine ⟨c, c', e1, e2, ⟨I.rooted, I.nodup, I.kinds, fun n hn => ⟨I.rootOnly n hn, fun h => by rw [h]; exact I.root.2⟩,
    fun n hn => ⟨I.finOnly n hn, fun h => by rw [h]; exact I.fin.2⟩, hno,
    List.eq_nil_iff_forall_not_mem.2 fun u hu => I.noout u (mem_neighbors.1 hu), I.order⟩, ?_, ?_⟩
  · rw [programValues_of e1 e2, values_raise I.root.1]
    constructor
    · intro h
      by_contra hp
      have hp : ∀ w, Reach c'.neighbors 1 w → ∀ v ∈ c'.incidents w, Reach c'.neighbors 1 v := by
        intro w hw v hv
        by_contra hn
        exact hp ⟨w, hw, v, hv, hn⟩
      obtain ⟨_, _, _, _, tr, _, _, _, _, _, _, _, k1, k2, k3, k4⟩ := C112_exact I.rooted (fun w hw _ => hp w hw) c'.insts acc
        (fun n => decide (c'.kind n = .fin)) hf
      rw [h] at k1 k2 k3
      rcases k4 with k | k | k
      · obtain ⟨r, hr⟩ := k1.2 k
        exact raiseRun_ne hr
      · have := k2.2 k
        cases this
      · have := k3.2 k
        cases this
    · rintro ⟨w, hw, v, hv, hn⟩
      have hw1 : w ≠ 1 := by
        rintro rfl
        rw [hno] at hv
        cases hv
      unfold ssaBuild
      rw [dominator_tree_unreachable I.rooted ⟨w, hw, hw1, v, hv, hn⟩ (Nat.le_of_lt hf)]
      rfl
  · intro hp
    obtain ⟨t, df, gl, phis, tr, k1, k2, k3, _, _, _, k7, k8, k9, k10, k11⟩ := C112_exact I.rooted (fun w hw _ => hp w hw) c'.insts acc
      (fun n => decide (c'.kind n = .fin)) hf
    refine ⟨t, df, gl, phis, tr, k1, k2, k3, k7, ?_, ?_, ?_, k11⟩
    · rw [programValues_of e1 e2, values_ok I.root.1]
      exact k8
    · rw [programValues_of e1 e2, values_raise I.root.1]
      exact k9
    · rw [programValues_of e1 e2, values_raise I.root.1]
      exact k10

/-- C115, what the graph says.  Whenever the graph of the values is given, the blocks that
can be reached have been walked along the dominator tree, each once.  No name is given
twice, by an instruction or a merge function.  A block has a merge function of a storage,
once, exactly when some block reads the storage before writing it, the block is not the
end, is in the iterated dominance frontier of the blocks writing it, and does not itself
write it before reading it.  Every instruction met in the walk has one
name for each storage it writes, and a read of a storage has exactly one name of it: that
of the definition met last in the walk before the read, or index 0 if there is none.  There
is an edge from one name to another exactly when a merge function with the second name has
the first as a parameter, or a defined instruction of the program reads the first and
writes the second. -/
theorem C115_values {prog : List CfgInst} (hne : prog ≠ []) (acc : Nat → Access) {fuel : Nat}
    (hf : (preparedGraph prog).nodes.length < fuel) {d : NameGraph} (h : programValues prog acc fuel = (pure d : Run NameGraph)) :
    ∃ (c' : Cfg) (merges : Nat → List (Name × List Name)) (rd wr : Nat → List Name) (below : Nat → List Nat) (walk : List Nat),
      (buildCfg prog (-1)).bind Cfg.removeConditionals = .ok c' ∧
      Walk below [1] walk ∧ walk.Nodup ∧ (∀ b, b ∈ walk ↔ Reach c'.neighbors 1 b) ∧
      (∀ a b, b ∈ below a ↔ Reach c'.neighbors 1 b ∧ Idom c'.neighbors 1 a b) ∧
      (∀ (i j k l : Nat) (nm : Name), (wr i)[k]? = some nm → (wr j)[l]? = some nm → i = j ∧ k = l) ∧
      (∀ i b, ∀ nm ∈ wr i, nm.2 ≠ 0 ∧ nm ∉ (merges b).map (·.1)) ∧
      (∀ a b nm, nm ∈ (merges a).map (·.1) → nm ∈ (merges b).map (·.1) → a = b) ∧
      (let code := fun n => (c'.insts n).map fun i => ((acc i).reads, (acc i).writes)
       ∀ b ∈ walk, ((merges b).map (·.1.1)).Nodup ∧ ∀ x, x ∈ (merges b).map (·.1.1) ↔ Exposed c'.nodes code x ∧ b ≠ 2 ∧
        Iterated (Frontier c'.neighbors 1) (Writer c'.nodes code x) b ∧ ¬ WrittenFirst (code b) x) ∧
      (∀ b ∈ walk, ∀ i ∈ c'.insts b, (wr i).map (·.1) = (acc i).writes) ∧
      (∀ P i R x, Spec.defLine c'.insts walk = P ++ .inst i :: R → x ∈ (acc i).reads →
        let defines : Spec.Def → Prop := fun d => match d with
          | .inst j => x ∈ (acc j).writes
          | .merge b => x ∈ (merges b).map (·.1.1)
        ∃ k, (∀ m, (x, m) ∈ rd i ↔ m = k) ∧
          ((k = 0 ∧ ∀ d ∈ P, ¬ defines d) ∨
           ∃ P' d Q, P = P' ++ d :: Q ∧ defines d ∧ (∀ e ∈ Q, ¬ defines e) ∧
            match d with
            | .inst j => ((wr j).filter fun nm => decide (nm.1 = x)).getLast? = some (x, k)
            | .merge b => (x, k) ∈ (merges b).map (·.1))) ∧
      ∀ a b, (a, b) ∈ d.edges ↔ (∃ n ∈ c'.nodes, ∃ ps, (b, ps) ∈ merges n ∧ a ∈ ps) ∨
        ∃ i ∈ cfgLine prog (-1), a ∈ rd i ∧ b ∈ wr i := by
  obtain ⟨c, c', e1, e2, I⟩ := prepared hne
  rw [preparedGraph_eq e1 e2] at hf
  rw [programValues_of e1 e2, values_of I.root.1] at h
  obtain ⟨⟨p, s⟩, hs, hd⟩ := run_bind_inv h
  have hd : (some (valueGraph p c'.nodes s) : Option (Except Err NameGraph)) = some (.ok d) := hd
  obtain ⟨d', g1, _, g3, _⟩ := value_graph_exact p c'.nodes s
  rw [g1] at hd
  cases hd
  obtain ⟨⟨walk, w1, w2, w3⟩, w4⟩ := ssa_walk I.rooted hf hs
  obtain ⟨n1, n2, n3, n4, n5⟩ := ssa_names_once I.rooted hf hs
  obtain ⟨_, _, _, _, pi, pa, _⟩ := ssa_parts I.rooted hf hs
  have hin : ∀ b ∈ walk, b ∈ c'.nodes := by
    intro b hb
    obtain ⟨l, q⟩ := (w3 b).1 hb
    have : ∀ a l b, Spec.Path c'.neighbors a l b → a ∈ c'.nodes → b ∈ c'.nodes := by
      intro a l b p
      induction p with
      | single a => exact id
      | step e _ ih => exact fun ha => ih (I.rooted.closed _ ha _ e)
    exact this _ _ _ q I.root.1
  have hone := I.once w2 hin
  have hline : ∀ i, i ∈ cfgLine prog (-1) ↔ ∃ n ∈ c'.nodes, i ∈ c'.insts n := by
    intro i
    obtain ⟨order, _, o2, o3⟩ := I.order
    rw [← o3, List.mem_flatMap]
    constructor
    · rintro ⟨n, hn, hi⟩
      exact ⟨n, ((o2 n).1 hn).1, hi⟩
    · rintro ⟨n, hn, hi⟩
      refine ⟨n, (o2 n).2 ⟨hn, ?_⟩, hi⟩
      by_contra hk
      rw [(I.empty n hn).2 hk] at hi
      cases hi
  refine ⟨c', s.phis, s.rd, s.wr, p.domSucc, walk, ?_, w1, w2, w3, w4, n1, n2, n3, ?_, ?_, ?_, ?_⟩
  · rw [e1]
    exact e2
  · intro code b hb
    have hp : ∀ w, Reach c'.flow.succ 1 w → ∀ v ∈ c'.flow.pred w, Reach c'.flow.succ 1 v := by
      intro w hw v hv
      by_contra hn
      have hw1 : w ≠ 1 := by
        rintro rfl
        exact I.noin v (mem_incidents.1 hv)
      have := dominator_tree_unreachable I.rooted ⟨w, hw, hw1, v, hv, hn⟩ (Nat.le_of_lt hf)
      unfold ssaBuild at hs
      rw [this] at hs
      cases hs
    have hend : ∀ b, decide (c'.kind b = .fin) = true → c'.flow.succ b = [] := by
      intro b hb
      refine List.eq_nil_iff_forall_not_mem.2 fun u hu => ?_
      have := mem_neighbors.1 hu
      rw [I.finOnly b (I.ends _ _ this).1 (by simpa using hb)] at this
      exact I.noout u this
    obtain ⟨m1, m2⟩ := ssa_merges_exact I.rooted hp hend hf hs w2 w3 hone b
    refine ⟨m1, fun x => ?_⟩
    have hcode : (fun n => ((c'.insts n).map acc).map fun i => (i.reads, i.writes)) = code := by
      funext n
      rw [List.map_map]
      rfl
    have hk : decide (c'.kind b = .fin) = false ↔ b ≠ 2 := by
      rw [decide_eq_false_iff_not]
      exact ⟨fun h e => h (by rw [e]; exact I.fin.2), fun h e => h (I.finOnly b (hin b hb) e)⟩
    rw [m2 x, hk, hcode]
    exact Iff.rfl
  · intro b hb i hi
    exact n5 walk w2 w3 i (List.count_eq_one_of_mem hone (List.mem_flatMap.2 ⟨b, hb, hi⟩))
  · intro P i R x hl hx
    have := ssa_reads_exact I.rooted hf hs w1 hone hl hx
    have hreg : ∀ d, x ∈ defRegs p s.phis d ↔ (match d with
          | .inst j => x ∈ (acc j).writes
          | .merge b => x ∈ (s.phis b).map (·.1.1) : Prop) := by
      intro d
      cases d with
      | inst j => show x ∈ (p.acc j).writes ↔ _; rw [pa]
      | merge b => exact Iff.rfl
    simp only [hreg] at this
    exact this
  · intro a b
    rw [g3, pi]
    constructor
    · rintro ⟨n, hn, ⟨ps, h1, h2⟩ | ⟨i, hi, h1, h2⟩⟩
      · exact .inl ⟨n, hn, ps, h1, h2⟩
      · exact .inr ⟨i, (hline i).2 ⟨n, hn, hi⟩, h1, h2⟩
    · rintro (⟨n, hn, ps, h1, h2⟩ | ⟨i, hi, h1, h2⟩)
      · exact ⟨n, hn, .inl ⟨ps, h1, h2⟩⟩
      · obtain ⟨n, hn, hi⟩ := (hline i).1 hi
        exact ⟨n, hn, .inr ⟨i, hi, h1, h2⟩⟩

/-- How a run ended. -/
def endsWith {α : Type} (r : Run α) : Option (Option Err) :=
  match (r : Option (Except Err α)) with
  | none => none
  | some (.error e) => some (some e)
  | some (.ok _) => some none

theorem endsWith_raise {α : Type} {r : Run α} {e : Err} (h : endsWith r = some (some e)) : r = raiseRun e := by
  match r, h with
  | some (.error e'), h =>
    have h : some (some e') = some (some e) := h
    cases h
    rfl

theorem endsWith_ok {α : Type} {r : Run α} (h : endsWith r = some none) : ∃ a, r = pure a := by
  match r, h with
  | some (.ok a), _ => exact ⟨a, rfl⟩

/-- C115 is false: code that follows a return and is met by a conditional instruction
raises `RuntimeError`. -/
theorem C115_runtime_refuted : programValues [{}, { cond := 0 }, { branch := true }, { cond := 1 }, {}] (fun _ => ⟨[0], [0]⟩) 20
    = (raiseRun .runtime : Run NameGraph) := endsWith_raise (by decide +kernel)

/-- C115 is false: a jump to itself followed by a conditional instruction raises
`IndexError`. -/
theorem C115_index_refuted : programValues [{ branch := true, target := some 0 }, { cond := 0 }] (fun _ => ⟨[0], [0]⟩) 20
    = (raiseRun .index : Run NameGraph) := endsWith_raise (by decide +kernel)

/-- C115, without an exception.  A program whose defined instructions are no branches, under
any conditions, and use the twenty storages is analysed: its graph of values is given. -/
theorem C115_straight_partial {prog : List CfgInst} (hne : prog ≠ [])
    (hbr : ∀ info ∈ prog, info.undefined = false → info.branch = false) (acc : Nat → Access)
    (hreg : ∀ i ∈ cfgLine prog (-1), (∀ x ∈ (acc i).reads, x < 20) ∧ ∀ x ∈ (acc i).writes, x < 20) {fuel : Nat}
    (hf : (preparedGraph prog).nodes.length < fuel) :
    ∃ d, programValues prog acc fuel = (pure d : Run NameGraph) := by
  obtain ⟨c, c', e1, e2, I⟩ := prepared hne
  rw [preparedGraph_eq e1 e2] at hf
  obtain ⟨cb, bs, L⟩ := straight_graph hne (fun i info h => hbr info (List.mem_of_getElem? h)) e1 e2
  have hp : ∀ w, Reach c'.flow.succ 1 w → w ≠ 1 → ∀ v ∈ c'.flow.pred w, Reach c'.flow.succ 1 v :=
    fun w _ _ v hv => L.reach v (I.ends _ _ (mem_incidents.1 hv)).1
  obtain ⟨t, df, gl, phis, _, k1, k2, k3, _⟩ := C112_exact I.rooted hp c'.insts acc (fun n => decide (c'.kind n = .fin)) hf
  rw [programValues_of e1 e2, values_ok I.root.1]
  refine C112_built_partial I.rooted hp hf k1 k2 k3 ?_ ?_
  · intro n hn i hi
    obtain ⟨order, _, o2, o3⟩ := I.order
    refine hreg i ?_
    rw [← o3, List.mem_flatMap]
    refine ⟨n, (o2 n).2 ⟨hn, ?_⟩, hi⟩
    by_contra hk
    rw [(I.empty n hn).2 hk] at hi
    cases hi
  · intro n m _ h1 h2
    have := L.last I.nodup I.ends (Nat.le_of_lt hf) k1 h1 h2
    subst this
    exact phis_end k3 (by simpa using I.fin.2)

/-- A case of `C115_straight_partial`: conditional instructions, one after the other, that
read and write storages. -/
theorem C115_straight_case : (∀ info ∈ [({} : CfgInst), { cond := 0 }, { cond := 1 }, { undefined := true, branch := true }, { cond := 1 }, {}],
      info.undefined = false → info.branch = false) ∧
    (preparedGraph [({} : CfgInst), { cond := 0 }, { cond := 1 }, { undefined := true, branch := true }, { cond := 1 }, {}]).edges
      = [(1, 3), (6, 8), (8, 2), (3, 4), (4, 6), (4, 8), (3, 6), (3, 8)] := by
  decide +kernel

/-- An empty list has no graph to analyse: `KeyError`. -/
theorem C115_empty (acc : Nat → Access) (fuel : Nat) : programValues [] acc fuel = (raiseRun .key : Run NameGraph) := rfl

/-- A loop with a conditional body is analysed. -/
theorem C115_case : (∃ d, programValues cfgLoop (fun _ => ⟨[0], [0]⟩) 20 = (pure d : Run NameGraph)) ∧
    (preparedGraph cfgLoop).nodes.length < 20 :=
  ⟨endsWith_ok (by decide +kernel), by decide +kernel⟩

end Verif
