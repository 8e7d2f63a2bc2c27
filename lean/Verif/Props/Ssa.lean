import Verif.Props.Frontier
import Verif.Proof.DomOrder
import Verif.Proof.SsaLeft
import Verif.Proof.SsaGraph
import Verif.Proof.SsaVisit

/-!
# Property theorems: SSA form (C60, C61, C62, C83)
-/

namespace Verif

open Spec (Path Reach Dom Idom Rooted Frontier Iterated Exposed Writer WrittenFirst Leftmost Walk)

/-! ## C60: every name is given once -/

/-- C60, renaming.  When the merge functions have index 0 and are distinct in every
block, a renaming that ends gives every name once: two writes never have the same
name, nor a write and a merge function, nor the merge functions of two blocks,
index 0 (not renamed) excepted. -/
theorem rename_once {p : SsaProg} {fuel root : Nat} {phis : Phis} {s : SsaSt}
    (h0 : ∀ b, ∀ e ∈ phis b, e.1.2 = 0) (hk : ∀ b, ((phis b).map (·.1)).Nodup)
    (h : renameVars p fuel root phis = (pure s : Run SsaSt)) :
    (∀ (i j k l : Nat) (nm : Name), (s.wr i)[k]? = some nm → (s.wr j)[l]? = some nm → i = j ∧ k = l) ∧
    (∀ i b, ∀ nm ∈ s.wr i, nm.2 ≠ 0 ∧ nm ∉ (s.phis b).map (·.1)) ∧
    (∀ b c nm, nm.2 ≠ 0 → nm ∈ (s.phis b).map (·.1) → nm ∈ (s.phis c).map (·.1) → b = c) ∧
    ∀ b, ((s.phis b).map (·.1)).Nodup := by
  have I0 : Once ⟨fun _ => 0, fun _ => [0], phis, fun _ => [], fun _ => []⟩ := by
    refine ⟨?_, ?_, hk, by simp⟩
    · intro l nm hg
      cases l with
      | inst i k => simp [Gives] at hg
      | phi b =>
        obtain ⟨e, h1, h2⟩ := List.mem_map.1 hg
        have := h0 b e h1
        rw [h2] at this
        exact Nat.le_of_eq this
    · intro nm l l' hn hg
      cases l with
      | inst i k => simp [Gives] at hg
      | phi b =>
        obtain ⟨e, h1, h2⟩ := List.mem_map.1 hg
        have := h0 b e h1
        rw [h2] at this
        exact absurd this hn
  have I : Once s := renameNode_once fuel root _ _ I0 h
  have hpos : ∀ (i k : Nat) (nm : Name), (s.wr i)[k]? = some nm → nm.2 ≠ 0 := fun i k nm hg => I.pos i nm (List.mem_of_getElem? hg)
  refine ⟨?_, ?_, ?_, I.keys⟩
  · intro i j k l nm h1 h2
    have := I.once nm (.inst i k) (.inst j l) (hpos i k nm h1) h1 h2
    cases this
    exact ⟨rfl, rfl⟩
  · intro i b nm hm
    refine ⟨I.pos i nm hm, fun hp => ?_⟩
    obtain ⟨k, hk⟩ := List.getElem?_of_mem hm
    have := I.once nm (.inst i k) (.phi b) (I.pos i nm hm) hk hp
    cases this
  · intro b c nm hn h1 h2
    have := I.once nm (.phi b) (.phi c) hn h1 h2
    cases this
    rfl

/-- What is known of a program whose SSA form has been built. -/
theorem ssa_parts {g : FlowGraph} {root : Nat} (hg : Rooted g.nodes g.succ g.pred root) {insts : Nat → List Nat}
    {acc : Nat → Access} {isEnd : Nat → Bool} {fuel : Nat} (hf : g.nodes.length < fuel) {p : SsaProg} {s : SsaSt}
    (h : ssaBuild g insts acc isEnd fuel root = (pure (p, s) : Run (SsaProg × SsaSt))) :
    ∃ phis s1, renameVars p fuel root phis = (pure s1 : Run SsaSt) ∧ s = removeDeadPhi p g.nodes s1 ∧
      p.insts = insts ∧ p.acc = acc ∧ (∀ n, Reach g.succ root n → p.succ n = g.succ n) ∧
      (∀ d w, w ∈ p.domSucc d ↔ Reach g.succ root w ∧ Idom g.succ root d w) ∧
      (preorder p.domSucc fuel root).Nodup ∧ (∀ w, w ∈ preorder p.domSucc fuel root ↔ Reach g.succ root w) ∧
      (∀ b, ∀ e ∈ phis b, e.1.2 = 0) ∧ (∀ b, ((phis b).map (·.1)).Nodup) ∧
      ∀ b, ∀ e ∈ phis b, Reach g.succ root b ∧ e.2 = [] ∧
        Exposed g.nodes (fun n => ((insts n).map acc).map fun i => (i.reads, i.writes)) e.1.1 := by
  classical
  unfold ssaBuild at h
  obtain ⟨t, t1, h⟩ := run_bind_inv h
  obtain ⟨df, t2, h⟩ := run_bind_inv h
  obtain ⟨⟨gl, phis⟩, t3, h⟩ := run_bind_inv h
  obtain ⟨s1, t4, h⟩ := run_bind_inv h
  have h := run_pure_inj h
  have hp : ∀ w, Reach g.succ root w → w ≠ root → ∀ v ∈ g.pred w, Reach g.succ root v := by
    intro w h1 h2 v h3
    by_contra h4
    rw [dominator_tree_unreachable hg ⟨w, h1, h2, v, h3, h4⟩ (Nat.le_of_lt hf)] at t1
    exact raiseRun_ne t1
  obtain ⟨t', u1, _, u3, u4, u5, _, _, u8, u9⟩ := dominator_tree hg hp (Nat.le_of_lt hf)
  rw [t1] at u1
  have := run_pure_inj u1
  subst this
  obtain ⟨t', df', u1, u2, _, v4, v5⟩ := dominance_frontier hg hp hf
  rw [t1] at u1
  have := run_pure_inj u1
  subst this
  rw [t2] at u2
  have := run_pure_inj u2
  subst this
  have hnodes : ∀ x, Reach g.succ root x → x ∈ g.nodes := by
    rintro x ⟨l, p⟩
    have : ∀ a l b, Spec.Path g.succ a l b → a ∈ g.nodes → b ∈ g.nodes := by
      intro a l b p
      induction p with
      | single a => exact id
      | step e _ ih => exact fun ha => ih (hg.closed _ ha _ e)
    exact this _ _ _ p hg.root_mem
  have hdf : ∀ b, ∀ d ∈ df b, Reach g.succ root d := by
    intro b d hd
    by_cases hb : Reach g.succ root b
    · obtain ⟨⟨q, h1, h2, _⟩, _⟩ := (v4 b hb d).1 hd
      exact reach_edge h1 h2
    · rw [((v5 b hb d).1 hd).1]
      exact ⟨_, .single root⟩
  obtain ⟨gl', phis', w1, _, _, w4⟩ := phi_placement g.nodes (fun n => (insts n).map acc) df isEnd
    (fun b d hd => hnodes d (hdf b d hd)) hf
  rw [t3] at w1
  have := run_pure_inj w1
  cases this
  cases h
  obtain ⟨o1, o2⟩ := preorder_root (domSucc := t.domSucc) ⟨u4, u5⟩ hnodes (fun d w => by rw [u8, u4]) u9 (Nat.le_of_lt hf)
  have hphi : ∀ b, ∀ e ∈ phis b, e.1.2 = 0 ∧ e.2 = [] ∧
      Exposed g.nodes (fun n => ((insts n).map acc).map fun i => (i.reads, i.writes)) e.1.1 ∧ Reach g.succ root b := by
    intro b e he
    have := ((w4 b).2 e.1.1 e.1.2 e.2).1 (dictGet_of_mem (w4 b).1 he)
    refine ⟨this.2.1, this.1, this.2.2.1, ?_⟩
    cases this.2.2.2 with
    | first _ hd => exact hdf _ _ hd.1
    | next _ hd => exact hdf _ _ hd.1
  exact ⟨phis, s1, t4, rfl, rfl, rfl, fun n hn => if_pos ((u3 n).2 hn), u8, o1, o2, fun b e he => (hphi b e he).1, fun b => (w4 b).1,
    fun b e he => ⟨(hphi b e he).2.2.2, (hphi b e he).2.1, (hphi b e he).2.2.1⟩⟩

/-- C60, from the graph.  When the SSA form of a finite flow graph is built without
an exception, no name is written twice, counting merge functions as writes: two
writes with the same name are the same write of the same instruction, no write has
the name of a merge function, and no two merge functions have the same name.  No
index is 0.  An instruction that occurs once in the blocks that can be reached gets
one name for each register it writes, in the order of its writes. -/
theorem ssa_names_once {g : FlowGraph} {root : Nat} (hg : Rooted g.nodes g.succ g.pred root) {insts : Nat → List Nat}
    {acc : Nat → Access} {isEnd : Nat → Bool} {fuel : Nat} (hf : g.nodes.length < fuel) {p : SsaProg} {s : SsaSt}
    (h : ssaBuild g insts acc isEnd fuel root = (pure (p, s) : Run (SsaProg × SsaSt))) :
    (∀ (i j k l : Nat) (nm : Name), (s.wr i)[k]? = some nm → (s.wr j)[l]? = some nm → i = j ∧ k = l) ∧
    (∀ i b, ∀ nm ∈ s.wr i, nm.2 ≠ 0 ∧ nm ∉ (s.phis b).map (·.1)) ∧
    (∀ b c nm, nm ∈ (s.phis b).map (·.1) → nm ∈ (s.phis c).map (·.1) → b = c) ∧
    (∀ b, ((s.phis b).map (·.1)).Nodup ∧ ∀ e ∈ s.phis b, e.1.2 ≠ 0) ∧
    ∀ vis : List Nat, vis.Nodup → (∀ b, b ∈ vis ↔ Reach g.succ root b) → ∀ i, (vis.flatMap insts).count i = 1 →
      (s.wr i).map (·.1) = (acc i).writes := by
  obtain ⟨phis, s1, h1, rfl, rfl, rfl, _, _, o1, o2, h0, hk, hr⟩ := ssa_parts hg hf h
  obtain ⟨a1, a2, a3, a4⟩ := rename_once h0 hk h1
  obtain ⟨e1, e2, e3⟩ := removeDeadPhi_eq p g.nodes s1
  have hsub : ∀ b, ((removeDeadPhi p g.nodes s1).phis b).Sublist (s1.phis b) := by
    intro b
    rw [e3]
    split
    · exact List.filter_sublist
    · exact List.Sublist.refl _
  have hmap : ∀ b nm, nm ∈ ((removeDeadPhi p g.nodes s1).phis b).map (·.1) → nm ∈ (s1.phis b).map (·.1) :=
    fun b nm hm => ((hsub b).map _).subset hm
  have hpos : ∀ b, ∀ e ∈ s1.phis b, e.1.2 ≠ 0 := by
    intro b
    refine renameNode_pos fuel root _ s1 h1 b ?_
    by_cases hb : Reach g.succ root b
    · exact Or.inl ((o2 b).2 hb)
    · right
      intro e he
      exact absurd (hr b e he).1 hb
  rw [e2]
  refine ⟨a1, ?_, ?_, ?_, ?_⟩
  · intro i b nm hm
    exact ⟨(a2 i b nm hm).1, fun hc => (a2 i b nm hm).2 (hmap b nm hc)⟩
  · intro b c nm hb hc
    obtain ⟨e, he1, he2⟩ := List.mem_map.1 (hmap b nm hb)
    exact a3 b c nm (by rw [← he2]; exact hpos b e he1) (hmap b nm hb) (hmap c nm hc)
  · intro b
    exact ⟨((hsub b).map _).nodup (a4 b), fun e he => hpos b e ((hsub b).subset he)⟩
  · intro vis hv hv' i hi
    have h2 := renameNode_fst fuel root _ s1 h1 i
    have hperm : vis.Perm (preorder p.domSucc fuel root) :=
      (List.perm_ext_iff_of_nodup hv o1).2 fun b => by rw [hv', o2]
    have hc : ((preorder p.domSucc fuel root).flatMap p.insts).count i = 1 := by
      rw [← (hperm.flatMap_right p.insts).count_eq, hi]
    rw [h2]
    simp only [List.map_nil, List.nil_append]
    have key : ∀ L : List Nat, L.count i = 0 → writesOf p L i = [] := by
      intro L
      induction L with
      | nil => intro _; rfl
      | cons j L ih =>
        intro hL
        rw [List.count_cons] at hL
        have hj : j ≠ i := by
          rintro rfl
          simp at hL
        have e : writesOf p (j :: L) i = writesOf p [j] i ++ writesOf p L i := writesOf_append p [j] L i
        rw [e, ih (by omega)]
        simp [writesOf, hj]
    have key2 : ∀ L : List Nat, L.count i = 1 → writesOf p L i = (p.acc i).writes := by
      intro L
      induction L with
      | nil => intro hL; simp at hL
      | cons j L ih =>
        intro hL
        have e : writesOf p (j :: L) i = writesOf p [j] i ++ writesOf p L i := writesOf_append p [j] L i
        rw [e]
        rw [List.count_cons] at hL
        by_cases hj : j = i
        · subst hj
          rw [key L (by simpa using hL)]
          simp [writesOf]
        · rw [ih (by simpa [hj] using hL)]
          simp [writesOf, hj]
    exact key2 _ hc

/-! ## C61: which definition a read sees -/

/-- Blocks 0 → 1 → 2, 3 → 4, the last one the end. -/
def forkGraph : FlowGraph where
  nodes := [0, 1, 2, 3, 4]
  succ := fun
    | 0 => [1]
    | 1 => [2, 3]
    | 2 => [4]
    | 3 => [4]
    | _ => []
  pred := fun
    | 1 => [0]
    | 2 => [1]
    | 3 => [1]
    | 4 => [2, 3]
    | _ => []

/-- Instruction 10 in block 1, 20 in block 2, 30 in block 3. -/
def forkInsts : Nat → List Nat
  | 1 => [10]
  | 2 => [20]
  | 3 => [30]
  | _ => []

/-- 10 and 20 write register 0, 30 reads it. -/
def forkAcc : Nat → Access
  | 30 => ⟨[0], []⟩
  | _ => ⟨[], [0]⟩

theorem forkGraph_rooted : Rooted forkGraph.nodes forkGraph.succ forkGraph.pred 0 := by
  refine ⟨by decide, by decide, ?_⟩
  intro w v
  rcases w with _ | _ | _ | _ | _ | w <;> rcases v with _ | _ | _ | _ | v <;> simp [forkGraph] <;> omega

/-- The names of some instructions and the merge functions of some blocks after
building the SSA form. -/
def ssaTable (r : Run (SsaProg × SsaSt)) (is bs : List Nat) :
    Option (List (List (Nat × Nat) × List (Nat × Nat)) × List (List ((Nat × Nat) × List (Nat × Nat)))) :=
  match (r : Option (Except Err (SsaProg × SsaSt))) with
  | some (.ok x) => some (is.map fun i => (x.2.rd i, x.2.wr i), bs.map x.2.phis)
  | _ => none

theorem ssaTable_some {r : Run (SsaProg × SsaSt)} {is bs : List Nat} {v}
    (h : ssaTable r is bs = some v) :
    ∃ p s, r = (pure (p, s) : Run (SsaProg × SsaSt)) ∧ v = (is.map fun i => (s.rd i, s.wr i), bs.map s.phis) := by
  match r, h with
  | some (.ok (p, s)), h =>
    cases h
    exact ⟨p, s, rfl, rfl⟩
  | some (.error e), h => cases h
  | none, h => cases h

instance : DecidableEq (List (List (Nat × Nat) × List (Nat × Nat)) × List (List ((Nat × Nat) × List (Nat × Nat)))) :=
  have : DecidableEq (List (Nat × Nat)) := inferInstance
  have : DecidableEq (List (Nat × Nat) × List (Nat × Nat)) := inferInstance
  have : DecidableEq (List ((Nat × Nat) × List (Nat × Nat))) := inferInstance
  inferInstance

/-- C61 is false: block 3 is dominated by the block of instruction 10, whose write
gets index 1; the read of instruction 30 in block 3 carries index 2, the name of the
write of instruction 20 in block 2, which is on no path to block 3. -/
theorem ssa_read_wrong :
    ∃ p s, ssaBuild forkGraph forkInsts forkAcc (· == 4) 6 0 = (pure (p, s) : Run (SsaProg × SsaSt)) ∧
      s.wr 10 = [(0, 1)] ∧ s.wr 20 = [(0, 2)] ∧ s.rd 30 = [(0, 2)] ∧
      Dom forkGraph.succ 0 1 3 ∧ ¬ Dom forkGraph.succ 0 2 3 ∧ ¬ Reach forkGraph.succ 2 3 := by
  have h : ssaTable (ssaBuild forkGraph forkInsts forkAcc (· == 4) 6 0) [10, 20, 30] []
      = some ([([], [(0, 1)]), ([], [(0, 2)]), ([(0, 2)], [])], []) := by decide +kernel
  obtain ⟨p, s, h1, h2⟩ := ssaTable_some h
  simp only [List.map_cons, List.map_nil, Prod.mk.injEq, List.cons.injEq, and_true] at h2
  refine ⟨p, s, h1, h2.1.2.symm, h2.2.1.2.symm, h2.2.2.1.symm, ?_, ?_, ?_⟩
  · intro l q
    cases q with
    | @step _ y _ l e q =>
      have hy : y = 1 := by simpa [forkGraph] using e
      rw [hy] at q
      exact List.mem_cons_of_mem _ (Path.mem_start q)
  · intro hd
    have := hd [0, 1, 3] (.step (b := 1) (by decide) (.step (b := 3) (by decide) (.single 3)))
    revert this
    decide
  · rintro ⟨l, q⟩
    cases q with
    | @step _ y _ l e q =>
      have hy : y = 4 := by simpa [forkGraph] using e
      rw [hy] at q
      cases q with
      | step e q => simp [forkGraph] at e

/-- A block that leads only to itself, with one instruction that reads and writes
register 0: the indices of the merge function and of the write are rolled back
twice, and building the SSA form raises `IndexError`. -/
def spinGraph : FlowGraph where
  nodes := [0, 1]
  succ := fun
    | 0 => [1]
    | 1 => [1]
    | _ => []
  pred := fun
    | 1 => [0, 1]
    | _ => []

theorem ssa_rollback_error :
    ssaBuild spinGraph (fun b => if b = 1 then [10] else []) (fun _ => ⟨[0], [0]⟩) (fun _ => false) 3 0
      = (raiseRun .index : Run (SsaProg × SsaSt)) := by
  have h : (match (ssaBuild spinGraph (fun b => if b = 1 then [10] else []) (fun _ => ⟨[0], [0]⟩) (fun _ => false) 3 0 :
      Option (Except Err (SsaProg × SsaSt))) with
    | some (.error e) => some e
    | _ => none) = some .index := by decide +kernel
  generalize ssaBuild spinGraph (fun b => if b = 1 then [10] else []) (fun _ => ⟨[0], [0]⟩) (fun _ => false) 3 0 = r at h
  match r, h with
  | some (.ok x), h => cases h
  | some (.error e), h => cases h; rfl
  | none, h => cases h

theorem mem_only {x m : Nat} {l : List Name} : (x, m) ∈ l ↔ (x, m) ∈ only x l := by
  simp [only]

theorem freshNames_last (x k : Nat) {n : Nat} (h : n ≠ 0) : (freshNames x k n).getLast? = some (x, k + n) := by
  obtain ⟨n, rfl⟩ := Nat.exists_eq_succ_of_ne_zero h
  rw [freshNames_succ]
  simp
  omega

/-- The states around the renaming of a block that can be reached. -/
theorem ssa_visit {p : SsaProg} {fuel root : Nat} {phis : Phis} {s : SsaSt}
    (h : renameVars p fuel root phis = (pure s : Run SsaSt)) (hn : (preorder p.domSucc fuel root).Nodup)
    {vis : List Nat} (hv : vis.Nodup) (hvr : ∀ b, b ∈ vis ↔ b ∈ preorder p.domSucc fuel root)
    (hvi : (vis.flatMap p.insts).Nodup) {b : Nat} (hb : b ∈ vis) :
    (p.insts b).Nodup ∧
    ∃ t t1 t2, BlockVisit p b ⟨fun _ => 0, fun _ => [0], phis, fun _ => [], fun _ => []⟩ s t t1 t2 := by
  have hperm : vis.Perm (preorder p.domSucc fuel root) := (List.perm_ext_iff_of_nodup hv hn).2 hvr
  have hnd : ((preorder p.domSucc fuel root).flatMap p.insts).Nodup :=
    (hperm.flatMap_right p.insts).nodup_iff.1 hvi
  obtain ⟨t, t1, t2, V, _⟩ := renameNode_visit fuel root _ s h hn hnd b ((hvr b).1 hb)
  refine ⟨?_, t, t1, t2, V⟩
  obtain ⟨L1, L2, hL⟩ := List.append_of_mem hb
  rw [hL, List.flatMap_append, List.flatMap_cons, List.nodup_append, List.nodup_append] at hvi
  exact hvi.2.1.1

/-- C61, what holds (1): a register written earlier in the block.  When the SSA form
has been built and no instruction occurs twice in the blocks that can be reached, a
read of a register that an earlier instruction of the same block writes carries
exactly one name of it, the last name given to the register by the closest such
instruction.  Missing for C61: reads whose value comes from another block, for which
it is false in general. -/
theorem ssa_reads_local_partial {g : FlowGraph} {root : Nat} (hg : Rooted g.nodes g.succ g.pred root)
    {insts : Nat → List Nat} {acc : Nat → Access} {isEnd : Nat → Bool} {fuel : Nat} (hf : g.nodes.length < fuel)
    {p : SsaProg} {s : SsaSt} (h : ssaBuild g insts acc isEnd fuel root = (pure (p, s) : Run (SsaProg × SsaSt)))
    {x : Nat} {vis : List Nat} (hv : vis.Nodup) (hvr : ∀ b, b ∈ vis ↔ Reach g.succ root b)
    (hvi : (vis.flatMap insts).Nodup) {b : Nat} (hb : Reach g.succ root b) {u c d : List Nat} {j i : Nat}
    (hi : insts b = u ++ j :: c ++ i :: d)
    (hj : x ∈ (acc j).writes) (hc : ∀ m ∈ c, x ∉ (acc m).writes) (hr : x ∈ (acc i).reads) :
    ∃ k, (∀ m, (x, m) ∈ s.rd i ↔ m = k) ∧ ((s.wr j).filter fun nm => decide (nm.1 = x)).getLast? = some (x, k) := by
  obtain ⟨phis, s1, h1, rfl, rfl, rfl, _, _, o1, o2, h0, hk, hph⟩ := ssa_parts hg hf h
  obtain ⟨e1, e2, _⟩ := removeDeadPhi_eq p g.nodes s1
  rw [e1, e2]
  obtain ⟨hn, t, t1, t2, V⟩ := ssa_visit h1 o1 hv (fun b => by rw [hvr, o2]) hvi ((hvr b).2 hb)
  obtain ⟨k, k1, k2⟩ := V.read_write hn hi hj hc hr rfl
  refine ⟨k, fun m => ?_, k2⟩
  rw [mem_only, k1]
  simp

/-- C61, what holds (2): a register with a merge function in the block.  When the
SSA form has been built and no instruction occurs twice in the blocks that can be
reached, a read of a register that no earlier instruction of the block writes, in a
block with a merge function of it, carries exactly one name of it, that of the merge
function. -/
theorem ssa_reads_merge_partial {g : FlowGraph} {root : Nat} (hg : Rooted g.nodes g.succ g.pred root)
    {insts : Nat → List Nat} {acc : Nat → Access} {isEnd : Nat → Bool} {fuel : Nat} (hf : g.nodes.length < fuel)
    {p : SsaProg} {s : SsaSt} (h : ssaBuild g insts acc isEnd fuel root = (pure (p, s) : Run (SsaProg × SsaSt)))
    {x k : Nat} {vis : List Nat} (hv : vis.Nodup) (hvr : ∀ b, b ∈ vis ↔ Reach g.succ root b)
    (hvi : (vis.flatMap insts).Nodup) {b : Nat} {c d : List Nat} {i : Nat} (hi : insts b = c ++ i :: d)
    (hm : (x, k) ∈ (s.phis b).map (·.1)) (hc : ∀ m ∈ c, x ∉ (acc m).writes) (hr : x ∈ (acc i).reads) :
    ∀ m, (x, m) ∈ s.rd i ↔ m = k := by
  obtain ⟨phis, s1, h1, rfl, rfl, rfl, _, _, o1, o2, h0, hk, hph⟩ := ssa_parts hg hf h
  obtain ⟨e1, e2, e3⟩ := removeDeadPhi_eq p g.nodes s1
  have hm1 : (x, k) ∈ (s1.phis b).map (·.1) := by
    have : ((removeDeadPhi p g.nodes s1).phis b).Sublist (s1.phis b) := by
      rw [e3]
      split
      · exact List.filter_sublist
      · exact List.Sublist.refl _
    exact (this.map _).subset hm
  have hb : Reach g.succ root b := by
    by_contra hb
    have hb' : b ∉ preorder p.domSucc fuel root := fun h => hb ((o2 b).1 h)
    rw [renameNode_keys fuel root _ s1 h1 b hb'] at hm1
    obtain ⟨e, he, _⟩ := List.mem_map.1 hm1
    exact hb (hph b e he).1
  obtain ⟨hn, t, t1, t2, V⟩ := ssa_visit h1 o1 hv (fun b => by rw [hvr, o2]) hvi ((hvr b).2 hb)
  obtain ⟨k', k1, k2⟩ := visit_merge V h0 hk hm1
  rw [k2] at *
  intro m
  rw [e1, mem_only, V.read_merge hn hi k1 hc rfl, if_pos hr]
  simp

/-- The indices along the walk, counted. -/
theorem walk_counts {p : SsaProg} {fuel root : Nat} {phis : Phis} {s : SsaSt}
    (h : renameVars p fuel root phis = (pure s : Run SsaSt))
    {l : List Nat} (hl : Walk p.domSucc [root] l) (hn : l.Nodup) (hni : (l.flatMap p.insts).Nodup) (x : Nat) : ∀ P d Q, Spec.defLine p.insts l = P ++ .inst d :: Q →
    only x (s.rd d) = (if x ∈ (p.acc d).reads then [(x, (P.flatMap (defRegs p phis)).count x)] else []) ∧
    only x (s.wr d) = freshNames x ((P.flatMap (defRegs p phis)).count x) ((p.acc d).writes.count x) := by
  let s0 : SsaSt := ⟨fun _ => 0, fun _ => [0], phis, fun _ => [], fun _ => []⟩
  have h' : renameNode p fuel s0 root = pure s := h
  have ht : TopIs x 0 s0 := ⟨rfl, fun t l hl => (List.cons.inj hl).1.symm⟩
  have := hl.unique (renameNode_isWalk fuel root s0 s h')
  subst this
  intro P d Q hd
  rcases line_split p.insts _ P _ Q hd with ⟨_, _, _, _, e, _⟩ | ⟨u, b, v, a, j, c, e1, e2, e3, e4⟩
  · cases e
  · cases e3
    have := renameNode_walk ht h' hn hni e1 e2 rfl rfl
    have hc : (P.flatMap (defRegs p phis)).count x = 0 + defCount p s0 u x + (phiVars s0 b).count x + wcount p a x := by
      rw [e4, List.flatMap_append, List.count_append, List.flatMap_cons, List.count_append, insts_regs]
      have := line_regs p s0 u x
      unfold wcount
      show ((Spec.defLine p.insts u).flatMap (defRegs p s0.phis)).count x + ((phiVars s0 b).count x + _) = _
      rw [this]
      omega
    rw [hc]
    exact this

/-- The index counted up to a place of the walk is that of the last definition before
it. -/
theorem walk_last {p : SsaProg} {fuel root : Nat} {phis : Phis} {s : SsaSt}
    (h0 : ∀ b, ∀ e ∈ phis b, e.1.2 = 0) (hk : ∀ b, ((phis b).map (·.1)).Nodup)
    (h : renameVars p fuel root phis = (pure s : Run SsaSt))
    {l : List Nat} (hl : Walk p.domSucc [root] l) (hn : l.Nodup) (hni : (l.flatMap p.insts).Nodup)
    {P R : List Spec.Def} {x : Nat} (hi : Spec.defLine p.insts l = P ++ R) :
    ((P.flatMap (defRegs p phis)).count x = 0 ∧ ∀ d ∈ P, x ∉ defRegs p phis d) ∨
    ∃ P' d Q, P = P' ++ d :: Q ∧ x ∈ defRegs p phis d ∧ (∀ e ∈ Q, x ∉ defRegs p phis e) ∧
      match d with
      | .inst j => ((s.wr j).filter fun nm => decide (nm.1 = x)).getLast? = some (x, (P.flatMap (defRegs p phis)).count x)
      | .merge b => (x, (P.flatMap (defRegs p phis)).count x) ∈ (s.phis b).map (·.1) := by
  let s0 : SsaSt := ⟨fun _ => 0, fun _ => [0], phis, fun _ => [], fun _ => []⟩
  have h' : renameNode p fuel s0 root = pure s := h
  have ht : TopIs x 0 s0 := ⟨rfl, fun t l hl => (List.cons.inj hl).1.symm⟩
  have cnt := walk_counts h hl hn hni x
  have := hl.unique (renameNode_isWalk fuel root s0 s h')
  subst this
  by_cases hnone : ∀ d ∈ P, x ∉ defRegs p phis d
  · left
    refine ⟨?_, hnone⟩
    rw [List.count_eq_zero]
    intro hm
    obtain ⟨d, h1, h2⟩ := List.mem_flatMap.1 hm
    exact hnone d h1 h2
  · right
    have last : ∀ P : List Spec.Def, (¬ ∀ d ∈ P, x ∉ defRegs p phis d) →
        ∃ P' d Q, P = P' ++ d :: Q ∧ x ∈ defRegs p phis d ∧ ∀ e ∈ Q, x ∉ defRegs p phis e := by
      intro P
      induction P with
      | nil => intro h; exact absurd (by simp) h
      | cons e P ih =>
        intro h
        by_cases hP : ∀ d ∈ P, x ∉ defRegs p phis d
        · refine ⟨[], e, P, rfl, ?_, hP⟩
          by_contra he
          exact h fun d hd => by
            rcases List.mem_cons.1 hd with rfl | hd
            · exact he
            · exact hP d hd
        · obtain ⟨P', d, Q, e1, e2, e3⟩ := ih hP
          exact ⟨e :: P', d, Q, by rw [e1]; rfl, e2, e3⟩
    obtain ⟨P', d, Q, e1, e2, e3⟩ := last P hnone
    refine ⟨P', d, Q, e1, e2, e3, ?_⟩
    have hQ : (Q.flatMap (defRegs p phis)).count x = 0 := by
      rw [List.count_eq_zero]
      intro hm
      obtain ⟨d, h1, h2⟩ := List.mem_flatMap.1 hm
      exact e3 d h1 h2
    have hcP : (P.flatMap (defRegs p phis)).count x
        = (P'.flatMap (defRegs p phis)).count x + (defRegs p phis d).count x := by
      rw [e1, List.flatMap_append, List.count_append, List.flatMap_cons, List.count_append, hQ]
      omega
    have hsplit : Spec.defLine p.insts (preorder p.domSucc fuel root) = P' ++ d :: (Q ++ R) := by
      rw [hi, e1]
      simp
    rw [hcP]
    cases d with
    | inst j =>
      obtain ⟨_, hW⟩ := cnt P' j _ hsplit
      show (only x (s.wr j)).getLast? = _
      rw [hW, freshNames_last _ _ (by rw [← Nat.pos_iff_ne_zero, List.count_pos_iff]; exact e2)]
      rfl
    | merge b =>
      rcases line_split p.insts _ P' _ _ hsplit with ⟨u, b', v, g1, g2, g3⟩ | ⟨_, _, _, _, _, _, _, _, g, _⟩
      · cases g2
        have hone : (phiVars s0 b).count x = 1 := by
          have hnd : ((phis b).map (·.1.1)).Nodup := by
            have e : (phis b).map (·.1) = ((phis b).map (·.1.1)).map fun v => (v, 0) := by
              rw [List.map_map]
              apply List.map_congr_left
              intro e he
              have := h0 b e he
              exact Prod.ext rfl this
            have := hk b
            rw [e] at this
            exact List.Nodup.of_map _ this
          exact List.count_eq_one_of_mem hnd e2
        have := renameNode_walkPhi ht h' hn hni g1 0 (by omega)
        have hc : (P'.flatMap (defRegs p phis)).count x = defCount p s0 u x := by
          rw [g3]
          exact line_regs p s0 u x
        rw [hc]
        show (x, defCount p s0 u x + (phiVars s0 b).count x) ∈ _
        rw [hone]
        simpa using this
      · cases g

/-- C61, what holds (3): on the way from the root that always takes the first
dominated block, and so everywhere when no block dominates two blocks directly.
When a renaming has ended, no block and no instruction being met twice, a read of a
register by an instruction on that way carries exactly one name of it: index 0 if
nothing before it on the way defines the register, otherwise the last name given to
the register by the last merge function or instruction before it on the way.
Missing for C61: blocks beyond the first branch, where it is false in general. -/
theorem ssa_reads_first_branch_partial {p : SsaProg} {fuel root : Nat} {phis : Phis} {s : SsaSt}
    (h0 : ∀ b, ∀ e ∈ phis b, e.1.2 = 0) (hk : ∀ b, ((phis b).map (·.1)).Nodup)
    (h : renameVars p fuel root phis = (pure s : Run SsaSt))
    (hn : (preorder p.domSucc fuel root).Nodup) (hni : ((preorder p.domSucc fuel root).flatMap p.insts).Nodup)
    {l : List Nat} (hl : Leftmost p.domSucc root l) {P R : List Spec.Def} {i x : Nat}
    (hi : Spec.defLine p.insts l = P ++ .inst i :: R) (hx : x ∈ (p.acc i).reads) :
    ∃ k, (∀ m, (x, m) ∈ s.rd i ↔ m = k) ∧
      ((k = 0 ∧ ∀ d ∈ P, x ∉ defRegs p phis d) ∨
       ∃ P' d Q, P = P' ++ d :: Q ∧ x ∈ defRegs p phis d ∧ (∀ e ∈ Q, x ∉ defRegs p phis e) ∧
        match d with
        | .inst j => ((s.wr j).filter fun nm => decide (nm.1 = x)).getLast? = some (x, k)
        | .merge b => (x, k) ∈ (s.phis b).map (·.1)) := by
  have hw := renameNode_isWalk fuel root _ s h
  obtain ⟨r, hr⟩ := hl.walk hw
  have hi' : Spec.defLine p.insts (preorder p.domSucc fuel root) = P ++ .inst i :: (R ++ Spec.defLine p.insts r) := by
    rw [hr]
    unfold Spec.defLine at hi ⊢
    rw [List.flatMap_append, hi, List.append_assoc]
    rfl
  obtain ⟨hR, _⟩ := walk_counts h hw hn hni x P i _ hi'
  rw [if_pos hx] at hR
  refine ⟨(P.flatMap (defRegs p phis)).count x, fun m => ?_, walk_last h0 hk h hw hn hni hi'⟩
  rw [mem_only, hR]
  simp

/-! ## C62: the graph of the values -/

/-- C62.  Building the graph of the values never raises.  Its nodes are the names of
the merge functions with their parameters, and the names written with the names
read by instructions that write something; there is an edge from `a` to `b` exactly
when `b` is the name of a merge function of a block of the graph and `a` one of its
parameters, or when some instruction of a block of the graph reads `a` and writes
`b`.  Every node and every edge is there once. -/
theorem value_graph_exact (p : SsaProg) (nodes : List Nat) (s : SsaSt) :
    ∃ d, valueGraph p nodes s = .ok d ∧
      (∀ y, y ∈ d.nodes ↔ ∃ n ∈ nodes, (∃ nm ps, (nm, ps) ∈ s.phis n ∧ (y = nm ∨ y ∈ ps)) ∨
        ∃ i ∈ p.insts n, (y ∈ s.wr i ∨ (y ∈ s.rd i ∧ s.wr i ≠ []))) ∧
      (∀ a b, (a, b) ∈ d.edges ↔ ∃ n ∈ nodes, (∃ ps, (b, ps) ∈ s.phis n ∧ a ∈ ps) ∨
        ∃ i ∈ p.insts n, a ∈ s.rd i ∧ b ∈ s.wr i) ∧
      d.nodes.Nodup ∧ d.edges.Nodup := by
  obtain ⟨d, h1, h2⟩ := valueGraph_ok p nodes s
  refine ⟨d, h1, fun y => ?_, fun a b => ?_, h2.nodup, h2.enodup⟩
  · rw [h2.node]
    constructor
    · rintro ⟨n, hn, ⟨e, he, h⟩ | ⟨i, hi, w, hw, h⟩⟩
      · exact ⟨n, hn, Or.inl ⟨e.1, e.2, he, h⟩⟩
      · refine ⟨n, hn, Or.inr ⟨i, hi, ?_⟩⟩
        rcases h with rfl | h
        · exact Or.inl hw
        · exact Or.inr ⟨h, List.ne_nil_of_mem hw⟩
    · rintro ⟨n, hn, ⟨nm, ps, he, h⟩ | ⟨i, hi, h⟩⟩
      · exact ⟨n, hn, Or.inl ⟨(nm, ps), he, h⟩⟩
      · refine ⟨n, hn, Or.inr ⟨i, hi, ?_⟩⟩
        rcases h with h | ⟨h, hw⟩
        · exact ⟨y, h, Or.inl rfl⟩
        · obtain ⟨w, hw⟩ := List.exists_mem_of_ne_nil _ hw
          exact ⟨w, hw, Or.inr h⟩
  · rw [h2.edge]
    constructor
    · rintro ⟨n, hn, ⟨e, he, rfl, h⟩ | ⟨i, hi, w, hw, rfl, h⟩⟩
      · exact ⟨n, hn, Or.inl ⟨e.2, he, h⟩⟩
      · exact ⟨n, hn, Or.inr ⟨i, hi, h, hw⟩⟩
    · rintro ⟨n, hn, ⟨ps, he, h⟩ | ⟨i, hi, h, hw⟩⟩
      · exact ⟨n, hn, Or.inl ⟨(b, ps), he, rfl, h⟩⟩
      · exact ⟨n, hn, Or.inr ⟨i, hi, b, hw, rfl, h⟩⟩

/-! ## C83: dead merge functions -/

/-- C83.  Removing the dead merge functions removes from the blocks of the graph
exactly the merge functions whose register some instruction of the block writes
with a larger index, neither that instruction nor an earlier one of the block
reading the merge function; the others stay as they are and in order, and the names
of the instructions do not change. -/
theorem dead_phi_removal (p : SsaProg) (nodes : List Nat) (s : SsaSt) :
    (removeDeadPhi p nodes s).rd = s.rd ∧ (removeDeadPhi p nodes s).wr = s.wr ∧
    ∀ b, ((removeDeadPhi p nodes s).phis b).Sublist (s.phis b) ∧
      ∀ e ∈ s.phis b, (e ∈ (removeDeadPhi p nodes s).phis b ↔
        ¬ (b ∈ nodes ∧ ∃ u i v, p.insts b = u ++ i :: v ∧ (∀ j ∈ u, e.1 ∉ s.rd j) ∧ e.1 ∉ s.rd i ∧
          ∃ w ∈ s.wr i, w.1 = e.1.1 ∧ e.1.2 < w.2)) := by
  obtain ⟨h1, h2, h3⟩ := removeDeadPhi_eq p nodes s
  refine ⟨h1, h2, fun b => ⟨?_, fun e he => ?_⟩⟩
  · rw [h3]
    split
    · exact List.filter_sublist
    · exact List.Sublist.refl _
  · rw [h3, ← keepPhi_false]
    by_cases hb : b ∈ nodes
    · rw [if_pos hb, List.mem_filter]
      simp [he, hb]
    · rw [if_neg hb]
      simp [he, hb]

/-! The example of `Props/Frontier.lean` with its SSA form. -/

/-- Instructions 10, 20, 30 and 50, 51. -/
def ssaInsts : Nat → List Nat
  | 0 => [10]
  | 2 => [20]
  | 3 => [30]
  | 5 => [50, 51]
  | _ => []

/-- What they read and write. -/
def ssaAcc : Nat → Access
  | 10 => ⟨[], [7]⟩
  | 20 => ⟨[], [8]⟩
  | 30 => ⟨[7], [7]⟩
  | 50 => ⟨[7], []⟩
  | 51 => ⟨[8], [9]⟩
  | _ => ⟨[], []⟩

/-- The hypothesis of `ssa_names_once` holds of the example (block 6 cannot be
reached); instruction 30 in block 3 reads the name of the merge function of block
4, which does not dominate it. -/
example : ssaTable (ssaBuild domExample ssaInsts ssaAcc (· == 6) 8 0) [10, 20, 30, 50, 51] [1, 4]
    = some ([([], [(7, 1)]), ([], [(8, 3)]), ([(7, 3)], [(7, 4)]), ([(7, 3)], []), ([(8, 2)], [(9, 1)])],
      [[((7, 2), [(7, 1), (7, 3)]), ((8, 1), [(8, 0), (8, 2)])],
       [((7, 3), [(7, 4), (7, 4)]), ((8, 2), [(8, 2), (8, 3)])]]) := by decide +kernel

/-- A register used only in a block: instructions 50 and 51 of block 5 (register 9),
the case of `ssa_reads_local_partial`. -/
example : ssaTable (ssaBuild domExample ssaInsts
      (fun i => if i = 50 then ⟨[7], [9]⟩ else if i = 51 then ⟨[9], []⟩ else ssaAcc i) (· == 6) 8 0) [50, 51] []
    = some ([([(7, 3)], [(9, 1)]), ([(9, 1)], [])], []) := by decide +kernel

/-- The way 0, 1, 4, 5 of the example takes first branches. -/
example : Leftmost (fun | 0 => [1] | 1 => [4, 3, 2] | 4 => [5] | _ => []) 0 [0, 1, 4, 5] :=
  .step rfl (.step rfl (.step rfl (.leaf rfl)))

/-- Dead: the merge function `(0, 1)` of block 1, written again by instruction 10
before instruction 11 reads it. -/
example : keepPhi ⟨fun _ => 0, fun _ => [], fun _ => [], fun i => if i = 11 then [(0, 1)] else [],
    fun i => if i = 10 then [(0, 2)] else []⟩ (0, 1) [10, 11] = false := by decide

end Verif
