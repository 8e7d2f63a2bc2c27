import Verif.Props.SsaMerge

/-!
# Property theorems: exactly which names the SSA form gives (C61, C88)

C61 and C88 are false of the code.  Here is what holds instead, without exception: the
blocks are walked along the dominator tree, and a read, or a parameter of a merge
function, carries the name of the definition that the walk met last, whether or not it
reaches the place.
-/

namespace Verif

open Spec (Path Reach Dom Idom Rooted Walk)

/-- The walk exists: it visits exactly the blocks that can be reached, each once. -/
theorem ssa_walk {g : FlowGraph} {root : Nat} (hg : Rooted g.nodes g.succ g.pred root)
    {insts : Nat → List Nat} {acc : Nat → Access} {isEnd : Nat → Bool} {fuel : Nat} (hf : g.nodes.length < fuel)
    {p : SsaProg} {s : SsaSt} (h : ssaBuild g insts acc isEnd fuel root = (pure (p, s) : Run (SsaProg × SsaSt))) :
    (∃ l, Walk p.domSucc [root] l ∧ l.Nodup ∧ ∀ b, b ∈ l ↔ Reach g.succ root b) ∧
    ∀ d w, w ∈ p.domSucc d ↔ Reach g.succ root w ∧ Idom g.succ root d w := by
  obtain ⟨phis, s1, h1, rfl, rfl, rfl, _, hd, o1, o2, _, _, _⟩ := ssa_parts hg hf h
  exact ⟨⟨_, renameNode_isWalk fuel root _ s1 h1, o1, o2⟩, hd⟩

/-- The last definition before a place of the walk, counting only merge functions that
are kept. -/
theorem walk_last_kept {p : SsaProg} {fuel root : Nat} {phis : Phis} {s1 : SsaSt} (nodes : List Nat)
    (h0 : ∀ b, ∀ e ∈ phis b, e.1.2 = 0) (hk : ∀ b, ((phis b).map (·.1)).Nodup)
    (h : renameVars p fuel root phis = (pure s1 : Run SsaSt))
    {l : List Nat} (hl : Walk p.domSucc [root] l) (hn : l.Nodup) (hni : (l.flatMap p.insts).Nodup)
    {P R : List Spec.Def} {x : Nat} (hi : Spec.defLine p.insts l = P ++ R)
    (hC : ∀ P' b Q, P = P' ++ .merge b :: Q → (∀ e ∈ Q, x ∉ defRegs p phis e) → ∀ a i c, p.insts b = a ++ i :: c →
      x ∈ (p.acc i).writes → ∃ j ∈ a ++ [i], (x, (P.flatMap (defRegs p phis)).count x) ∈ s1.rd j) :
    ((P.flatMap (defRegs p phis)).count x = 0 ∧ ∀ d ∈ P, x ∉ defRegs p (removeDeadPhi p nodes s1).phis d) ∨
    ∃ P' d Q, P = P' ++ d :: Q ∧ x ∈ defRegs p (removeDeadPhi p nodes s1).phis d ∧
      (∀ e ∈ Q, x ∉ defRegs p (removeDeadPhi p nodes s1).phis e) ∧
      match d with
      | .inst j => ((s1.wr j).filter fun nm => decide (nm.1 = x)).getLast? = some (x, (P.flatMap (defRegs p phis)).count x)
      | .merge b => (x, (P.flatMap (defRegs p phis)).count x) ∈ ((removeDeadPhi p nodes s1).phis b).map (·.1) := by
  have hsub : ∀ d, x ∈ defRegs p (removeDeadPhi p nodes s1).phis d → x ∈ defRegs p phis d := by
    intro d hd
    cases d with
    | inst i => exact hd
    | merge b =>
      have : x ∈ (s1.phis b).map (·.1.1) := ((sublist_removeDeadPhi p nodes s1 b).map _).subset hd
      obtain ⟨ext, h1, _⟩ := renameNode_params fuel root _ s1 h b
      have e := congrArg (List.map Prod.fst) h1
      simp only [bareMerges, List.map_map] at e
      have e : (s1.phis b).map (·.1.1) = (phis b).map (·.1.1) := e
      rw [e] at this
      exact this
  rcases walk_last h0 hk h hl hn hni hi (x := x) with ⟨h1, h2⟩ | ⟨P', d, Q, h1, h2, h3, h4⟩
  · exact Or.inl ⟨h1, fun d hd hx => h2 d hd (hsub d hx)⟩
  · refine Or.inr ⟨P', d, Q, h1, ?_, fun e he hx => h3 e he (hsub e hx), ?_⟩
    all_goals cases d with
    | inst j => first | exact h2 | exact h4
    | merge b =>
      have h4 : (x, (P.flatMap (defRegs p phis)).count x) ∈ (s1.phis b).map (·.1) := h4
      have keep : (x, (P.flatMap (defRegs p phis)).count x) ∈ ((removeDeadPhi p nodes s1).phis b).map (·.1) := by
        obtain ⟨e, he, heq⟩ := List.mem_map.1 h4
        refine List.mem_map.2 ⟨e, ?_, heq⟩
        rw [((dead_phi_removal p nodes s1).2.2 b).2 e he]
        rintro ⟨_, a, i, c, hb, hr, hri, w, hw, hwx, _⟩
        rw [heq] at hr hri hwx
        have hsplit : Spec.defLine p.insts l = P' ++ .merge b :: (Q ++ R) := by
          rw [hi, h1]
          simp
        have hbl : b ∈ l := by
          rcases line_split p.insts _ P' _ _ hsplit with ⟨u, b', v, g1, g2, g3⟩ | ⟨_, _, _, _, _, _, _, _, g, _⟩
          · cases g2
            rw [g1]
            simp
          · cases g
        have hil : Spec.Def.inst i ∈ Spec.defLine p.insts l := by
          unfold Spec.defLine
          refine List.mem_flatMap.2 ⟨b, hbl, List.mem_cons_of_mem _ (List.mem_map_of_mem ?_)⟩
          rw [hb]
          simp
        obtain ⟨A, B, hAB⟩ := List.append_of_mem hil
        have hwi : x ∈ (p.acc i).writes := by
          obtain ⟨_, g⟩ := walk_counts h hl hn hni x A i B hAB
          have : w ∈ only x (s1.wr i) := List.mem_filter.2 ⟨hw, by simpa using hwx⟩
          rw [g] at this
          by_contra hnot
          rw [List.count_eq_zero.2 hnot] at this
          simp [freshNames] at this
        obtain ⟨j, hj, hjr⟩ := hC P' b Q h1 h3 a i c hb hwi
        rcases List.mem_append.1 hj with hj | hj
        · exact hr j hj hjr
        · rw [List.mem_singleton.1 hj] at hjr
          exact hri hjr
      first
      | exact keep
      | (show x ∈ ((removeDeadPhi p nodes s1).phis b).map (·.1.1)
         obtain ⟨e, he, heq⟩ := List.mem_map.1 keep
         exact List.mem_map.2 ⟨e, he, by rw [heq]⟩)

/-- C61, exactly.  When the SSA form has been built and no instruction occurs twice in
the blocks that can be reached, let the blocks be walked from the root along the
dominator tree, each block before the blocks it dominates.  A read of a register
carries exactly one name of it: index 0 if neither a merge function nor an instruction
earlier in the walk defines the register, otherwise the last name given to the
register by the last of them. -/
theorem ssa_reads_exact {g : FlowGraph} {root : Nat} (hg : Rooted g.nodes g.succ g.pred root)
    {insts : Nat → List Nat} {acc : Nat → Access} {isEnd : Nat → Bool} {fuel : Nat} (hf : g.nodes.length < fuel)
    {p : SsaProg} {s : SsaSt} (h : ssaBuild g insts acc isEnd fuel root = (pure (p, s) : Run (SsaProg × SsaSt)))
    {l : List Nat} (hl : Walk p.domSucc [root] l) (hli : (l.flatMap insts).Nodup) {P R : List Spec.Def} {i x : Nat}
    (hi : Spec.defLine insts l = P ++ .inst i :: R) (hx : x ∈ (acc i).reads) :
    ∃ k, (∀ m, (x, m) ∈ s.rd i ↔ m = k) ∧
      ((k = 0 ∧ ∀ d ∈ P, x ∉ defRegs p s.phis d) ∨
       ∃ P' d Q, P = P' ++ d :: Q ∧ x ∈ defRegs p s.phis d ∧ (∀ e ∈ Q, x ∉ defRegs p s.phis e) ∧
        match d with
        | .inst j => ((s.wr j).filter fun nm => decide (nm.1 = x)).getLast? = some (x, k)
        | .merge b => (x, k) ∈ (s.phis b).map (·.1)) := by
  obtain ⟨phis, s1, h1, rfl, rfl, rfl, _, hd, o1, o2, h0, hk, _⟩ := ssa_parts hg hf h
  have hn : l.Nodup := by
    rw [hl.unique (renameNode_isWalk fuel root _ s1 h1)]
    exact o1
  obtain ⟨e1, e2, _⟩ := removeDeadPhi_eq p g.nodes s1
  obtain ⟨hR, _⟩ := walk_counts h1 hl hn hli x P i R hi
  rw [if_pos hx] at hR
  have hread : (x, (P.flatMap (defRegs p phis)).count x) ∈ s1.rd i := by
    rw [mem_only, hR]
    simp
  refine ⟨(P.flatMap (defRegs p phis)).count x, fun m => ?_, ?_⟩
  · rw [e1, mem_only, hR]
    simp
  rw [e2]
  refine walk_last_kept g.nodes h0 hk h1 hl hn hli hi ?_
  intro P' b Q hP hQ a i' c hb hw
  have hsplit : Spec.defLine p.insts l = P' ++ .merge b :: (Q ++ .inst i :: R) := by
    rw [hi, hP]
    simp
  rcases line_split p.insts _ P' _ _ hsplit with ⟨u, b', v, g1, g2, g3⟩ | ⟨_, _, _, _, _, _, _, _, g, _⟩
  · cases g2
    have hrest : Q ++ .inst i :: R = a.map .inst ++ (.inst i' :: (c.map .inst ++ Spec.defLine p.insts v)) := by
      rw [g1, g3] at hsplit
      unfold Spec.defLine at hsplit ⊢
      rw [List.flatMap_append, List.flatMap_cons] at hsplit
      have := (List.cons.inj (List.append_cancel_left hsplit)).2
      rw [hb] at this
      rw [← this]
      simp
    rcases List.append_eq_append_iff.1 hrest with ⟨w, f1, f2⟩ | ⟨w, f1, f2⟩
    · cases w with
      | nil =>
        rw [List.nil_append] at f2
        cases f2
        exact ⟨i, by simp, hread⟩
      | cons y w =>
        rw [List.cons_append] at f2
        cases f2
        have : Spec.Def.inst i ∈ a.map .inst := by rw [f1]; simp
        obtain ⟨j, hj, hj'⟩ := List.mem_map.1 this
        cases hj'
        exact ⟨i, List.mem_append_left _ hj, hread⟩
    · cases w with
      | nil =>
        rw [List.nil_append] at f2
        cases f2
        exact ⟨i, by simp, hread⟩
      | cons y w =>
        rw [List.cons_append] at f2
        obtain ⟨f3, _⟩ := List.cons.inj f2
        exact absurd hw (hQ (.inst i') (by rw [f1, f3]; simp))
  · cases g

/-- C88, exactly.  When the SSA form has been built and no instruction occurs twice in
the blocks that can be reached, let the blocks be walked from the root along the
dominator tree, and consider an edge from a block `c` to a block `b`.  The parameter of
a merge function of `b` for this edge is the name of its register given last in the
walk up to the end of `c`, index 0 if there is none.  Parameters are ordered by the
blocks of the walk, edges from one block by the order of its successors. -/
theorem merge_params_exact {g : FlowGraph} {root : Nat} (hg : Rooted g.nodes g.succ g.pred root)
    {insts : Nat → List Nat} {acc : Nat → Access} {isEnd : Nat → Bool} {fuel : Nat} (hf : g.nodes.length < fuel)
    {p : SsaProg} {s : SsaSt} (h : ssaBuild g insts acc isEnd fuel root = (pure (p, s) : Run (SsaProg × SsaSt)))
    {u v A B : List Nat} {c b : Nat} (hl : Walk p.domSucc [root] (u ++ c :: v))
    (hli : ((u ++ c :: v).flatMap insts).Nodup) (hc : g.succ c = A ++ b :: B)
    {e : Name × List Name} (he : e ∈ s.phis b) :
    ∃ k, e.2[(u.flatMap g.succ ++ A).count b]? = some (e.1.1, k) ∧
      ((k = 0 ∧ ∀ d ∈ Spec.defLine insts (u ++ [c]), e.1.1 ∉ defRegs p s.phis d) ∨
       ∃ P d Q, Spec.defLine insts (u ++ [c]) = P ++ d :: Q ∧ e.1.1 ∈ defRegs p s.phis d ∧
        (∀ f ∈ Q, e.1.1 ∉ defRegs p s.phis f) ∧
        match d with
        | .inst j => ((s.wr j).filter fun nm => decide (nm.1 = e.1.1)).getLast? = some (e.1.1, k)
        | .merge m => (e.1.1, k) ∈ (s.phis m).map (·.1)) := by
  obtain ⟨phis, s1, h1, rfl, rfl, rfl, hs, hd, o1, o2, h0, hk, hph⟩ := ssa_parts hg hf h
  have hwalk := hl.unique (renameNode_isWalk fuel root _ s1 h1)
  have hn : (u ++ c :: v).Nodup := by
    rw [hwalk]
    exact o1
  obtain ⟨e1, e2, _⟩ := removeDeadPhi_eq p g.nodes s1
  have he1 := (sublist_removeDeadPhi p g.nodes s1 b).subset he
  obtain ⟨ext, x1, _, x3⟩ := renameNode_params fuel root _ s1 h1 b
  have hm : (e.1.1, e.2) ∈ bareMerges s1 b := List.mem_map_of_mem (f := fun e : Name × List Name => (e.1.1, e.2)) he1
  rw [x1] at hm
  obtain ⟨r, hr, hre⟩ := List.mem_map.1 hm
  obtain ⟨e0, he0, rfl⟩ := List.mem_map.1 hr
  have hnil := (hph b e0 he0).2.1
  simp only [more, hnil, List.nil_append, Prod.mk.injEq] at hre
  have hreach : ∀ d ∈ u ++ c :: v, p.succ d = g.succ d := fun d hd => hs d ((o2 d).1 (hwalk ▸ hd))
  have hu : u.flatMap p.succ = u.flatMap g.succ := by
    rw [List.flatMap_def, List.flatMap_def]
    congr 1
    exact List.map_congr_left fun d hd => hreach d (by simp [hd])
  have hx := x3 e.1.1 0 ⟨rfl, fun t l hl => (List.cons.inj hl).1.symm⟩ u c v A B hwalk.symm
    ((hreach c (by simp)).trans hc)
  rw [hu] at hx
  have hline : Spec.defLine p.insts (u ++ c :: v) = Spec.defLine p.insts (u ++ [c]) ++ Spec.defLine p.insts v := by
    unfold Spec.defLine
    simp
  have hlast := walk_last_kept (x := e.1.1) g.nodes h0 hk h1 hl hn hli hline (by
    intro P' m Q hP hQ a i c' hb hw
    rcases line_split p.insts _ P' _ _ hP with ⟨u', b', v', g1, g2, g3⟩ | ⟨_, _, _, _, _, _, _, _, g, _⟩
    · cases g2
      rw [g1, g3] at hP
      unfold Spec.defLine at hP
      rw [List.flatMap_append, List.flatMap_cons] at hP
      have := (List.cons.inj (List.append_cancel_left hP)).2
      refine absurd hw (hQ (.inst i) ?_)
      rw [← this, hb]
      simp
    · cases g)
  rw [← e2] at hlast
  refine ⟨_, ?_, hlast⟩
  have hreg := line_regs p ⟨fun _ => 0, fun _ => [0], phis, fun _ => [], fun _ => []⟩ (u ++ [c]) e.1.1
  rw [← hre.2, hre.1, List.getElem?_map, hx]
  rw [← hreg, Nat.zero_add]
  rfl

/-! The example of `Props/Frontier.lean`: the walk is 0, 1, 4, 5, 3, 2.  Instruction 30 of
block 3 reads index 3 of register 7, given by the merge function of block 4, the last one
in the walk before it; the second parameter of the merge function of block 4, for the edge
from block 2, is index 4, given by instruction 30. -/

example : Walk (fun | 0 => [1] | 1 => [4, 3, 2] | 4 => [5] | _ => []) [0] [0, 1, 4, 5, 3, 2] :=
  .cons (l := [1, 4, 5, 3, 2]) (m := [])
    (.cons (l := [4, 5, 3, 2]) (m := [])
      (.cons (l := [5]) (m := [3, 2]) (.cons (l := []) (m := []) .nil .nil)
        (.cons (l := []) (m := [2]) .nil (.cons (l := []) (m := []) .nil .nil))) .nil) .nil

example : (match (ssaBuild domExample ssaInsts ssaAcc (· == 6) 8 0 : Run (SsaProg × SsaSt)) with
      | some (.ok (p, _)) => [0, 1, 2, 3, 4, 5].map p.domSucc
      | _ => []) = [[1], [4, 3, 2], [], [], [5], []] := by decide +kernel

example : ([0, 1, 4, 5, 3, 2].flatMap ssaInsts).Nodup := by decide

end Verif
