import Verif.Proof.CfgEdgesLoop
import Verif.Props.Cfg

/-!
# Property theorems: the edges of the control flow graph (C101)
-/

namespace Verif

open Spec (Line EdgeMeans Enters Follows)

/-- The defined instructions of a program, and what they say of themselves. -/
def cfgLineOf (prog : List CfgInst) (count : Int) : Line where
  line := cfgLine prog count
  cond := fun i => (prog[i]?.getD {}).cond
  branch := fun i => (prog[i]?.getD {}).branch
  link := fun i => (prog[i]?.getD {}).link
  target := fun i => (prog[i]?.getD {}).target

/-! ## C101: every edge is a possible transfer of control -/

/-- C101 is false: an instruction that is always executed and no branch has an edge to
one that is not the next one, over a jump that is always taken. -/
theorem C101_over_refuted : ∃ prog c u v i k, buildCfg prog (-1) = .ok c ∧ (u, v) ∈ c.edges ∧ c.insts u = [i] ∧ c.insts v = [k] ∧
    (prog[i]?.getD {}).branch = false ∧ (prog[i]?.getD {}).cond = condAlways ∧ i + 1 < k ∧
    prog[i + 1]? = some { branch := true, target := some 0 } :=
  ⟨[{}, { branch := true, target := some 0 }, {}], _, 3, 5, 0, 2, rfl, by decide, by decide, by decide, by decide, by decide, by decide, rfl⟩

/-- C101 is false: a jump back to an instruction under a condition leads past the
condition. -/
theorem C101_past_refuted : ∃ prog c u v w t, buildCfg prog (-1) = .ok c ∧ c.insts v = [t] ∧ (prog[t]?.getD {}).cond ≠ condAlways ∧
    c.kind w = .cond ∧ (w, v) ∈ c.edges ∧ c.insts u = [t + 1] ∧ (prog[t + 1]?.getD {}).target = some t ∧
    (u, v) ∈ c.edges ∧ (u, w) ∉ c.edges :=
  ⟨[{ cond := 0 }, { branch := true, target := some 0 }], _, 5, 3, 4, 0, rfl, by decide, by decide, by decide, by decide, by decide,
    by decide, by decide, by decide⟩

/-- C101, the part that holds: every conditional node guards an instruction that opens
a group and is not always executed, and has an edge to the block that starts with it;
every edge is of one of the kinds of the specification.  Missing: the edges over a
branch of the same group, those from a branch to the next instruction of its group,
and jumps past a condition are no transfers of control. -/
theorem C101_edges_partial {prog : List CfgInst} {count : Int} {c : Cfg} (hne : prog ≠ []) (h : buildCfg prog count = .ok c) :
    ∃ first : Nat → Nat,
      (∀ n ∈ c.nodes, c.kind n = .cond → (prog[first n]?.getD {}).cond ≠ condAlways ∧
        (∃ d r, cfgLine prog count = d ++ first n :: r ∧ (cfgLineOf prog count).opens d (first n) = true) ∧
        ∃ b ∈ c.nodes, c.kind b = .block ∧ (c.insts b).head? = some (first n) ∧ (n, b) ∈ c.edges) ∧
      ∀ u v, (u, v) ∈ c.edges → EdgeMeans (cfgLineOf prog count) c.kind c.insts first u v := by
  obtain ⟨first, I⟩ := buildCfg_einv hne h
  refine ⟨first, fun n hn hk => ?_, I.edge⟩
  obtain ⟨g1, g2⟩ := I.guard n hn hk
  exact ⟨g1, g2, I.linked n hn (by simp) hk⟩

/-- C101: the edges over a branch are always there.  When a branch without link comes
after an instruction with the same condition that is no branch, that instruction is
linked to the one after the branch. -/
theorem C101_over {prog : List CfgInst} {count : Int} {c : Cfg} (hne : prog ≠ []) (hm : cfgCounter prog count ≤ prog.length)
    (h : buildCfg prog count = .ok c) {pre post : List Nat} {a b k : Nat} (hl : cfgLine prog count = pre ++ a :: b :: k :: post)
    (ha : (prog[a]?.getD {}).branch = false) (hb : (prog[b]?.getD {}).branch = true) (hb2 : (prog[b]?.getD {}).link = false)
    (hc : (prog[b]?.getD {}).cond = (prog[a]?.getD {}).cond) :
    Follows c.nodes c.insts (fun w => c.kind w = .cond) (fun u v => (u, v) ∈ c.edges) a k :=
  buildCfg_skip hne hm h hl ⟨ha, hb, hb2, hc⟩

/-- C65: a jump forward never has its edge.  When the target of a branch comes after
it and follows it in the graph, then the target is the next instruction and belongs to
the same group. -/
theorem C65_forward {prog : List CfgInst} {count : Int} {c : Cfg} (hne : prog ≠ []) (h : buildCfg prog count = .ok c) {i t : Nat}
    (hb : (prog[i]?.getD {}).branch = true) (hlt : i < t)
    (ht : (prog[i]?.getD {}).target = some t)
    (hf : Follows c.nodes c.insts (fun w => c.kind w = .cond) (fun u v => (u, v) ∈ c.edges) i t) :
    ∃ d r, cfgLine prog count = d ++ i :: t :: r ∧ (cfgLineOf prog count).opens (d ++ [i]) t = false := by
  obtain ⟨first, I⟩ := buildCfg_einv hne h
  have hn : (cfgLine prog count).Nodup := (definedOf_sorted prog _).imp fun h => Nat.ne_of_lt h
  -- where an edge from a block that ends with the branch leads to
  have key : ∀ u v, (u, v) ∈ c.edges → (c.insts u).getLast? = some i →
      (∃ k d r, cfgLine prog count = d ++ i :: k :: r ∧ (cfgLineOf prog count).opens (d ++ [i]) k = false ∧ Enters c.kind c.insts first v k) ∨
      c.insts v = [] ∧ c.kind v ≠ .cond ∨ (c.kind v = .block ∧ (c.insts v).head? = some t) ∧ t ≤ i := by
    intro u v huv hl
    have hv := (I.ends u v huv).2
    have hu := (I.ends u v huv).1
    have hub := I.head_block hu (List.mem_of_getLast? hl)
    cases I.edge u v huv with
    | start a => rw [hub] at a; cases a
    | empty a => rw [hub] at a; cases a
    | leave _ b => exact Or.inr (Or.inl ⟨I.hollow v hv (by rw [b]; simp), by rw [b]; simp⟩)
    | away a => rw [hub] at a; cases a
    | back a => rw [hub] at a; cases a
    | holds a => rw [hub] at a; cases a
    | fails a => rw [hub] at a; cases a
    | next _ e2 e3 e4 e5 =>
      rw [hl] at e2
      cases e2
      exact Or.inl ⟨_, _, _, e3, e4 hb, e5⟩
    | over _ e2 _ e4 =>
      rw [hl] at e2
      cases e2
      exact absurd (hb.symm.trans e4) (by decide)
    | jump _ e2 e3 _ e5 e6 e7 e8 =>
      rw [hl] at e2
      cases e2
      obtain ⟨d, m, r, _, f2, f3⟩ := e3
      rcases List.eq_nil_or_concat m with rfl | ⟨m', y, rfl⟩
      · rw [List.getLast?_singleton, Option.some.injEq] at f2
        rw [f2] at e5 e6
        have e5 := ht.symm.trans e5
        cases e5
        exact Or.inr (Or.inr ⟨⟨e7, e8⟩, e6⟩)
      · have : y = i := by
          rw [← List.concat_cons, List.concat_eq_append, List.getLast?_concat] at f2
          exact Option.some.inj f2
        subst this
        exact absurd (hb.symm.trans (f3 y (by simp)).1) (by decide)
    | stop _ b => exact Or.inr (Or.inl ⟨I.hollow v hv (by rw [b]; simp), by rw [b]; simp⟩)
    | stopOver _ b => exact Or.inr (Or.inl ⟨I.hollow v hv (by rw [b]; simp), by rw [b]; simp⟩)
  rcases hf with ⟨n, hn', p, q, hpq⟩ | ⟨u, hu, v, hv, hl, hh, huv | ⟨w, hw, huw, hwv⟩⟩
  · obtain ⟨d, r, hdr⟩ := I.contig n hn'
    have hD : cfgLine prog count = (d ++ p) ++ i :: t :: (q ++ r) := contig_next hdr hpq
    refine ⟨d ++ p, q ++ r, hD, ?_⟩
    cases ho : (cfgLineOf prog count).opens (d ++ p ++ [i]) t with
    | false => rfl
    | true =>
      refine absurd ⟨d ++ p ++ [i], q ++ r, by rw [show definedOf prog _ = cfgLine prog count from rfl, hD]; simp, ho⟩ (I.inner n hn' t ?_)
      rw [hpq]
      cases p <;> simp
  · rcases key u v huv hl with ⟨k, d, r, h1, h2, h3⟩ | h | ⟨_, h⟩
    · rcases h3 with ⟨_, h3⟩ | ⟨h3, _⟩
      · rw [hh] at h3
        cases h3
        exact ⟨d, r, h1, h2⟩
      · rw [I.hollow v hv (by rw [h3]; simp)] at hh
        cases hh
    · rw [h.1] at hh
      cases hh
    · omega
  · rcases key u w huw hl with ⟨k, d, r, h1, h2, h3⟩ | h | h
    · rcases h3 with ⟨h3, _⟩ | ⟨_, h3⟩
      · rw [hw] at h3
        cases h3
      · subst h3
        obtain ⟨_, d', r', g1, g2⟩ := I.guard w (I.ends u w huw).2 hw
        have h1' : cfgLine prog count = (d ++ [i]) ++ first w :: r := by rw [h1]; simp
        obtain ⟨e1, _⟩ := nodup_cut (by rw [← h1']; exact hn) (h1'.symm.trans g1)
        rw [← e1] at g2
        exact absurd (h2.symm.trans g2) (by decide)
    · exact absurd hw h.2
    · rw [hw] at h
      cases h.1.1

/-! ## Examples -/

/-- The loop of the other file: its conditional node 5 guards the instruction 2. -/
example : cfgLoop ≠ [] ∧ (buildCfg cfgLoop (-1)).toOption.isSome = true := by decide +kernel

/-- A jump back that is set apart: 0 is linked to 2 over it. -/
example : cfgLine [{}, { branch := true, target := some 0 }, {}] (-1) = [] ++ 0 :: 1 :: 2 :: [] := by decide

/-- A jump to the next instruction, which is in its group. -/
example : (buildCfg [{ branch := true, target := some 1 }, {}] (-1)).toOption.map (fun c => c.insts 3) = some [0, 1] := by decide +kernel

end Verif
