import Verif.Proof.CfgBuild
import Verif.Proof.CfgRemove

/-!
# Property theorems: the control flow graph (C63 - C66, C84)
-/

namespace Verif

open Spec (Via Reach SetApart Follows)

/-- How many instructions `build(count)` looks at. -/
abbrev cfgCounter (prog : List CfgInst) (count : Int) : Nat := if count = -1 then prog.length else count.toNat

/-- The instructions that are defined, among the first ones, in order. -/
abbrev cfgLine (prog : List CfgInst) (count : Int) : List Nat :=
  (List.range (cfgCounter prog count)).filter fun i => !(prog[i]?.getD {}).undefined

/-! ## C63: the blocks partition the instructions -/

/-- C63.  Building never raises an exception when there are enough instructions.  The
blocks can be put in an order in which their instructions, one block after the other,
are the defined instructions in program order; in particular every instruction is in
one block only.  Blocks hold instructions, the other nodes hold none.  There is one
root, without incoming edges, and one end, without outgoing edges. -/
theorem cfg_partition {prog : List CfgInst} (hne : prog ≠ []) (count : Int) (hm : cfgCounter prog count ≤ prog.length) :
    ∃ (c : Cfg) (order : List Nat), buildCfg prog count = .ok c ∧ c.nodes.Nodup ∧ c.edges.Nodup ∧
      (∀ u v, (u, v) ∈ c.edges → u ∈ c.nodes ∧ v ∈ c.nodes) ∧
      order.Nodup ∧ (∀ n, n ∈ order ↔ n ∈ c.nodes ∧ c.kind n = .block) ∧ order.flatMap c.insts = cfgLine prog count ∧
      (∀ n ∈ c.nodes, c.insts n = [] ↔ c.kind n ≠ .block) ∧
      (∃ r ∈ c.nodes, ∀ n ∈ c.nodes, (c.kind n = .root ↔ n = r) ∧ (n, r) ∉ c.edges) ∧
      ∃ e ∈ c.nodes, ∀ n ∈ c.nodes, (c.kind n = .fin ↔ n = e) ∧ (e, n) ∉ c.edges := by
  obtain ⟨c, order, e, I, _⟩ := buildCfg_ok (P := fun _ => False) hne count hm (fun _ _ _ _ _ _ _ _ _ h => h)
  refine ⟨c, order, e, I.nodup, I.enodup, I.ends, I.onodup, I.ord, I.flat, fun n hn => ⟨fun h hk => I.full n hn hk h, I.empty n hn⟩,
    ⟨1, I.one.1, fun n hn => ⟨⟨(I.others n hn).1, ?_⟩, I.noin n⟩⟩, ⟨2, I.two.1, fun n hn => ⟨⟨(I.others n hn).2, ?_⟩, I.noout n⟩⟩⟩
  · rintro rfl; exact I.one.2
  · rintro rfl; exact I.two.2

/-- C63, the remaining cases: too many instructions asked for, no instructions. -/
theorem cfg_partition_errors (prog : List CfgInst) (count : Int) :
    (prog ≠ [] → count ≠ -1 → prog.length < count.toNat → buildCfg prog count = .error .index) ∧ buildCfg [] count = .ok {} :=
  ⟨fun h1 h2 h3 => buildCfg_over h1 count h2 h3, rfl⟩

/-! ## C84: straight flow -/

/-- C84.  Of two consecutive defined instructions, of which the first is no branch,
the second follows the first in the graph. -/
theorem cfg_straight {prog : List CfgInst} (hne : prog ≠ []) (count : Int) (hm : cfgCounter prog count ≤ prog.length) {c : Cfg}
    (h : buildCfg prog count = .ok c) {pre post : List Nat} {i j : Nat} (hl : cfgLine prog count = pre ++ i :: j :: post)
    (hb : (prog[i]?.getD {}).branch = false) :
    Follows c.nodes c.insts (fun w => c.kind w = .cond) (fun u v => (u, v) ∈ c.edges) i j := by
  obtain ⟨c', order, e, _, hf⟩ := buildCfg_ok (P := fun _ => False) hne count hm (fun _ _ _ _ _ _ _ _ _ h => h)
  rw [h] at e
  cases e
  exact hf pre i j post hl hb

/-! ## C64, C65: branches -/

theorem nodup_split {α : Type} {x : α} : ∀ {a b c d : List α}, (a ++ x :: b).Nodup → a ++ x :: b = c ++ x :: d → a = c := by
  intro a
  induction a with
  | nil =>
    intro b c d hn h
    cases c with
    | nil => rfl
    | cons y c =>
      have h := List.cons.inj h
      rw [List.nil_append, List.nodup_cons, h.2] at hn
      exact absurd (by simp) hn.1
  | cons y a ih =>
    intro b c d hn h
    cases c with
    | nil =>
      have h := List.cons.inj h
      rw [List.cons_append, List.nodup_cons, h.1] at hn
      exact absurd (by simp) hn.1
    | cons z c =>
      have h := List.cons.inj h
      rw [List.cons_append, List.nodup_cons] at hn
      rw [h.1, ih hn.2 h.2]

theorem setApart_loop {prog : List CfgInst} (count : Int) : ∀ d j i r, definedOf prog (List.range (cfgCounter prog count)) = d ++ j :: i :: r →
    (prog[j]?.getD {}).branch = true → lastCondOf prog d ≠ some (prog[j]?.getD {}).cond →
    (prog[j]?.getD {}).cond = (prog[i]?.getD {}).cond → (prog[i]?.getD {}).branch = false →
    ¬ SetApart (fun i => (prog[i]?.getD {}).cond) (fun i => (prog[i]?.getD {}).branch) (cfgLine prog count) j := by
  intro d j i r hD hj hlc hc hi
  rintro (h | ⟨pre, k, post, h1, h2, h3⟩)
  · rcases h d i r hD with h | h
    · exact absurd (hi.symm.trans h) (by decide)
    · exact h hc.symm
  · have hn : (d ++ j :: i :: r).Nodup := by
      rw [← hD]
      exact (definedOf_sorted prog _).imp fun h => Nat.ne_of_lt h
    have h1 : d ++ j :: i :: r = (pre ++ [k]) ++ j :: post := by
      rw [← hD]
      show cfgLine prog count = _
      rw [h1]
      simp
    have := nodup_split hn h1
    apply hlc
    rw [this, lastCondOf_snoc, if_neg (by rintro ⟨_, h⟩; exact absurd (h2.symm.trans h) (by decide))]
    exact congrArg some h3

/-- C64 is false: a conditional branch followed by an instruction with the same
condition shares a block with it and does not end it. -/
theorem cfg_branch_inside : ∃ prog c n i, buildCfg prog (-1) = .ok c ∧ n ∈ c.nodes ∧ i ∈ c.insts n ∧
    (prog[i]?.getD {}).branch = true ∧ (c.insts n).getLast? ≠ some i :=
  ⟨[{ cond := 0, branch := true }, { cond := 0 }], _, 3, 0, rfl, by decide, by decide, by decide, by decide⟩

/-- C64, the part that holds: a branch is the first instruction of its block, and it
is the only one when it is set apart.  Missing: the other branches. -/
theorem cfg_branch_partial {prog : List CfgInst} (hne : prog ≠ []) (count : Int) (hm : cfgCounter prog count ≤ prog.length) {c : Cfg}
    (h : buildCfg prog count = .ok c) {i : Nat} (hi : i ∈ cfgLine prog count) (hb : (prog[i]?.getD {}).branch = true) :
    (∀ n ∈ c.nodes, i ∈ c.insts n → (c.insts n).head? = some i) ∧
    (SetApart (fun i => (prog[i]?.getD {}).cond) (fun i => (prog[i]?.getD {}).branch) (cfgLine prog count) i →
      ∃ n ∈ c.nodes, c.insts n = [i]) := by
  obtain ⟨c', order, e, I, _⟩ := buildCfg_ok hne count hm (setApart_loop count)
  rw [h] at e
  cases e
  refine ⟨fun n hn hm => ?_, I.single i hi hb⟩
  cases hl : c.insts n with
  | nil => rw [hl] at hm; cases hm
  | cons a l =>
    rw [hl] at hm
    rcases List.mem_cons.1 hm with rfl | hm
    · rfl
    · have := I.first n hn i (by rw [hl]; exact hm)
      rw [hb] at this
      cases this

/-- C65 is false: the jump over an instruction leaves no edge, although it is set
apart and its target is in the program. -/
theorem cfg_forward_lost : ∃ prog c i t, buildCfg prog (-1) = .ok c ∧ i ∈ cfgLine prog (-1) ∧ (prog[i]?.getD {}).branch = true ∧
    SetApart (fun i => (prog[i]?.getD {}).cond) (fun i => (prog[i]?.getD {}).branch) (cfgLine prog (-1)) i ∧
    (prog[i]?.getD {}).target = some t ∧ t ∈ cfgLine prog (-1) ∧ ∀ n ∈ c.nodes, i ∈ c.insts n → ∀ m, (n, m) ∉ c.edges := by
  refine ⟨[{}, { branch := true, target := some 3 }, {}, {}], _, 1, 3, rfl, by decide, by decide, ?_, by decide, by decide, ?_⟩
  · exact Or.inr ⟨[], 0, [2, 3], by decide, by decide, by decide⟩
  · intro n hn hi m hm
    have h1 : n = 1 ∨ n = 2 ∨ n = 3 ∨ n = 4 ∨ n = 5 := by
      have : n ∈ [1, 2, 3, 4, 5] := hn
      simpa using this
    have h4 : n = 4 := by
      rcases h1 with rfl | rfl | rfl | rfl | rfl
      · exact absurd hi (by decide)
      · exact absurd hi (by decide)
      · exact absurd hi (by decide)
      · rfl
      · exact absurd hi (by decide)
    subst h4
    have : (4, m) ∈ [(1, 3), (3, 4), (3, 5), (5, 2)] := hm
    simp at this

/-- C65, the part that holds: a branch that is set apart has an edge from its block to
the block that starts with its target, when the target does not come after it.
Missing: jumps forward, and branches that are not set apart. -/
theorem cfg_backward_partial {prog : List CfgInst} (hne : prog ≠ []) (count : Int) (hm : cfgCounter prog count ≤ prog.length) {c : Cfg}
    (h : buildCfg prog count = .ok c) {i t : Nat} (hi : i ∈ cfgLine prog count) (hb : (prog[i]?.getD {}).branch = true)
    (hs : SetApart (fun i => (prog[i]?.getD {}).cond) (fun i => (prog[i]?.getD {}).branch) (cfgLine prog count) i)
    (ht : (prog[i]?.getD {}).target = some t) (htl : t ∈ cfgLine prog count) (hle : t ≤ i) :
    ∃ b ∈ c.nodes, c.insts b = [i] ∧ ∃ n ∈ c.nodes, (c.insts n).head? = some t ∧ (b, n) ∈ c.edges := by
  obtain ⟨c', order, e, I, _⟩ := buildCfg_ok hne count hm (setApart_loop count)
  rw [h] at e
  cases e
  exact I.jump i hi hb hs t ht htl hle

/-! ## C66: removing the conditional nodes -/

/-- C66.  In every graph without repetitions, removing the conditional nodes raises
nothing, keeps the other nodes, their kinds and their instructions, and leaves the
edges from `a` to `b` that stand for the paths over conditional nodes; what can be
reached from what, among the nodes that stay, does not change. -/
theorem cfg_remove_conditionals {c : Cfg} (hn : c.nodes.Nodup) (he : c.edges.Nodup)
    (hE : ∀ u v, (u, v) ∈ c.edges → u ∈ c.nodes ∧ v ∈ c.nodes) :
    ∃ c', c.removeConditionals = .ok c' ∧ c'.kind = c.kind ∧ c'.insts = c.insts ∧
      c'.nodes = c.nodes.filter (fun n => decide (c.kind n ≠ .cond)) ∧ c'.edges.Nodup ∧
      (∀ a b, (a, b) ∈ c'.edges ↔
        Via (fun u v => (u, v) ∈ c.edges) (fun k => c.kind k = .cond) a b ∧ c.kind a ≠ .cond ∧ c.kind b ≠ .cond) ∧
      ∀ a b, c.kind a ≠ .cond → c.kind b ≠ .cond → (Reach c'.neighbors a b ↔ Reach c.neighbors a b) := by
  obtain ⟨es, h1, h2, h3⟩ := removeConditionals_ok hn he hE
  exact ⟨_, h1, rfl, rfl, rfl, h2, h3, fun a b ha hb => reach_bypassed (K := fun k => c.kind k = .cond) h3 ha hb⟩

/-- C63 and C66 together: the conditional nodes of a graph that was built can be removed. -/
theorem cfg_build_remove {prog : List CfgInst} (hne : prog ≠ []) (count : Int) (hm : cfgCounter prog count ≤ prog.length) :
    ∃ c c', buildCfg prog count = .ok c ∧ c.removeConditionals = .ok c' ∧ (∀ n ∈ c'.nodes, c'.kind n ≠ .cond) ∧
      ∀ a b, c.kind a ≠ .cond → c.kind b ≠ .cond → (Reach c'.neighbors a b ↔ Reach c.neighbors a b) := by
  obtain ⟨c, order, e, hn, he, hE, _⟩ := cfg_partition hne count hm
  obtain ⟨c', h1, h2, _, h4, _, _, h7⟩ := cfg_remove_conditionals hn he hE
  refine ⟨c, c', e, h1, fun n hn => ?_, h7⟩
  rw [h4, List.mem_filter, decide_eq_true_eq] at hn
  rw [h2]
  exact hn.2

/-! ## Examples -/

/-- A loop: two instructions under a condition, a jump back and a call. -/
def cfgLoop : List CfgInst :=
  [{}, {}, { cond := 0 }, { cond := 0 }, {}, { branch := true, target := some 1 }, { undefined := true }, { branch := true, link := true }, {}]

example : (buildCfg cfgLoop (-1)).toOption.map (fun c => (c.nodes.map fun n => (n, c.kind n, c.insts n), c.edges)) =
    some ([(1, .root, []), (2, .fin, []), (3, .block, [1]), (4, .block, [2, 3]), (5, .cond, []), (6, .block, [4]), (7, .block, [5]),
      (8, .block, [0]), (9, .block, [7, 8]), (10, .unknown, [])],
      [(5, 4), (3, 5), (4, 6), (5, 6), (6, 7), (1, 8), (8, 3), (7, 3), (6, 9), (9, 10), (10, 2), (9, 2)]) := by decide +kernel

example : cfgLoop ≠ [] ∧ cfgCounter cfgLoop (-1) ≤ cfgLoop.length := by decide

example : cfgLine cfgLoop (-1) = [0, 1, 2, 3, 4, 5, 7, 8] ∧ cfgLoop[3]?.map (·.branch) = some false := by decide

example : SetApart (fun i => (cfgLoop[i]?.getD {}).cond) (fun i => (cfgLoop[i]?.getD {}).branch) (cfgLine cfgLoop (-1)) 5 :=
  Or.inr ⟨[0, 1, 2, 3], 4, [7, 8], by decide, by decide, by decide⟩

/-- Removing the conditional node 5 leads 3 directly to 4 and 6. -/
example : ((buildCfg cfgLoop (-1)).bind Cfg.removeConditionals).toOption.map (fun c => (c.nodes, c.edges)) =
    some ([1, 2, 3, 4, 6, 7, 8, 9, 10],
      [(4, 6), (6, 7), (1, 8), (8, 3), (7, 3), (6, 9), (9, 10), (10, 2), (9, 2), (3, 4), (3, 6)]) := by decide +kernel

end Verif
