import Verif.Proof.CfgExactLoop
import Verif.Props.CfgEdges

/-!
# Property theorems: the control flow graph, exactly (C105, C106)
-/

namespace Verif

open Spec

/-- What is known of the built graph. -/
theorem buildCfg_picture {prog : List CfgInst} {count : Int} {c : Cfg} (hne : prog ≠ []) (h : buildCfg prog count = .ok c) :
    ∃ first, XInv (cfgLine prog count) first
      { ins := fun x => x ∈ cfgLine prog count
        heads := (cfgLineOf prog count).Starts
        conds := (cfgLineOf prog count).Guarded
        unks := (cfgLineOf prog count).Leaves
        edge := fun s t => (cfgLineOf prog count).Edge s t ∨ (s = (cfgLineOf prog count).place (cfgLine prog count) ∧ t = .fin) } c :=
  buildCfg_xinv hne h

theorem cfgLine_nodup (prog : List CfgInst) (count : Int) : (cfgLine prog count).Nodup :=
  (definedOf_sorted prog _).imp fun h => Nat.ne_of_lt h

/-! ## C106: the graph is the one the sequence of instructions determines -/

/-- C106.  A block starts with an instruction exactly when it opens a group, is a
branch, or is the target of a branch that does not come before it; there is a
conditional node for every instruction that opens a group under a condition and an
unknown node for every branch to an unknown place, and no other nodes than these, the
root and the end.  No two nodes have the same beginning or the same end.  There is an
edge from one node to another exactly when the specification has one from the end of
the first to the beginning of the second, or the first is where control is after the
last instruction and the second is the end. -/
theorem C106_graph {prog : List CfgInst} {count : Int} {c : Cfg} (hne : prog ≠ []) (h : buildCfg prog count = .ok c) :
    ∃ first : Nat → Nat,
      (∀ x, (∃ n ∈ c.nodes, c.kind n = .block ∧ (c.insts n).head? = some x) ↔ (cfgLineOf prog count).Starts x) ∧
      (∀ x, (∃ n ∈ c.nodes, c.kind n = .cond ∧ first n = x) ↔ (cfgLineOf prog count).Guarded x) ∧
      (∀ x, (∃ n ∈ c.nodes, c.kind n = .unknown ∧ first n = x) ↔ (cfgLineOf prog count).Leaves x) ∧
      (∀ n ∈ c.nodes, ∀ m ∈ c.nodes, entersBy (c.kind n) (c.insts n) (first n) = entersBy (c.kind m) (c.insts m) (first m) → n = m) ∧
      (∀ n ∈ c.nodes, ∀ m ∈ c.nodes, leavesBy (c.kind n) (c.insts n) (first n) = leavesBy (c.kind m) (c.insts m) (first m) → n = m) ∧
      (∀ s t, (∃ u v, (u, v) ∈ c.edges ∧ leavesBy (c.kind u) (c.insts u) (first u) = s ∧ entersBy (c.kind v) (c.insts v) (first v) = t) ↔
        (cfgLineOf prog count).Edge s t ∨ (s = (cfgLineOf prog count).place (cfgLine prog count) ∧ t = .fin)) ∧
      ∀ u ∈ c.nodes, ∀ v ∈ c.nodes, (u, v) ∈ c.edges ↔
        (cfgLineOf prog count).Edge (leavesBy (c.kind u) (c.insts u) (first u)) (entersBy (c.kind v) (c.insts v) (first v)) ∨
          (leavesBy (c.kind u) (c.insts u) (first u) = (cfgLineOf prog count).place (cfgLine prog count) ∧ c.kind v = .fin) := by
  obtain ⟨first, I⟩ := buildCfg_picture hne h
  refine ⟨first, fun x => ?_, fun x => (I.conds x).symm, fun x => (I.unks x).symm, fun n hn m hm => I.dst_inj hn hm,
    fun n hn m hm => I.src_inj hn hm, fun s t => (I.edge s t).symm, fun u hu v hv => ?_⟩
  · refine Iff.trans ?_ (I.heads x).symm
    refine ⟨fun ⟨n, hn, _, h⟩ => ⟨n, hn, h⟩, fun ⟨n, hn, h⟩ => ⟨n, hn, I.isBlock hn (List.mem_of_mem_head? h), h⟩⟩
  · refine (I.edge_iff hu hv).trans (or_congr_right (and_congr_right fun _ => ?_))
    unfold Cfg.dst entersBy
    cases c.kind v <;> simp

/-- C106: there are a root and an end. -/
theorem C106_ends {prog : List CfgInst} {count : Int} {c : Cfg} (hne : prog ≠ []) (h : buildCfg prog count = .ok c) :
    (∃ r ∈ c.nodes, ∀ n ∈ c.nodes, c.kind n = .root ↔ n = r) ∧ ∃ e ∈ c.nodes, ∀ n ∈ c.nodes, c.kind n = .fin ↔ n = e := by
  obtain ⟨first, I⟩ := buildCfg_picture hne h
  have hr : ∃ n ∈ c.nodes, c.kind n = .root := by
    have hu : ∀ {u v t}, (u, v) ∈ c.edges → c.src first u = .root → c.dst first v = t → ∃ n ∈ c.nodes, c.kind n = .root := by
      intro u v t huv hs _
      refine ⟨u, (I.ends u v huv).1, ?_⟩
      unfold Cfg.src leavesBy at hs
      cases hk : c.kind u <;> rw [hk] at hs <;> cases hs
    cases hl : cfgLine prog count with
    | nil =>
      obtain ⟨u, v, h1, h2, h3⟩ := (I.edge .root .fin).1 (Or.inr ⟨by rw [hl]; rfl, rfl⟩)
      exact hu h1 h2 h3
    | cons k r =>
      have he : (cfgLineOf prog count).Edge .root ((cfgLineOf prog count).entry k) := .flow (d := []) (r := r) hl rfl trivial
      obtain ⟨u, v, h1, h2, h3⟩ := (I.edge _ _).1 (Or.inl he)
      exact hu h1 h2 h3
  obtain ⟨r, hr1, hr2⟩ := hr
  refine ⟨⟨r, hr1, fun n hn => ⟨fun h => ?_, fun h => h ▸ hr2⟩⟩, ⟨2, I.fin.1, fun n hn => ⟨I.two n hn, fun h => h ▸ I.fin.2⟩⟩⟩
  rw [I.one n hn h, I.one r hr1 hr2]

/-- C106: of two defined instructions in a row the second comes after the first in one
block exactly when no block starts with it. -/
theorem C106_blocks {prog : List CfgInst} {count : Int} {c : Cfg} (hne : prog ≠ []) (h : buildCfg prog count = .ok c) {d r : List Nat}
    {a k : Nat} (hl : cfgLine prog count = d ++ a :: k :: r) :
    (∃ n ∈ c.nodes, ∃ p q, c.insts n = p ++ a :: k :: q) ↔ ¬ (cfgLineOf prog count).Starts k := by
  obtain ⟨first, I⟩ := buildCfg_picture hne h
  exact I.together (cfgLine_nodup prog count) hl (show k ∈ cfgLine prog count by rw [hl]; simp)

/-- C64: exactly when a branch is followed by another instruction in its block: when
that one has the same condition, the branch opens a group, and the other is no branch
and no target of a branch that does not come before it. -/
theorem C64_exact {prog : List CfgInst} {count : Int} {c : Cfg} (hne : prog ≠ []) (h : buildCfg prog count = .ok c) {d r : List Nat}
    {a k : Nat} (hl : cfgLine prog count = d ++ a :: k :: r) (hb : (prog[a]?.getD {}).branch = true) :
    (∃ n ∈ c.nodes, ∃ p q, c.insts n = p ++ a :: k :: q) ↔
      (prog[a]?.getD {}).cond = (prog[k]?.getD {}).cond ∧ (cfgLineOf prog count).opens d a = true ∧ (prog[k]?.getD {}).branch = false ∧
      ∀ j ∈ r, ¬ ((prog[j]?.getD {}).branch = true ∧ (prog[j]?.getD {}).target = some k) := by
  rw [C106_blocks hne h hl]
  have hopen : (cfgLineOf prog count).opens (d ++ [a]) k =
      ((prog[a]?.getD {}).cond != (prog[k]?.getD {}).cond || !(cfgLineOf prog count).opens d a) := by
    show Opens _ _ (d ++ [a]).reverse k = _
    rw [List.reverse_append, List.reverse_singleton, List.singleton_append, Opens]
    show ((prog[a]?.getD {}).cond != (prog[k]?.getD {}).cond || ((prog[a]?.getD {}).branch && !_)) = _
    rw [hb]
    rfl
  have hl2 : cfgLine prog count = (d ++ [a]) ++ k :: r := by rw [hl]; simp
  have hst : (cfgLineOf prog count).Starts k ↔ (cfgLineOf prog count).opens (d ++ [a]) k = true ∨ (prog[k]?.getD {}).branch = true ∨
      ∃ j ∈ k :: r, (prog[j]?.getD {}).branch = true ∧ (prog[j]?.getD {}).target = some k := by
    refine ⟨?_, fun h => ⟨d ++ [a], r, hl2, h⟩⟩
    rintro ⟨d', r', h1, h2⟩
    have h1 : cfgLine prog count = d' ++ k :: r' := h1
    obtain ⟨rfl, rfl⟩ := nodup_cut (by rw [← hl2]; exact cfgLine_nodup prog count) (hl2.symm.trans h1)
    exact h2
  rw [hst, hopen]
  constructor
  · intro hh
    rw [not_or, not_or] at hh
    obtain ⟨h1, h2, h3⟩ := hh
    have h1 := Bool.eq_false_iff.2 h1
    rw [Bool.or_eq_false_iff] at h1
    refine ⟨by simpa using h1.1, by simpa using h1.2, by simpa using h2, fun j hj hc => h3 ⟨j, List.mem_cons_of_mem _ hj, hc⟩⟩
  · rintro ⟨h1, h2, h3, h4⟩ (h | h | ⟨j, hj, hc⟩)
    · rw [h1, h2] at h
      simp at h
    · rw [h3] at h
      cases h
    · rcases List.mem_cons.1 hj with rfl | hj
      · rw [h3] at hc
        cases hc.1
      · exact h4 j hj hc

/-! ## C105: no transfer of control is missing -/

/-- C105 is false: when the condition of the last group does not hold the program ends,
but the conditional node has no edge but the one for when it does. -/
theorem C105_end_refuted : ∃ prog c w, buildCfg prog (-1) = .ok c ∧ w ∈ c.nodes ∧ c.kind w = .cond ∧
    ∀ v ∈ c.nodes, (w, v) ∈ c.edges → c.insts v = [0] :=
  ⟨[{ cond := 0 }], _, 4, rfl, by decide, by decide, by decide⟩

/-- C105 is false: after a call of a known instruction nothing leads to the instruction
after the call. -/
theorem C105_return_refuted : ∃ prog c, buildCfg prog (-1) = .ok c ∧ prog[1]? = some { branch := true, link := true, target := some 0 } ∧
    (∃ n ∈ c.nodes, c.insts n = [1]) ∧ (∃ m ∈ c.nodes, c.insts m = [2]) ∧
    ∀ n ∈ c.nodes, ∀ m ∈ c.nodes, c.insts m = [2] → (n, m) ∉ c.edges :=
  ⟨[{}, { branch := true, link := true, target := some 0 }, {}], _, rfl, rfl, ⟨4, by decide, by decide⟩, ⟨5, by decide, by decide⟩,
    by decide⟩

/-- C65 is false of jumps back as well: an instruction of the same group was put into
the block of the jump to itself and then cut off by a later jump; the edge of the first
jump leaves from the part cut off, and there is none from the jump to itself. -/
theorem C65_moved_refuted : ∃ prog c b v, buildCfg prog (-1) = .ok c ∧ prog[0]? = some { branch := true, target := some 0 } ∧
    c.insts b = [0] ∧ c.insts v = [1] ∧ (b, b) ∉ c.edges ∧ (v, b) ∈ c.edges :=
  ⟨[{ branch := true, target := some 0 }, {}, { branch := true, target := some 1 }], _, 5, 3, rfl, rfl, by decide, by decide, by decide,
    by decide⟩

/-- C105, the part that holds.  The root leads to the first instruction.  A conditional
node leads to its instruction and to the group after its own.  A jump back leads to its
target, from the block that ends with the last instruction put after the jump; a
branch to an unknown place leads there in the same way, and from there to the end.
When the last instruction is no branch it leads to the end.  (For instructions that
are no branches see `cfg_straight`.)  Missing: jumps forward, calls that come back, and
the end when the condition of the last group does not hold. -/
theorem C105_covered_partial {prog : List CfgInst} {count : Int} {c : Cfg} (hne : prog ≠ []) (h : buildCfg prog count = .ok c) :
    ∃ first : Nat → Nat,
      (∀ k r, cfgLine prog count = k :: r → ∃ u v, (u, v) ∈ c.edges ∧ c.kind u = .root ∧ Enters c.kind c.insts first v k) ∧
      (∀ x, (cfgLineOf prog count).Guarded x → ∃ u v, (u, v) ∈ c.edges ∧ c.kind u = .cond ∧ first u = x ∧ (c.insts v).head? = some x) ∧
      (∀ x k, (cfgLineOf prog count).Guarded x → (cfgLineOf prog count).NextGroup x k →
        ∃ u v, (u, v) ∈ c.edges ∧ c.kind u = .cond ∧ first u = x ∧ Enters c.kind c.insts first v k) ∧
      (∀ d i r t, cfgLine prog count = d ++ i :: r → (prog[i]?.getD {}).branch = true → (prog[i]?.getD {}).target = some t → t ∈ d ++ [i] →
        ∃ j, (cfgLineOf prog count).RunsTo i j ∧ ∃ u v, (u, v) ∈ c.edges ∧ (c.insts u).getLast? = some j ∧ (c.insts v).head? = some t) ∧
      (∀ i ∈ cfgLine prog count, (prog[i]?.getD {}).branch = true → (prog[i]?.getD {}).target = none →
        ∃ j, (cfgLineOf prog count).RunsTo i j ∧ ∃ u w e, (u, w) ∈ c.edges ∧ (w, e) ∈ c.edges ∧ (c.insts u).getLast? = some j ∧
          c.kind w = .unknown ∧ first w = i ∧ c.kind e = .fin) ∧
      ∀ d i, cfgLine prog count = d ++ [i] → (prog[i]?.getD {}).branch = false →
        ∃ u e, (u, e) ∈ c.edges ∧ (c.insts u).getLast? = some i ∧ c.kind e = .fin := by
  obtain ⟨first, I⟩ := buildCfg_picture hne h
  have get : ∀ {s t}, (cfgLineOf prog count).Edge s t → ∃ u v, (u, v) ∈ c.edges ∧ u ∈ c.nodes ∧ v ∈ c.nodes ∧ c.src first u = s ∧
      c.dst first v = t := fun {s t} he => by
    obtain ⟨u, v, h1, h2, h3⟩ := (I.edge s t).1 (Or.inl he)
    exact ⟨u, v, h1, (I.ends u v h1).1, (I.ends u v h1).2, h2, h3⟩
  refine ⟨first, ?_, ?_, ?_, ?_, ?_, ?_⟩
  · intro k r hl
    obtain ⟨u, v, h1, h2, h3, h4, h5⟩ := get (.flow (d := []) (r := r) (k := k) hl rfl trivial)
    refine ⟨u, v, h1, ?_, nodeOfEntry I h3 h5⟩
    have h4 : c.src first u = .root := h4
    unfold Cfg.src leavesBy at h4
    cases hk : c.kind u <;> rw [hk] at h4 <;> cases h4
  · intro x hx
    obtain ⟨u, v, h1, h2, h3, h4, h5⟩ := get (.holds hx)
    obtain ⟨g1, g2⟩ := src_cond h4
    exact ⟨u, v, h1, g1, g2, (dst_block I h3 h5).2⟩
  · rintro x k ⟨d', r', e1, e2, e3⟩ ⟨d, m, r, e4, e5, e6⟩
    have e1 : cfgLine prog count = d' ++ x :: r' := e1
    have e4 : cfgLine prog count = d ++ x :: (m ++ k :: r) := e4
    obtain ⟨rfl, _⟩ := nodup_cut (by rw [← e4]; exact cfgLine_nodup prog count) (e4.symm.trans e1)
    have hg := guard_run (cfgLineOf prog count) e2 e3 e5
    obtain ⟨u, v, h1, h2, h3, h4, h5⟩ := get (.skip (d := d ++ x :: m) (r := r) (k := k) (by
      show cfgLine prog count = _
      rw [e4]; simp) e6 hg)
    obtain ⟨g1, g2⟩ := src_cond h4
    exact ⟨u, v, h1, g1, g2, nodeOfEntry I h3 h5⟩
  · intro d i r t hl hb ht hm
    obtain ⟨j, hj⟩ : ∃ j, (cfgLineOf prog count).RunsTo i j := runsTo_exists (prog := prog) hl
    obtain ⟨u, v, h1, h2, h3, h4, h5⟩ := get (.jump (d := d) (r := r) hl hb ht hm hj)
    exact ⟨j, hj, u, v, h1, (src_block I h2 h4).2, (dst_block I h3 h5).2⟩
  · intro i hi hb ht
    obtain ⟨d, r, hl⟩ := List.append_of_mem hi
    obtain ⟨j, hj⟩ : ∃ j, (cfgLineOf prog count).RunsTo i j := runsTo_exists (prog := prog) hl
    have hlv : (cfgLineOf prog count).Leaves i := ⟨hi, hb, ht⟩
    obtain ⟨u, w, h1, h2, h3, h4, h5⟩ := get (.leave hlv hj)
    obtain ⟨w', e, g1, g2, g3, g4, g5⟩ := get (.away hlv)
    have hw : c.kind w = .unknown ∧ first w = i := by
      unfold Cfg.dst entersBy at h5
      cases hk : c.kind w <;> rw [hk] at h5 <;> cases h5
      exact ⟨rfl, rfl⟩
    have hww : w' = w := I.src_inj g2 h3 (by
      rw [g4]
      unfold Cfg.src leavesBy
      rw [hw.1, hw.2])
    subst hww
    refine ⟨j, hj, u, w', e, h1, g1, (src_block I h2 h4).2, hw.1, hw.2, ?_⟩
    unfold Cfg.dst entersBy at g5
    cases hk : c.kind e <;> rw [hk] at g5 <;> cases g5
  · intro d i hl hb
    have hp : (cfgLineOf prog count).place (cfgLine prog count) = .block i := by
      rw [hl]
      refine (place_snoc prog (cfgLine prog count) d i).trans (if_neg ?_)
      rw [show (lineOf prog (cfgLine prog count)).branch i = false from hb]
      simp
    obtain ⟨u, v, h1, h2, h3⟩ := (I.edge (.block i) .fin).1 (Or.inr ⟨hp.symm, rfl⟩)
    refine ⟨u, v, h1, (src_block I (I.ends u v h1).1 h2).2, ?_⟩
    unfold Cfg.dst entersBy at h3
    cases hk : c.kind v <;> rw [hk] at h3 <;> cases h3

/-- C105: in no program a conditional node leads to the end. -/
theorem C105_end {prog : List CfgInst} {count : Int} {c : Cfg} (hne : prog ≠ []) (h : buildCfg prog count = .ok c) {u v : Nat}
    (huv : (u, v) ∈ c.edges) (hu : c.kind u = .cond) : c.kind v ≠ .fin := by
  obtain ⟨first, I⟩ := buildCfg_picture hne h
  intro hv
  have hs : c.src first u = .cond (first u) := by unfold Cfg.src leavesBy; rw [hu]
  have ht : c.dst first v = .fin := by unfold Cfg.dst entersBy; rw [hv]
  rcases (I.edge _ _).2 ⟨u, v, huv, hs, ht⟩ with he | ⟨he, _⟩
  · have hent : ∀ k, (cfgLineOf prog count).entry k ≠ .fin := fun k => by
      unfold Line.entry
      split <;> simp
    generalize hfin : CfgEnd.fin = t at he
    generalize hco : CfgEnd.cond (first u) = s at he
    cases he with
    | flow _ _ _ => exact hent _ hfin.symm
    | skip _ _ _ => exact hent _ hfin.symm
    | holds _ => cases hfin
    | cut _ _ _ => cases hfin
    | leave _ _ => cases hfin
    | away _ => cases hco
    | jump _ _ _ _ _ => cases hfin
  · rcases List.eq_nil_or_concat (cfgLine prog count) with hl | ⟨d, i, hl⟩
    · rw [hl] at he
      cases he
    · rw [List.concat_eq_append] at hl
      rw [hl] at he
      have he := he.trans (place_snoc prog (cfgLine prog count) d i)
      split at he
      · split at he
        · split at he <;> cases he
        · split at he <;> cases he
      · cases he

/-- C105: exactly when the graph leads from a branch to the instruction after it,
directly or by way of the unknown place: when that instruction belongs to the same
group, or the branch is a call of an unknown place that opens no group. -/
theorem C105_return {prog : List CfgInst} {count : Int} {c : Cfg} (hne : prog ≠ []) (h : buildCfg prog count = .ok c) {d r : List Nat}
    {i k : Nat} (hl : cfgLine prog count = d ++ i :: k :: r) (hb : (prog[i]?.getD {}).branch = true) :
    ∃ first : Nat → Nat, (∀ n ∈ c.nodes, c.kind n = .unknown → (cfgLineOf prog count).Leaves (first n)) ∧
      (∀ n ∈ c.nodes, c.kind n = .cond → (cfgLineOf prog count).Guarded (first n)) ∧
      ((Follows c.nodes c.insts (fun w => c.kind w = .cond) (fun u v => (u, v) ∈ c.edges) i k ∨
          ∃ u v, (u, v) ∈ c.edges ∧ c.kind u = .unknown ∧ first u = i ∧ Enters c.kind c.insts first v k) ↔
        (cfgLineOf prog count).opens (d ++ [i]) k = false ∨
          ((cfgLineOf prog count).opens d i = false ∧ (prog[i]?.getD {}).link = true ∧ (prog[i]?.getD {}).target = none)) := by
  obtain ⟨first, I⟩ := buildCfg_picture hne h
  refine ⟨first, fun n hn hk => (I.unks _).2 ⟨n, hn, hk, rfl⟩, fun n hn hk => (I.conds _).2 ⟨n, hn, hk, rfl⟩, ?_⟩
  have hn := cfgLine_nodup prog count
  have hl2 : cfgLine prog count = (d ++ [i]) ++ k :: r := by rw [hl]; simp
  have hki : k ≠ i := by
    rintro rfl
    rw [hl] at hn
    simp [List.nodup_append] at hn
  -- where the edges from a block that ends with the branch, or its unknown node, lead to
  have key : ∀ t, (cfgLineOf prog count).Edge (.block i) t →
      (t = .block k ∧ (cfgLineOf prog count).opens (d ++ [i]) k = false) ∨ t = .unknown i ∨ ∃ k', t = .block k' ∧ k' ≠ k := by
    intro t he
    have pass : ∀ e : CfgEnd, CfgEnd.block i = e → ¬ (cfgLineOf prog count).passes e := by
      rintro e rfl h
      have h : (prog[i]?.getD {}).branch = false := h
      rw [hb] at h
      cases h
    have run : ∀ {i' j}, (cfgLineOf prog count).RunsTo i' j → j = i → i' = i := by
      rintro i' j ⟨d', m, r', h1, h2, h3, _⟩ rfl
      rcases List.eq_nil_or_concat m with rfl | ⟨m', y, rfl⟩
      · exact Option.some.inj h2
      · rw [List.concat_eq_append] at h2 h3
        rw [show i' :: (m' ++ [y]) = (i' :: m') ++ [y] by simp, List.getLast?_concat] at h2
        cases h2
        have h4 : (prog[j]?.getD {}).branch = false := (h3 m' j [] rfl).1
        rw [hb] at h4
        cases h4
    generalize hs : CfgEnd.block i = s at he
    cases he with
    | flow _ _ h3 => exact absurd h3 (pass _ hs)
    | skip _ _ _ => cases hs
    | holds _ => cases hs
    | @cut d' r' a k' h1 h2 h3 =>
      cases hs
      have h1 : cfgLine prog count = d' ++ i :: k' :: r' := h1
      obtain ⟨rfl, e⟩ := nodup_cut (by rw [← hl]; exact hn) (hl.symm.trans h1)
      cases e
      exact Or.inl ⟨rfl, h2⟩
    | leave h1 h2 =>
      cases hs
      rw [run h2 rfl]
      exact Or.inr (Or.inl rfl)
    | away _ => cases hs
    | @jump d' r' i' j t' h1 h2 h3 h4 h5 =>
      cases hs
      have := run h5 rfl
      subst this
      have h1 : cfgLine prog count = d' ++ i' :: r' := h1
      obtain ⟨rfl, e⟩ := nodup_cut (by rw [← hl]; exact hn) (hl.symm.trans h1)
      refine Or.inr (Or.inr ⟨t', rfl, ?_⟩)
      rintro rfl
      rw [hl2, List.nodup_append] at hn
      exact hn.2.2 t' h4 t' (by simp) rfl
  have src : ∀ {u}, u ∈ c.nodes → (c.insts u).getLast? = some i → c.src first u = .block i := fun {u} hu h =>
    src_eq_last (I.isBlock hu (List.mem_of_getLast? h)) h
  have edge : ∀ {u v}, (u, v) ∈ c.edges → (c.insts u).getLast? = some i →
      (cfgLineOf prog count).Edge (.block i) (c.dst first v) ∨ c.dst first v = .fin := by
    intro u v huv hu
    rcases (I.edge _ _).2 ⟨u, v, huv, src (I.ends u v huv).1 hu, rfl⟩ with h | h
    · exact Or.inl h
    · exact Or.inr h.2
  constructor
  · rintro (hf | ⟨u, v, huv, hk, hfi, hv⟩)
    · rcases hf with hf | ⟨u, hu, v, hv, hl', hh, huv | ⟨w, hw, huw, hwv⟩⟩
      · rw [I.together hn hl (show k ∈ cfgLine prog count by rw [hl]; simp)] at hf
        refine Or.inl (Bool.eq_false_iff.2 fun ho => hf ⟨d ++ [i], r, hl2, Or.inl ho⟩)
      · have hd : c.dst first v = .block k := dst_eq_head (I.isBlock hv (List.mem_of_mem_head? hh)) hh
        have he := edge huv hl'
        rw [hd] at he
        rcases he with he | he
        · rcases key _ he with h | h | ⟨k', h, h'⟩
          · exact Or.inl h.2
          · cases h
          · cases h
            exact absurd rfl h'
        · cases he
      · have hd : c.dst first w = .cond (first w) := by
          unfold Cfg.dst entersBy
          rw [hw]
        have he := edge huw hl'
        rw [hd] at he
        rcases he with he | he
        · rcases key _ he with h | h | ⟨k', h, h'⟩
          · cases h.1
          · cases h
          · cases h
        · cases he
    · have hs : c.src first u = .unknown i := by
        unfold Cfg.src leavesBy
        rw [hk, hfi]
      have hd : c.dst first v = .block k ∨ c.dst first v = .cond k := by
        rcases hv with ⟨h1, h2⟩ | ⟨h1, h2⟩
        · exact Or.inl (dst_eq_head h1 h2)
        · refine Or.inr ?_
          unfold Cfg.dst entersBy
          rw [h1, h2]
      have he := (I.edge _ _).2 ⟨u, v, huv, hs, rfl⟩
      rcases he with he | ⟨_, he⟩
      · generalize hs' : CfgEnd.unknown i = s at he
        generalize ht' : c.dst first v = t at he
        cases he with
        | @flow d' r' k' h1 h2 h3 =>
          have h1 : cfgLine prog count = d' ++ k' :: r' := h1
          rcases List.eq_nil_or_concat d' with rfl | ⟨d'', y, rfl⟩
          · cases hs'
          · rw [List.concat_eq_append] at hs' h1
            have hp := hs'.trans (place_snoc prog (cfgLine prog count) d'' y)
            split at hp
            · rename_i hop
              split at hp
              · rename_i hlk
                split at hp
                · rename_i htg
                  cases hp
                  have h1' : cfgLine prog count = d'' ++ i :: (k' :: r') := by rw [h1]; simp
                  obtain ⟨rfl, _⟩ := nodup_cut (by rw [← hl]; exact hn) (hl.symm.trans h1')
                  rw [Bool.and_eq_true] at hop
                  have hop2 : (!(cfgLineOf prog count).opens d i) = true := hop.2
                  exact Or.inr ⟨by simpa using hop2, hlk, htg⟩
                · cases hp
              · split at hp <;> cases hp
            · cases hp
        | skip _ _ _ => cases hs'
        | holds _ => cases hs'
        | cut _ _ _ => cases hs'
        | leave _ _ => cases hs'
        | away _ =>
          rw [ht'] at hd
          rcases hd with h | h <;> cases h
        | jump _ _ _ _ _ => cases hs'
      · rw [he] at hd
        rcases hd with h | h <;> cases h
  · rintro (ho | ⟨ho, hlk, htg⟩)
    · left
      by_cases hst : (cfgLineOf prog count).Starts k
      · obtain ⟨u, v, h1, h2, h3⟩ := (I.edge _ _).1 (Or.inl (.cut hl ho hst))
        have hu := (I.ends u v h1).1
        have hv := (I.ends u v h1).2
        exact Or.inr ⟨u, hu, v, hv, (src_block I hu h2).2, (dst_block I hv h3).2, Or.inl h1⟩
      · exact Or.inl ((I.together hn hl (show k ∈ cfgLine prog count by rw [hl]; simp)).2 hst)
    · right
      have hp : (cfgLineOf prog count).place (d ++ [i]) = .unknown i := by
        refine (place_snoc prog (cfgLine prog count) d i).trans ?_
        rw [if_pos, if_pos]
        · show (match (prog[i]?.getD {}).target with
            | none => CfgEnd.unknown i
            | some _ => .block i) = _
          rw [htg]
        · exact hlk
        · rw [show (lineOf prog (cfgLine prog count)).branch i = true from hb,
            show (lineOf prog (cfgLine prog count)).opens d i = false from ho]
          rfl
      have hop : (cfgLineOf prog count).opens (d ++ [i]) k = true := by
        show Opens _ _ (d ++ [i]).reverse k = _
        rw [List.reverse_append, List.reverse_singleton, List.singleton_append, Opens, Bool.or_eq_true]
        right
        rw [show (cfgLineOf prog count).branch i = true from hb,
          show Opens (cfgLineOf prog count).cond (cfgLineOf prog count).branch d.reverse i = false from ho]
        rfl
      obtain ⟨u, v, h1, h2, h3⟩ := (I.edge _ _).1 (Or.inl (.flow (d := d ++ [i]) (r := r) (k := k) hl2 hop (by rw [hp]; trivial)))
      rw [hp] at h2
      have hu : c.kind u = .unknown ∧ first u = i := by
        unfold Cfg.src leavesBy at h2
        cases hk : c.kind u <;> rw [hk] at h2 <;> cases h2
        exact ⟨rfl, rfl⟩
      exact ⟨u, v, h1, hu.1, hu.2, nodeOfEntry I (I.ends u v h1).2 h3⟩

/-! ## Examples -/

/-- Two instructions, a call of an unknown place under the same condition, and one more:
the call is left for the unknown place, which leads back to the last instruction. -/
def cfgCall : List CfgInst := [{}, {}, { branch := true, link := true }, {}]

example : (buildCfg cfgCall (-1)).toOption.map (fun c => (c.nodes, c.nodes.map c.insts, c.edges)) =
    some ([1, 2, 3, 4, 5, 6], [[], [], [0, 1], [2], [], [3]], [(1, 3), (3, 4), (4, 5), (5, 2), (5, 6), (6, 2)]) := by decide +kernel

example : cfgLine cfgCall (-1) = [0, 1] ++ 2 :: 3 :: [] := by decide

example : (cfgLineOf cfgCall (-1)).opens [0, 1] 2 = false ∧ (cfgLineOf cfgCall (-1)).opens [0, 1, 2] 3 = true := by decide

/-- The jump back of the loop of the other file is made from a group of its own. -/
example : (cfgLineOf cfgLoop (-1)).Guarded 2 := ⟨[0, 1], [3, 4, 5, 7, 8], by decide, by decide, by decide⟩

example : (cfgLineOf cfgCall (-1)).place (cfgLine cfgCall (-1)) = .block 3 := by decide

end Verif
