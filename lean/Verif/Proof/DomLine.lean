import Mathlib.Data.List.Nodup
import Verif.Proof.Frontier
import Verif.Proof.Run
import Verif.Model.Frontier

/-!
# Helper lemmas: neighbours in a line and the order of the dominator tree
-/

namespace Verif

open Spec (Path Reach Dom Idom)

theorem dom_of_preds {succ : Nat → List Nat} {root n w : Nat} (hw : w ≠ root)
    (h : ∀ v, w ∈ succ v → Dom succ root n v) : Dom succ root n w := by
  intro l p
  rcases Path.first_edge p (· = w) rfl with h1 | ⟨v, y, m, q1, q2, q3, _, q5⟩
  · exact absurd h1.symm hw
  · subst q3
    exact q5 _ (h v q2 m q1)

/-- Two blocks that follow each other: if every predecessor of the second but the first is
one of the first, and the first is not the immediate dominator of the second, they have
the same one. -/
theorem idom_same {succ : Nat → List Nat} {root m w n d : Nat} (hw : w ≠ root) (hrw : Reach succ root w) (e : w ∈ succ m)
    (hpre : ∀ v, w ∈ succ v → v = m ∨ m ∈ succ v) (hn : Idom succ root n m) (hd : Idom succ root d w) (hdm : d ≠ m) : d = n := by
  have hall : ∀ v, w ∈ succ v → Dom succ root n v := by
    intro v hv
    rcases hpre v hv with rfl | h
    · exact hn.2.1
    · exact dom_pred h hn.2.1 hn.1
  have hnw : Dom succ root n w := dom_of_preds hw hall
  have hne : n ≠ w := by
    rintro rfl
    obtain ⟨l, p⟩ := hrw
    rcases Path.first_edge p (· = n) rfl with h1 | ⟨v, y, k, q1, q2, q3, q4, _⟩
    · exact hw h1.symm
    · subst q3
      exact q4 _ (hall v q2 k q1) rfl
  have h1 : Dom succ root n d := hd.2.2 n hne hnw
  have h2 : Dom succ root d n := hn.2.2 d hdm (dom_pred e hd.2.1 hd.1)
  exact dom_antisymm (dom_reach hrw hnw) h2 h1

/-- The only predecessor is the immediate dominator. -/
theorem idom_only {succ : Nat → List Nat} {root m w : Nat} (hw : w ≠ root) (hmw : m ≠ w) (e : w ∈ succ m)
    (hpre : ∀ v, w ∈ succ v → v = m) : Idom succ root m w := by
  refine ⟨hmw, dom_of_preds hw fun v hv => by rw [hpre v hv]; exact dom_refl, fun f hf h => dom_pred e h hf⟩

/-- The blocks below a block are listed in the order of the graph. -/
theorem tree_filter (idom : Nat → Option Nat) (ns : List Nat) : ∀ (acc : (Nat → List Nat) × List (Nat × Nat)), ns.Nodup →
    (∀ d, ∀ n ∈ ns, n ∉ acc.1 d) →
    ∀ d, (ns.foldl (treeStep idom) acc).1 d = acc.1 d ++ ns.filter (fun n => decide (idom n = some d)) := by
  induction ns with
  | nil => intro acc _ _ d; simp
  | cons m ns ih =>
    intro acc hn ha d
    obtain ⟨hm, hn⟩ := List.nodup_cons.1 hn
    rw [List.foldl_cons]
    cases hi : idom m with
    | none =>
      have : treeStep idom acc m = acc := by unfold treeStep; rw [hi]
      rw [this, ih acc hn (fun d n h => ha d n (List.mem_cons_of_mem _ h)) d, List.filter_cons_of_neg (by rw [hi]; simp)]
    | some e =>
      have h1 : (treeStep idom acc m).1 = put acc.1 e (acc.1 e ++ [m]) := by
        unfold treeStep
        rw [hi]
        exact if_neg (ha e m (by simp))
      rw [ih _ hn, h1]
      · by_cases hde : d = e
        · subst hde
          rw [List.filter_cons_of_pos (by rw [hi]; simp)]
          simp [put]
        · rw [List.filter_cons_of_neg (by rw [hi]; simp [Ne.symm hde])]
          simp [put, hde]
      · intro d n hn'
        rw [h1]
        unfold put
        split
        · rename_i hde
          rw [List.mem_append, List.mem_singleton]
          rintro (h | rfl)
          · exact ha e n (List.mem_cons_of_mem _ hn') h
          · exact hm hn'
        · exact ha d n (List.mem_cons_of_mem _ hn')

theorem domSucc_filter {g : FlowGraph} {fuel root : Nat} {t : DomTree} (h : buildDominatorTree g fuel root = (pure t : Run DomTree))
    (hn : g.nodes.Nodup) (d : Nat) : t.domSucc d = g.nodes.filter (fun n => decide (t.idom n = some d)) := by
  unfold buildDominatorTree at h
  obtain ⟨a, _, h⟩ := run_bind_inv h
  obtain ⟨b, _, h⟩ := run_bind_inv h
  obtain ⟨s, _, h⟩ := run_bind_inv h
  have := run_pure_inj h
  subst this
  show (g.nodes.foldl (treeStep (put s.idom root none)) (fun _ => [], [])).1 d = _
  rw [tree_filter _ _ _ hn (by simp)]
  simp

theorem filter_last {P : Nat → Bool} {m w : Nat} {xs ys : List Nat} (hn : (xs ++ m :: ys).Nodup) (hw : w ∈ ys) (hp : P w = true)
    (h : ((xs ++ m :: ys).filter P).getLast? = some m) : False := by
  have e : xs ++ m :: ys = (xs ++ [m]) ++ ys := by simp
  have hwy : w ∈ ys.filter P := List.mem_filter.2 ⟨hw, hp⟩
  rw [e, List.filter_append, List.getLast?_append_of_ne_nil _ (List.ne_nil_of_mem hwy)] at h
  exact (List.nodup_cons.1 (List.nodup_append.1 hn).2.1).1 (List.mem_filter.1 (List.mem_of_getLast? h)).1

/-- The last block below a block is the last of the graph's. -/
theorem domSucc_last {g : FlowGraph} {fuel root : Nat} {t : DomTree} (h : buildDominatorTree g fuel root = (pure t : Run DomTree))
    (hn : g.nodes.Nodup) {d m w : Nat} {xs ys : List Nat} (hxy : g.nodes = xs ++ m :: ys) (hw : w ∈ ys)
    (hlast : (t.domSucc d).getLast? = some m) : w ∉ t.domSucc d := by
  intro hwd
  rw [domSucc_filter h hn] at hlast hwd
  rw [hxy] at hlast hn
  exact filter_last hn hw (List.mem_filter.1 hwd).2 hlast

/-- An end block gets no merge function. -/
theorem placeAt_end {isEnd : Nat → Bool} {x d : Nat} (hd : isEnd d = true) (l : List Nat) : ∀ acc : List Nat × Phis,
    (l.foldl (placeAt isEnd x) acc).2 d = acc.2 d := by
  induction l with
  | nil => intro acc; rfl
  | cons a l ih =>
    intro acc
    rw [List.foldl_cons, ih]
    unfold placeAt
    by_cases ha : isEnd a = true
    · rw [if_pos ha]
    · rw [if_neg ha]
      have hne : d ≠ a := by rintro rfl; exact ha hd
      show (if (dictGet (acc.2 a) (x, 0)).isSome then acc.2 else put acc.2 a (dictSet (acc.2 a) (x, 0) [])) d = _
      split
      · rfl
      · simp [put, hne]

theorem workLoop_end {df : Nat → List Nat} {isEnd : Nat → Bool} {x d : Nat} (hd : isEnd d = true) : ∀ (fuel i : Nat) (wl : List Nat)
    (phis r : Phis), workLoop df isEnd x fuel i wl phis = (pure r : Run Phis) → r d = phis d := by
  intro fuel
  induction fuel with
  | zero => intro i wl phis r h; cases h
  | succ fuel ih =>
    intro i wl phis r h
    unfold workLoop at h
    split at h
    · rw [run_pure_inj h]
    · rw [ih _ _ _ _ h, placeAt_end hd]

theorem placeVars_end {df : Nat → List Nat} {isEnd : Nat → Bool} {fuel d : Nat} (hd : isEnd d = true) (blocks : List (Nat × List Nat)) (l : List Nat) :
    ∀ (phis r : Phis), l.foldlM (placeVar df isEnd fuel blocks) phis = (pure r : Run Phis) → r d = phis d := by
  induction l with
  | nil => intro phis r h; rw [run_pure_inj h]
  | cons x l ih =>
    intro phis r h
    rw [List.foldlM_cons] at h
    obtain ⟨p, h1, h2⟩ := run_bind_inv h
    rw [ih p r h2]
    unfold placeVar at h1
    split at h1
    · rw [run_pure_inj h1]
    · exact workLoop_end hd _ _ _ _ _ h1

theorem phis_end {nodes : List Nat} {insts : Nat → List Access} {df : Nat → List Nat} {isEnd : Nat → Bool} {fuel d : Nat}
    {gl : List Nat} {phis : Phis} (h : placePhiNodes nodes insts df isEnd fuel true = (pure (gl, phis) : Run (List Nat × Phis)))
    (hd : isEnd d = true) : phis d = [] := by
  unfold placePhiNodes at h
  rw [if_pos rfl] at h
  obtain ⟨p, h1, h2⟩ := run_bind_inv h
  have := run_pure_inj h2
  cases this
  exact placeVars_end hd _ _ _ _ h1

end Verif
