import Mathlib.Logic.Relation
import Verif.Props.Frontier
import Verif.Proof.Run

/-!
# C141: the dominator tree as a whole, and the trees of related graphs
-/

namespace Verif

open Spec

/-- `w` is below `d` in the tree: one gets from `d` to `w` along edges of the tree. -/
def Below (t : DomTree) (d w : Nat) : Prop := Relation.ReflTransGen (fun a b => (a, b) ∈ t.edges) d w

theorem path_shorter {succ : Nat → List Nat} {a b x : Nat} {l : List Nat} (h : Spec.Path succ a l b) (hx : x ∈ l)
    (hne : x ≠ b) : ∃ l', Spec.Path succ a l' x ∧ l'.length < l.length := by
  induction h with
  | single a =>
    simp only [List.mem_singleton] at hx
    exact absurd hx hne
  | step e p ih =>
    rename_i a c b l
    by_cases hxa : x = a
    · subst hxa
      refine ⟨[x], .single x, ?_⟩
      have : 0 < l.length := List.length_pos_of_mem (Path.mem_start p)
      simp only [List.length_cons, List.length_nil]
      omega
    · obtain ⟨l', p', hl⟩ := ih (by simpa [hxa] using hx) hne
      exact ⟨a :: l', .step e p', by simpa using hl⟩

/-- The reflexive transitive closure of the immediate dominators is dominance. -/
theorem closure_dom {succ : Nat → List Nat} {root : Nat} {edges : List (Nat × Nat)}
    (he : ∀ d w, (d, w) ∈ edges ↔ Reach succ root w ∧ Idom succ root d w)
    (hex : ∀ w, Reach succ root w → w ≠ root → ∃ d, Idom succ root d w) {d w : Nat} (hw : Reach succ root w) :
    Relation.ReflTransGen (fun a b => (a, b) ∈ edges) d w ↔ Dom succ root d w := by
  constructor
  · intro h
    induction h with
    | refl => exact dom_refl
    | tail _ e ih =>
      obtain ⟨h1, h2⟩ := (he _ _).1 e
      exact dom_trans (ih (dom_reach h1 h2.2.1)) h2.2.1
  · obtain ⟨l, p⟩ := hw
    have key : ∀ (n : Nat) (w : Nat) (l : List Nat), l.length ≤ n → Spec.Path succ root l w → Dom succ root d w →
        Relation.ReflTransGen (fun a b => (a, b) ∈ edges) d w := by
      intro n
      induction n with
      | zero =>
        intro w l hl p _
        have := List.length_pos_of_mem (Path.mem_start p)
        omega
      | succ n ih =>
        intro w l hl p hd
        by_cases hdw : d = w
        · subst hdw
          exact .refl
        · have hwr : w ≠ root := by
            rintro rfl
            exact hdw (dom_root hd)
          obtain ⟨i, hi⟩ := hex w ⟨l, p⟩ hwr
          obtain ⟨l', p', hl'⟩ := path_shorter p (hi.2.1 l p) hi.1
          exact .tail (ih i l' (by omega) p' (hi.2.2 d hdw hd)) ((he _ _).2 ⟨⟨l, p⟩, hi⟩)
    exact key _ w l le_rfl p

/-- **C141.**  The tree as a whole answers dominance: from `d` one gets down to a
reachable `w` exactly when `d` is on every path from the root to `w`.  In particular
everything that can be reached is below the root, and two blocks above the same block
are above each other. -/
theorem C141_tree {g : FlowGraph} {root : Nat} (hg : Rooted g.nodes g.succ g.pred root)
    (hp : ∀ w, Reach g.succ root w → w ≠ root → ∀ v ∈ g.pred w, Reach g.succ root v)
    {fuel : Nat} (hf : g.nodes.length ≤ fuel) :
    ∃ t, buildDominatorTree g fuel root = (pure t : Run DomTree) ∧
      (∀ d w, Reach g.succ root w → (Below t d w ↔ Dom g.succ root d w)) ∧
      (∀ w, Reach g.succ root w → Below t root w) ∧
      (∀ a b w, Below t a w → Below t b w → Below t a b ∨ Below t b a) ∧
      ∀ a b, Below t a b → Below t b a → a = b := by
  obtain ⟨t, t1, _, _, hidom, t5, t6, _⟩ := dominator_tree hg hp hf
  have hd : ∀ d w, Reach g.succ root w → (Below t d w ↔ Dom g.succ root d w) := fun d w hw =>
    closure_dom t6 (fun w hw hr => by
      obtain ⟨d, h⟩ := t5 w hw hr
      exact ⟨d, ((hidom w d).1 h).2⟩) hw
  have huniq : ∀ a b w, (a, w) ∈ t.edges → (b, w) ∈ t.edges → a = b := by
    intro a b w h1 h2
    rw [t6] at h1 h2
    exact idom_unique h1.1 h1.2 h2.2
  refine ⟨t, t1, hd, fun w hw => (hd root w hw).2 fun l p => Path.mem_start p, ?_, ?_⟩
  · intro a b w ha
    induction ha with
    | refl => exact fun hb => .inr hb
    | tail h e ih =>
      intro hb
      rcases Relation.ReflTransGen.cases_tail hb with h' | ⟨c, h1, h2⟩
      · subst h'
        exact .inl (.tail h e)
      · rw [huniq _ _ _ e h2] at ih
        exact ih h1
  · intro a b h1 h2
    rcases Relation.ReflTransGen.cases_tail h1 with h | ⟨c, _, e⟩
    · exact h.symm
    · have hb := ((t6 _ _).1 e).1
      have hab := (hd a b hb).1 h1
      have ha := dom_reach hb hab
      exact dom_antisymm hb hab ((hd b a ha).1 h2)

theorem path_mono {succ succ' : Nat → List Nat} (h : ∀ x y, y ∈ succ x → y ∈ succ' x) {a b : Nat} {l : List Nat}
    (p : Spec.Path succ a l b) : Spec.Path succ' a l b := by
  induction p with
  | single a => exact .single a
  | step e _ ih => exact .step (h _ _ e) ih

/-- **C141.**  More transfers of control never add a dominator: what is above a block in
the tree of a graph with more edges is above it in the tree of the graph with fewer. -/
theorem C141_more_edges {g g' : FlowGraph} {root : Nat} (hg : Rooted g.nodes g.succ g.pred root)
    (hg' : Rooted g'.nodes g'.succ g'.pred root)
    (hp : ∀ w, Reach g.succ root w → w ≠ root → ∀ v ∈ g.pred w, Reach g.succ root v)
    (hp' : ∀ w, Reach g'.succ root w → w ≠ root → ∀ v ∈ g'.pred w, Reach g'.succ root v)
    (hsub : ∀ x y, y ∈ g.succ x → y ∈ g'.succ x) {fuel : Nat} (hf : g.nodes.length ≤ fuel) (hf' : g'.nodes.length ≤ fuel) :
    ∃ t t', buildDominatorTree g fuel root = (pure t : Run DomTree) ∧
      buildDominatorTree g' fuel root = (pure t' : Run DomTree) ∧
      ∀ d w, Reach g.succ root w → Below t' d w → Below t d w := by
  obtain ⟨t, t1, t2, _⟩ := C141_tree hg hp hf
  obtain ⟨t', t1', t2', _⟩ := C141_tree hg' hp' hf'
  refine ⟨t, t', t1, t1', ?_⟩
  intro d w hw hb
  have hw' : Reach g'.succ root w := by
    obtain ⟨l, p⟩ := hw
    exact ⟨l, path_mono hsub p⟩
  exact (t2 d w hw).2 fun l p => (t2' d w hw').1 hb l (path_mono hsub p)

/-- **C141.**  The order in which blocks and edges are listed does not matter: the
immediate dominators are the same, the tree has the same edges and the frontiers have
the same blocks. -/
theorem C141_order {g g' : FlowGraph} {root : Nat} (hg : Rooted g.nodes g.succ g.pred root)
    (hg' : Rooted g'.nodes g'.succ g'.pred root)
    (hp : ∀ w, Reach g.succ root w → w ≠ root → ∀ v ∈ g.pred w, Reach g.succ root v)
    (hsame : ∀ x y, y ∈ g.succ x ↔ y ∈ g'.succ x) {fuel fuel' : Nat} (hf : g.nodes.length < fuel)
    (hf' : g'.nodes.length < fuel') :
    ∃ t t' df df', buildDominatorTree g fuel root = (pure t : Run DomTree) ∧
      buildDominatorTree g' fuel' root = (pure t' : Run DomTree) ∧
      buildDominanceFrontier g fuel true t = (pure df : Run (Nat → List Nat)) ∧
      buildDominanceFrontier g' fuel' true t' = (pure df' : Run (Nat → List Nat)) ∧
      t.idom = t'.idom ∧ t.edges.Perm t'.edges ∧ (∀ d, (t.domSucc d).Perm (t'.domSucc d)) ∧
      t.vertex.Perm t'.vertex ∧ ∀ b, (df b).Perm (df' b) := by
  have hpath : ∀ a l b, Spec.Path g.succ a l b ↔ Spec.Path g'.succ a l b := fun a l b =>
    ⟨path_mono fun x y => (hsame x y).1, path_mono fun x y => (hsame x y).2⟩
  have hreach : ∀ a b, Reach g.succ a b ↔ Reach g'.succ a b := fun a b => exists_congr fun l => hpath a l b
  have hdom : ∀ d w, Dom g.succ root d w ↔ Dom g'.succ root d w := fun d w =>
    forall_congr' fun l => imp_congr (hpath root l w) Iff.rfl
  have hidom : ∀ d w, Idom g.succ root d w ↔ Idom g'.succ root d w := fun d w => by
    unfold Idom
    simp only [hdom]
  have hfr : ∀ b n, Frontier g.succ root b n ↔ Frontier g'.succ root b n := fun b n => by
    unfold Frontier
    simp only [hdom, hreach, hsame]
  have hp' : ∀ w, Reach g'.succ root w → w ≠ root → ∀ v ∈ g'.pred w, Reach g'.succ root v := by
    intro w hw hr v hv
    rw [← hreach] at hw ⊢
    refine hp w hw hr v ?_
    rw [hg.edges, hsame, ← hg'.edges]
    exact hv
  obtain ⟨t, t1, t2, t3, t4, t5, t6, t7, t8, t9⟩ := dominator_tree hg hp hf.le
  obtain ⟨t', t1', t2', t3', t4', t5', t6', t7', t8', t9'⟩ := dominator_tree hg' hp' hf'.le
  obtain ⟨s, df, s1, s2, s3, s4, s5⟩ := dominance_frontier hg hp hf
  obtain ⟨s', df', s1', s2', s3', s4', s5'⟩ := dominance_frontier hg' hp' hf'
  rw [t1] at s1
  have := run_pure_inj s1
  subst this
  rw [t1'] at s1'
  have := run_pure_inj s1'
  subst this
  refine ⟨t, t', df, df', t1, t1', s2, s2', ?_, ?_, ?_, ?_, ?_⟩
  · funext w
    apply Option.ext
    intro d
    rw [t4, t4', hreach, hidom]
  · rw [List.perm_ext_iff_of_nodup t7 t7']
    rintro ⟨d, w⟩
    rw [t6, t6', hreach, hidom]
  · intro d
    rw [List.perm_ext_iff_of_nodup (t9 d) (t9' d)]
    intro w
    rw [t8, t8', hreach, hidom]
  · rw [List.perm_ext_iff_of_nodup t2 t2']
    intro x
    rw [t3, t3', hreach]
  · intro b
    rw [List.perm_ext_iff_of_nodup (s3 b) (s3' b)]
    intro n
    by_cases hb : Reach g.succ root b
    · rw [s4 b hb, s4' b ((hreach _ _).1 hb), hfr]
    · rw [s5 b hb, s5' b (fun h => hb ((hreach _ _).2 h)), hsame]

/-- **C141.**  Nor does it matter to the merge functions: the same blocks get them, for the
same registers, once and without parameters. -/
theorem C141_merge {g g' : FlowGraph} {root : Nat} (hg : Rooted g.nodes g.succ g.pred root)
    (hg' : Rooted g'.nodes g'.succ g'.pred root)
    (hp : ∀ w, Reach g.succ root w → ∀ v ∈ g.pred w, Reach g.succ root v)
    (hsame : ∀ x y, y ∈ g.succ x ↔ y ∈ g'.succ x) (hnodes : ∀ n, n ∈ g.nodes ↔ n ∈ g'.nodes)
    (insts : Nat → List Access) (isEnd : Nat → Bool) (hend : ∀ b, isEnd b = true → g.succ b = [])
    {fuel fuel' : Nat} (hf : g.nodes.length < fuel) (hf' : g'.nodes.length < fuel') :
    ∃ t t' df df' gl gl' phis phis', buildDominatorTree g fuel root = (pure t : Run DomTree) ∧
      buildDominatorTree g' fuel' root = (pure t' : Run DomTree) ∧
      buildDominanceFrontier g fuel true t = (pure df : Run (Nat → List Nat)) ∧
      buildDominanceFrontier g' fuel' true t' = (pure df' : Run (Nat → List Nat)) ∧
      placePhiNodes g.nodes insts df isEnd fuel true = (pure (gl, phis) : Run (List Nat × Phis)) ∧
      placePhiNodes g'.nodes insts df' isEnd fuel' true = (pure (gl', phis') : Run (List Nat × Phis)) ∧
      ∀ d, ((phis d).map (·.1)).Perm ((phis' d).map (·.1)) ∧
        ∀ x k, dictGet (phis d) (x, k) = dictGet (phis' d) (x, k) := by
  have hpath : ∀ a l b, Spec.Path g.succ a l b ↔ Spec.Path g'.succ a l b := fun a l b =>
    ⟨path_mono fun x y => (hsame x y).1, path_mono fun x y => (hsame x y).2⟩
  have hreach : ∀ a b, Reach g.succ a b ↔ Reach g'.succ a b := fun a b => exists_congr fun l => hpath a l b
  have hdom : ∀ d w, Dom g.succ root d w ↔ Dom g'.succ root d w := fun d w =>
    forall_congr' fun l => imp_congr (hpath root l w) Iff.rfl
  have hfr : Frontier g.succ root = Frontier g'.succ root := by
    funext b n
    unfold Frontier
    simp only [hdom, hreach, hsame]
  have hp' : ∀ w, Reach g'.succ root w → ∀ v ∈ g'.pred w, Reach g'.succ root v := by
    intro w hw v hv
    rw [← hreach] at hw ⊢
    refine hp w hw v ?_
    rw [hg.edges, hsame, ← hg'.edges]
    exact hv
  have hend' : ∀ b, isEnd b = true → g'.succ b = [] := fun b hb =>
    List.eq_nil_iff_forall_not_mem.2 fun y hy => by
      have := (hsame b y).2 hy
      rw [hend b hb] at this
      cases this
  obtain ⟨t, df, gl, phis, h1, h2, h3, h4⟩ := phi_on_iterated_frontier hg hp insts isEnd hend hf
  obtain ⟨t', df', gl', phis', h1', h2', h3', h4'⟩ := phi_on_iterated_frontier hg' hp' insts isEnd hend' hf'
  refine ⟨t, t', df, df', gl, gl', phis, phis', h1, h1', h2, h2', h3, h3', ?_⟩
  intro d
  have hget : ∀ x k, dictGet (phis d) (x, k) = dictGet (phis' d) (x, k) := by
    intro x k
    apply Option.ext
    intro v
    rw [(h4 d).2, (h4' d).2]
    unfold Exposed Writer
    simp only [hnodes, hfr]
  refine ⟨?_, hget⟩
  rw [List.perm_ext_iff_of_nodup (h4 d).1 (h4' d).1]
  rintro ⟨x, k⟩
  have hk : ∀ m : List ((Nat × Nat) × List (Nat × Nat)), (x, k) ∈ m.map (·.1) ↔ dictGet m (x, k) ≠ none := by
    intro m
    rw [Ne, dictGet_eq_none]
    tauto
  rw [hk, hk, hget]

/-- The graph of the example listed otherwise, and with one more edge, from 0 to 4. -/
def domExampleMore : FlowGraph where
  nodes := [0, 1, 2, 3, 4, 5, 6]
  succ x := match x with
    | 0 => [4, 1] | 1 => [3, 2] | 2 => [4] | 3 => [4] | 4 => [5, 1] | 5 => [5] | _ => []
  pred x := match x with
    | 1 => [4, 0] | 2 => [1] | 3 => [1] | 4 => [0, 3, 2] | 5 => [5, 4] | _ => []

theorem domExampleMore_rooted : Rooted domExampleMore.nodes domExampleMore.succ domExampleMore.pred 0 := by
  refine ⟨by decide, by decide, ?_⟩
  intro w v
  rcases w with _ | _ | _ | _ | _ | _ | w <;> rcases v with _ | _ | _ | _ | _ | _ | v <;>
    simp [domExampleMore] <;> omega

/-- The hypotheses hold of the example with one more edge; the block 1 is above 4 and 5
in the tree of the example, and no longer with the edge. -/
theorem C141_case :
    (∀ x y, y ∈ domExample.succ x → y ∈ domExampleMore.succ x) ∧
    (∀ w, Reach domExampleMore.succ 0 w → w ≠ 0 → ∀ v ∈ domExampleMore.pred w, Reach domExampleMore.succ 0 v) ∧
    domTable (buildDominatorTree domExample 7 0) 7 = some ([none, some 0, some 1, some 1, some 1, some 4, none],
        [(4, 5), (1, 4), (1, 3), (1, 2), (0, 1)], [0, 1, 2, 4, 5, 3]) ∧
    domTable (buildDominatorTree domExampleMore 7 0) 7 = some ([none, some 0, some 1, some 1, some 0, some 4, none],
        [(0, 1), (1, 2), (1, 3), (0, 4), (4, 5)], [0, 4, 5, 1, 3, 2]) := by
  have hsub : ∀ x y, y ∈ domExample.succ x → y ∈ domExampleMore.succ x := by
    intro x y h
    rcases x with _ | _ | _ | _ | _ | _ | x <;> simp [domExample, domExampleMore] at h ⊢ <;> tauto
  refine ⟨hsub, ?_, by decide +kernel, by decide +kernel⟩
  intro w _ _ v hv
  have hv5 : v ≤ 5 := by
    rcases w with _ | _ | _ | _ | _ | _ | w <;> simp [domExampleMore] at hv <;> omega
  obtain ⟨l, p⟩ := (domExample_reach v).2 hv5
  exact ⟨l, path_mono hsub p⟩

/-- The example with its blocks and edges listed the other way round. -/
def domExampleTurned : FlowGraph where
  nodes := domExample.nodes.reverse
  succ x := (domExample.succ x).reverse
  pred x := (domExample.pred x).reverse

/-- The hypotheses of `C141_order` and `C141_merge` hold of it; the tables differ in order
only. -/
theorem C141_case_order :
    Rooted domExampleTurned.nodes domExampleTurned.succ domExampleTurned.pred 0 ∧
    (∀ x y, y ∈ domExample.succ x ↔ y ∈ domExampleTurned.succ x) ∧
    (∀ n, n ∈ domExample.nodes ↔ n ∈ domExampleTurned.nodes) ∧
    (∀ b, (b == 6) = true → domExample.succ b = []) ∧
    domTable (buildDominatorTree domExampleTurned 7 0) 7 = some ([none, some 0, some 1, some 1, some 1, some 4, none],
        [(0, 1), (1, 2), (1, 3), (1, 4), (4, 5)], [0, 1, 3, 4, 5, 2]) := by
  refine ⟨⟨by decide, by decide, ?_⟩, fun x y => by simp [domExampleTurned], fun n => by simp [domExampleTurned], ?_,
    by decide +kernel⟩
  · intro w v
    simpa [domExampleTurned] using domExample_rooted.edges w v
  · intro b hb
    obtain rfl : b = 6 := by simpa using hb
    rfl

end Verif
