import Verif.Model.Frontier
import Verif.Proof.DomTree

/-! # Dominance frontiers -/

namespace Verif

open Spec (Path Reach Dom Idom)

theorem dom_refl {succ : Nat → List Nat} {root w : Nat} : Dom succ root w w := fun _ p => Path.mem_end p

theorem dom_trans {succ : Nat → List Nat} {root a b c : Nat} (h1 : Dom succ root a b) (h2 : Dom succ root b c) :
    Dom succ root a c := by
  intro l p
  -- the part of the path up to `b`
  have key : ∀ {x l c}, Path succ x l c → ∀ b ∈ l, ∃ m, Path succ x m b ∧ ∀ y ∈ m, y ∈ l := by
    intro x l c p
    induction p with
    | single x =>
      intro b hb
      rw [List.mem_singleton.1 hb]
      exact ⟨[x], .single x, fun y hy => hy⟩
    | @step x y c l e _ ih =>
      intro b hb
      rcases List.mem_cons.1 hb with rfl | hb
      · exact ⟨[b], .single b, fun y hy => by rw [List.mem_singleton.1 hy]; simp⟩
      · obtain ⟨m, q1, q2⟩ := ih b hb
        refine ⟨x :: m, .step e q1, ?_⟩
        intro z hz
        rcases List.mem_cons.1 hz with rfl | hz
        · simp
        · exact List.mem_cons_of_mem _ (q2 z hz)
  obtain ⟨m, q1, q2⟩ := key p b (h2 l p)
  exact q2 a (h1 m q1)

theorem reach_edge {succ : Nat → List Nat} {root p n : Nat} (h : Reach succ root p) (e : n ∈ succ p) :
    Reach succ root n := by
  obtain ⟨l, q⟩ := h
  obtain ⟨m, q', _⟩ := Path.append q (.step e (.single n))
  exact ⟨m, q'⟩

/-- A dominator of a block other than the block itself dominates its
predecessors. -/
theorem dom_pred {succ : Nat → List Nat} {root d p n : Nat} (e : n ∈ succ p)
    (h : Dom succ root d n) (hne : d ≠ n) : Dom succ root d p := by
  intro l q
  have key : ∀ {x l p}, Path succ x l p → n ∈ succ p → Path succ x (l ++ [n]) n := by
    intro x l p q
    induction q with
    | single x => exact fun e => .step e (.single n)
    | step e' _ ih => exact fun e => .step e' (ih e)
  have := h _ (key q e)
  rcases List.mem_append.1 this with h | h
  · exact h
  · exact absurd (List.mem_singleton.1 h) hne

/-- A table of immediate dominators. -/
structure IdomOk (succ : Nat → List Nat) (root : Nat) (f : Nat → Option Nat) : Prop where
  iff : ∀ w d, f w = some d ↔ Reach succ root w ∧ Idom succ root d w
  some : ∀ w, Reach succ root w → w ≠ root → ∃ d, f w = some d

theorem IdomOk.root_none {succ : Nat → List Nat} {root : Nat} {f : Nat → Option Nat} (h : IdomOk succ root f) :
    f root = none := by
  cases hf : f root with
  | none => rfl
  | some d => exact absurd ((h.iff root d).1 hf).2 idom_root

theorem IdomOk.unreach {succ : Nat → List Nat} {root : Nat} {f : Nat → Option Nat} (h : IdomOk succ root f) {w : Nat}
    (hw : ¬ Reach succ root w) : f w = none := by
  cases hf : f w with
  | none => rfl
  | some d => exact absurd ((h.iff w d).1 hf).1 hw

theorem dom_root {succ : Nat → List Nat} {root d : Nat} (h : Dom succ root d root) : d = root :=
  List.mem_singleton.1 (h [root] (.single root))

/-- The number of dominators. -/
noncomputable def domCount (succ : Nat → List Nat) (root : Nat) (nodes : List Nat) (w : Nat) : Nat :=
  open Classical in (nodes.filter fun x => decide (Dom succ root x w)).length

theorem filter_lt {α : Type} (l : List α) (p q : α → Bool) (h : ∀ x ∈ l, p x = true → q x = true) {a : α} (ha : a ∈ l)
    (hq : q a = true) (hp : p a = false) : (l.filter p).length < (l.filter q).length := by
  induction l with
  | nil => cases ha
  | cons b l ih =>
    have hle : (l.filter p).length ≤ (l.filter q).length := by
      clear ih ha
      have h' : ∀ x ∈ l, p x = true → q x = true := fun x hx => h x (List.mem_cons_of_mem _ hx)
      clear h
      induction l with
      | nil => simp
      | cons c l ih =>
        have := ih fun x hx => h' x (List.mem_cons_of_mem _ hx)
        have hc := h' c (by simp)
        simp only [List.filter_cons]
        split
        · rename_i h1
          rw [if_pos (hc h1)]
          simp only [List.length_cons]
          omega
        · split
          · simp only [List.length_cons]; omega
          · exact this
    simp only [List.filter_cons]
    rcases List.mem_cons.1 ha with rfl | ha
    · rw [if_neg (by rw [hp]; simp), if_pos hq]
      simp only [List.length_cons]
      omega
    · have := ih (fun x hx => h x (List.mem_cons_of_mem _ hx)) ha
      have hb := h b (by simp)
      split
      · rename_i h1
        rw [if_pos (hb h1)]
        simp only [List.length_cons]
        omega
      · split
        · simp only [List.length_cons]; omega
        · exact this

theorem domCount_lt {succ : Nat → List Nat} {root d w : Nat} {nodes : List Nat} (hw : w ∈ nodes)
    (hr : Reach succ root w) (h : Idom succ root d w) : domCount succ root nodes d < domCount succ root nodes w := by
  classical
  unfold domCount
  apply filter_lt (a := w)
  · intro x _ hx
    exact decide_eq_true (dom_trans (of_decide_eq_true hx) h.2.1)
  · exact hw
  · exact decide_eq_true dom_refl
  · exact decide_eq_false fun hd => h.1 (dom_antisymm hr h.2.1 hd)

theorem mem_addOnce {df : Nat → List Nat} {r n b m : Nat} :
    m ∈ addOnce df r n b ↔ m ∈ df b ∨ (m = n ∧ b = r) := by
  unfold addOnce
  split
  · rename_i h
    constructor
    · exact Or.inl
    · rintro (h' | ⟨rfl, rfl⟩)
      · exact h'
      · exact h
  · by_cases hb : b = r
    · subst hb
      rw [put_same, List.mem_append, List.mem_singleton]
      simp
    · rw [put_ne _ _ _ hb]
      simp [hb]

theorem addOnce_nodup {df : Nat → List Nat} {r n : Nat} (h : ∀ b, (df b).Nodup) (b : Nat) : (addOnce df r n b).Nodup := by
  unfold addOnce
  split
  · exact h b
  · rename_i hin
    by_cases hb : b = r
    · subst hb
      rw [put_same, List.nodup_append]
      exact ⟨h b, by simp, fun a ha c hc => by rw [List.mem_singleton.1 hc]; rintro rfl; exact hin ha⟩
    · rw [put_ne _ _ _ hb]; exact h b

/-- The walk up from a block that can be reached. -/
theorem runnerLoop_ok {succ : Nat → List Nat} {root : Nat} {nodes : List Nat} {t : DomTree}
    (ht : IdomOk succ root t.idom) (hnodes : ∀ x, Reach succ root x → x ∈ nodes) {n : Nat} :
    ∀ (fuel r : Nat) (df : Nat → List Nat), Reach succ root r → domCount succ root nodes r < fuel →
      (∀ d, t.idom n = some d → Dom succ root d r) → (∀ b, (df b).Nodup) →
      ∃ df', runnerLoop t n fuel (some r) df = (pure df' : Run (Nat → List Nat)) ∧ (∀ b, (df' b).Nodup) ∧
        ∀ b m, m ∈ df' b ↔ m ∈ df b ∨
          (m = n ∧ Dom succ root b r ∧ ∀ d, t.idom n = some d → ¬ Dom succ root b d) := by
  intro fuel
  induction fuel with
  | zero => intro r df _ h; omega
  | succ fuel ih =>
    intro r df hr hf hd hnd
    unfold runnerLoop
    by_cases hs : some r = t.idom n
    · rw [if_pos hs]
      refine ⟨df, rfl, hnd, ?_⟩
      intro b m
      constructor
      · exact Or.inl
      · rintro (h | ⟨_, h1, h2⟩)
        · exact h
        · exact absurd h1 (h2 r hs.symm)
    · rw [if_neg hs]
      have hne : ∀ d, t.idom n = some d → d ≠ r := by
        rintro d h rfl
        exact hs h.symm
      show ∃ df', runnerLoop t n fuel (t.idom r) (addOnce df r n) = _ ∧ _
      cases hi : t.idom r with
      | none =>
        have hroot : r = root := by
          by_contra h
          obtain ⟨d, h'⟩ := ht.some r hr h
          rw [hi] at h'
          cases h'
        have hn : t.idom n = none := by
          cases h : t.idom n with
          | none => rfl
          | some d =>
            have := hd d h
            rw [hroot] at this
            exact absurd ((dom_root this).trans hroot.symm) (hne d h)
        have hpos : 0 < fuel := by
          have : 0 < domCount succ root nodes r := by
            classical
            unfold domCount
            exact List.length_pos_of_mem (List.mem_filter.2 ⟨hnodes r hr, decide_eq_true dom_refl⟩)
          omega
        obtain ⟨fuel, rfl⟩ : ∃ k, fuel = k + 1 := ⟨fuel - 1, by omega⟩
        refine ⟨addOnce df r n, ?_, addOnce_nodup hnd, ?_⟩
        · unfold runnerLoop
          rw [if_pos hn.symm]
        · intro b m
          rw [mem_addOnce]
          constructor
          · rintro (h | ⟨h1, h2⟩)
            · exact Or.inl h
            · exact Or.inr ⟨h1, by rw [h2]; exact dom_refl, fun d h => by rw [hn] at h; cases h⟩
          · rintro (h | ⟨h1, h2, _⟩)
            · exact Or.inl h
            · rw [hroot] at h2
              exact Or.inr ⟨h1, (dom_root h2).trans hroot.symm⟩
      | some q =>
        obtain ⟨_, hq⟩ := (ht.iff r q).1 hi
        have hlt := domCount_lt (hnodes r hr) hr hq
        obtain ⟨df', e1, e2, e3⟩ := ih q (addOnce df r n) (dom_reach hr hq.2.1) (by omega)
          (fun d h => hq.2.2 d (hne d h) (hd d h)) (addOnce_nodup hnd)
        refine ⟨df', e1, e2, ?_⟩
        intro b m
        rw [e3, mem_addOnce]
        constructor
        · rintro ((h | ⟨h1, h2⟩) | ⟨h1, h2, h3⟩)
          · exact Or.inl h
          · refine Or.inr ⟨h1, by rw [h2]; exact dom_refl, ?_⟩
            intro d h h'
            rw [h2] at h'
            exact hne d h (dom_antisymm hr (hd d h) h')
          · exact Or.inr ⟨h1, dom_trans h2 hq.2.1, h3⟩
        · rintro (h | ⟨h1, h2, h3⟩)
          · exact Or.inl (Or.inl h)
          · by_cases hb : b = r
            · exact Or.inl (Or.inr ⟨h1, hb⟩)
            · exact Or.inr ⟨h1, hq.2.2 b hb h2, h3⟩

/-- The walk up from a block that cannot be reached, to the root. -/
theorem runnerLoop_unreach {t : DomTree} {n p fuel : Nat} (hn : t.idom n = none) (hp : t.idom p = none)
    (hf : 2 ≤ fuel) (df : Nat → List Nat) :
    runnerLoop t n fuel (some p) df = (pure (addOnce df p n) : Run (Nat → List Nat)) := by
  obtain ⟨fuel, rfl⟩ : ∃ k, fuel = k + 2 := ⟨fuel - 2, by omega⟩
  unfold runnerLoop
  rw [if_neg (by rw [hn]; simp)]
  show runnerLoop t n (fuel + 1) (t.idom p) (addOnce df p n) = _
  unfold runnerLoop
  rw [if_pos (by rw [hn, hp])]

/-- What the predecessor `p` of `n` adds to the frontier of `b`. -/
def Adds (succ : Nat → List Nat) (root b p n : Nat) : Prop :=
  (Reach succ root p ∧ Dom succ root b p ∧ ¬ (b ≠ n ∧ Dom succ root b n)) ∨
    (¬ Reach succ root p ∧ b = p)

theorem runner_adds {succ : Nat → List Nat} {root : Nat} {nodes : List Nat} {t : DomTree}
    (ht : IdomOk succ root t.idom) (hnodes : ∀ x, Reach succ root x → x ∈ nodes) {n p fuel : Nat}
    (hn : Reach succ root n) (hf : nodes.length < fuel) (he : n ∈ succ p) (hp : Reach succ root p ∨ n = root)
    (df : Nat → List Nat) (hnd : ∀ b, (df b).Nodup) :
    ∃ df', runnerLoop t n fuel (some p) df = (pure df' : Run (Nat → List Nat)) ∧ (∀ b, (df' b).Nodup) ∧
      ∀ b m, m ∈ df' b ↔ m ∈ df b ∨ (m = n ∧ Adds succ root b p n) := by
  classical
  by_cases hr : Reach succ root p
  · have hcnt : domCount succ root nodes p < fuel := by
      refine Nat.lt_of_le_of_lt ?_ hf
      unfold domCount
      exact List.length_filter_le _ _
    have hd : ∀ d, t.idom n = some d → Dom succ root d p := by
      intro d h
      obtain ⟨_, h1, h2, _⟩ := (ht.iff n d).1 h
      exact dom_pred he h2 h1
    obtain ⟨df', e1, e2, e3⟩ := runnerLoop_ok ht hnodes fuel p df hr hcnt hd hnd
    refine ⟨df', e1, e2, ?_⟩
    intro b m
    rw [e3]
    have key : (∀ d, t.idom n = some d → ¬ Dom succ root b d) ↔ ¬ (b ≠ n ∧ Dom succ root b n) := by
      constructor
      · rintro h ⟨h1, h2⟩
        by_cases hroot : n = root
        · subst hroot
          exact h1 (dom_root h2)
        · obtain ⟨d, h3⟩ := ht.some n hn hroot
          obtain ⟨_, _, _, h4⟩ := (ht.iff n d).1 h3
          exact h d h3 (h4 b h1 h2)
      · intro h d h3 h4
        obtain ⟨_, h5, h6, _⟩ := (ht.iff n d).1 h3
        refine h ⟨?_, dom_trans h4 h6⟩
        rintro rfl
        exact h5 (dom_antisymm hn h6 h4)
    unfold Adds
    rw [key]
    simp only [hr, not_true_eq_false, false_and, or_false, true_and]
  · have hroot : n = root := hp.resolve_left hr
    refine ⟨addOnce df p n, ?_, addOnce_nodup hnd, ?_⟩
    · apply runnerLoop_unreach (by rw [hroot]; exact ht.root_none) (ht.unreach hr)
      have : 0 < nodes.length := List.length_pos_of_mem (hnodes n hn)
      omega
    · intro b m
      rw [mem_addOnce]
      unfold Adds
      simp only [hr, false_and, not_false_eq_true, true_and, false_or]

theorem preds_adds {succ : Nat → List Nat} {root : Nat} {nodes : List Nat} {t : DomTree}
    (ht : IdomOk succ root t.idom) (hnodes : ∀ x, Reach succ root x → x ∈ nodes) {n fuel : Nat}
    (hn : Reach succ root n) (hf : nodes.length < fuel) (ps : List Nat) :
    ∀ (df : Nat → List Nat), (∀ p ∈ ps, n ∈ succ p ∧ (Reach succ root p ∨ n = root)) → (∀ b, (df b).Nodup) →
    ∃ df', ps.foldlM (fun df p => runnerLoop t n fuel (some p) df) df = (pure df' : Run (Nat → List Nat)) ∧
      (∀ b, (df' b).Nodup) ∧
      ∀ b m, m ∈ df' b ↔ m ∈ df b ∨ (m = n ∧ ∃ p ∈ ps, Adds succ root b p n) := by
  induction ps with
  | nil => intro df _ h; exact ⟨df, rfl, h, by simp⟩
  | cons p ps ih =>
    intro df hps hnd
    obtain ⟨h1, h2⟩ := hps p (by simp)
    obtain ⟨d1, e1, e2, e3⟩ := runner_adds ht hnodes hn hf h1 h2 df hnd
    obtain ⟨d2, g1, g2, g3⟩ := ih d1 (fun q hq => hps q (List.mem_cons_of_mem _ hq)) e2
    refine ⟨d2, ?_, g2, ?_⟩
    · rw [List.foldlM_cons, run_bind_ok e1]
      exact g1
    · intro b m
      rw [g3, e3]
      simp only [List.mem_cons]
      constructor
      · rintro ((h | ⟨h, h'⟩) | ⟨h, q, hq, h'⟩)
        · exact Or.inl h
        · exact Or.inr ⟨h, p, Or.inl rfl, h'⟩
        · exact Or.inr ⟨h, q, Or.inr hq, h'⟩
      · rintro (h | ⟨h, q, rfl | hq, h'⟩)
        · exact Or.inl (Or.inl h)
        · exact Or.inl (Or.inr ⟨h, h'⟩)
        · exact Or.inr ⟨h, q, hq, h'⟩

theorem nodes_adds {g : FlowGraph} {root : Nat} {t : DomTree} (hg : ∀ w v, v ∈ g.pred w ↔ w ∈ g.succ v)
    (hp : ∀ w, Reach g.succ root w → w ≠ root → ∀ v ∈ g.pred w, Reach g.succ root v)
    (ht : IdomOk g.succ root t.idom) (hv : ∀ x, x ∈ t.vertex ↔ Reach g.succ root x)
    (hnodes : ∀ x, Reach g.succ root x → x ∈ g.nodes) {fuel : Nat} (hf : g.nodes.length < fuel) (ns : List Nat) :
    ∀ (df : Nat → List Nat), (∀ b, (df b).Nodup) →
    ∃ df', ns.foldlM (frontierStep g fuel t) df = (pure df' : Run (Nat → List Nat)) ∧ (∀ b, (df' b).Nodup) ∧
      ∀ b m, m ∈ df' b ↔ m ∈ df b ∨
        (m ∈ ns ∧ Reach g.succ root m ∧ ∃ p, m ∈ g.succ p ∧ Adds g.succ root b p m) := by
  classical
  induction ns with
  | nil => intro df h; exact ⟨df, rfl, h, by simp⟩
  | cons n ns ih =>
    intro df hnd
    have step : ∃ d1, frontierStep g fuel t df n = (pure d1 : Run (Nat → List Nat)) ∧ (∀ b, (d1 b).Nodup) ∧
        ∀ b m, m ∈ d1 b ↔ m ∈ df b ∨ (m = n ∧ Reach g.succ root m ∧ ∃ p, m ∈ g.succ p ∧ Adds g.succ root b p m) := by
      unfold frontierStep seenPred
      by_cases hr : Reach g.succ root n
      · rw [if_pos ((hv n).2 hr)]
        obtain ⟨d1, e1, e2, e3⟩ := preds_adds ht hnodes hr hf (g.pred n) df
          (fun p hpn => ⟨(hg n p).1 hpn, by
            by_cases h : n = root
            · exact Or.inr h
            · exact Or.inl (hp n hr h p hpn)⟩) hnd
        refine ⟨d1, e1, e2, ?_⟩
        intro b m
        rw [e3]
        constructor
        · rintro (h | ⟨rfl, p, h1, h2⟩)
          · exact Or.inl h
          · exact Or.inr ⟨rfl, hr, p, (hg m p).1 h1, h2⟩
        · rintro (h | ⟨rfl, _, p, h1, h2⟩)
          · exact Or.inl h
          · exact Or.inr ⟨rfl, p, (hg m p).2 h1, h2⟩
      · rw [if_neg fun h => hr ((hv n).1 h)]
        refine ⟨df, rfl, hnd, ?_⟩
        intro b m
        constructor
        · exact Or.inl
        · rintro (h | ⟨rfl, h, _⟩)
          · exact h
          · exact absurd h hr
    obtain ⟨d1, e1, e2, e3⟩ := step
    obtain ⟨d2, g1, g2, g3⟩ := ih d1 e2
    refine ⟨d2, ?_, g2, ?_⟩
    · rw [List.foldlM_cons, run_bind_ok e1]
      exact g1
    · intro b m
      rw [g3, e3]
      rw [List.mem_cons, or_assoc, ← or_and_right]

theorem adds_iff {succ : Nat → List Nat} {root b n : Nat} (hb : Reach succ root b) :
    (Reach succ root n ∧ ∃ p, n ∈ succ p ∧ Adds succ root b p n) ↔ Spec.Frontier succ root b n := by
  constructor
  · rintro ⟨_, p, h1, ⟨h2, h3, h4⟩ | ⟨h2, rfl⟩⟩
    · exact ⟨⟨p, h2, h1, h3⟩, h4⟩
    · exact absurd hb h2
  · rintro ⟨⟨p, h1, h2, h3⟩, h4⟩
    exact ⟨reach_edge h1 h2, p, h2, Or.inl ⟨h1, h3, h4⟩⟩

theorem adds_unreach {succ : Nat → List Nat} {root b n : Nat} (hb : ¬ Reach succ root b) :
    (Reach succ root n ∧ ∃ p, n ∈ succ p ∧ Adds succ root b p n) ↔ Reach succ root n ∧ n ∈ succ b := by
  constructor
  · rintro ⟨h, p, h1, ⟨h2, h3, _⟩ | ⟨h2, rfl⟩⟩
    · exact absurd (dom_reach h2 h3) hb
    · exact ⟨h, h1⟩
  · rintro ⟨h, h1⟩
    exact ⟨h, b, h1, Or.inr ⟨hb, rfl⟩⟩

end Verif
