import Verif.Proof.Dfs
import Verif.Proof.Dominators
import Mathlib.Data.List.Induction

/-!
# The two passes of the dominator construction
-/

namespace Verif

open Spec (Path)

section
variable {succ : Nat → List Nat} {root : Nat} {par : Nat → Option Nat} {dep : Nat → Int} {o : List Nat}
  (T : DfsTree succ root (· ∈ root :: o) (numOf (root :: o)) par dep) (hn : (root :: o).Nodup)
include T hn

/-- The state before the first pass. -/
theorem inv_init : Inv succ root (· ∈ root :: o) (numOf (root :: o)) par dep (o.length + 1)
    { idx := dep, parent := par } := by
  have no : ∀ x, ¬ Linked root (· ∈ root :: o) (numOf (root :: o)) (o.length + 1) x := by
    rintro x ⟨h1, _, h3⟩
    have : numOf (root :: o) x < (root :: o).length := List.idxOf_lt_length_iff.2 h1
    simp only [List.length_cons] at this
    omega
  refine ⟨rfl, rfl, ⟨fun x h => absurd h (no x), fun _ _ => rfl⟩, fun _ _ => rfl, fun x h => absurd h (no x),
    fun x h => absurd h (no x), fun p v h => ?_, fun _ _ => rfl⟩
  cases h

/-- The first pass. -/
theorem first_pass {g : FlowGraph} {fuel : Nat} (hfuel : (root :: o).length ≤ fuel)
    (hg : ∀ w v, v ∈ g.pred w ↔ w ∈ succ v) (hV : ∀ w ∈ o, ∀ v ∈ g.pred w, v ∈ root :: o) :
    ∀ (A B : List Nat) (s : DomSt), o = A ++ B →
      Inv succ root (· ∈ root :: o) (numOf (root :: o)) par dep (A.length + 1) s →
      ∃ s', A.reverse.foldlM (domStep g fuel) s = (pure s' : Run DomSt) ∧
        Inv succ root (· ∈ root :: o) (numOf (root :: o)) par dep 1 s' := by
  intro A
  induction A using List.reverseRecOn with
  | nil => intro B s _ I; exact ⟨s, rfl, I⟩
  | append_singleton A w ih =>
    intro B s ho I
    have hw : w ∈ o := by rw [ho]; simp
    have hnum : numOf (root :: o) w = A.length + 1 := by
      rw [numOf_append (l1 := root :: A) (l2 := B) hn (by rw [ho]; simp)]
      simp
    have hwr : w ≠ root := by
      rintro rfl
      exact (List.nodup_cons.1 hn).1 hw
    rw [show (A ++ [w]).length + 1 = numOf (root :: o) w + 1 by rw [hnum]; simp] at I
    obtain ⟨s', h1, h2⟩ := I.step T (List.mem_cons_of_mem _ hw) hwr fuel
      (fun v hv => Nat.lt_of_lt_of_le (List.idxOf_lt_length_iff.2 hv) hfuel) (hg w) (hV w hw)
    rw [hnum] at h2
    obtain ⟨s'', h3, h4⟩ := ih ([w] ++ B) s' (by rw [ho]; simp) h2
    refine ⟨s'', ?_, h4⟩
    rw [List.reverse_append, List.reverse_singleton, List.singleton_append, List.foldlM_cons, run_bind_ok h1]
    exact h3

/-- The first pass with a predecessor that cannot be reached. -/
theorem first_pass_error {g : FlowGraph} {fuel : Nat} (hfuel : (root :: o).length ≤ fuel)
    (hg : ∀ w v, v ∈ g.pred w ↔ w ∈ succ v) (hneg : ∀ v, v ∉ root :: o → dep v < 0) :
    ∀ (A B : List Nat) (s : DomSt), o = A ++ B →
      Inv succ root (· ∈ root :: o) (numOf (root :: o)) par dep (A.length + 1) s →
      (∃ w ∈ A, ∃ v ∈ g.pred w, v ∉ root :: o) →
      A.reverse.foldlM (domStep g fuel) s = (raiseRun .runtime : Run DomSt) := by
  classical
  intro A
  induction A using List.reverseRecOn with
  | nil => rintro B s _ I ⟨w, h, _⟩; cases h
  | append_singleton A w ih =>
    rintro B s ho I ⟨x, hx, hv⟩
    have hw : w ∈ o := by rw [ho]; simp
    have hnum : numOf (root :: o) w = A.length + 1 := by
      rw [numOf_append (l1 := root :: A) (l2 := B) hn (by rw [ho]; simp)]
      simp
    have hwr : w ≠ root := by
      rintro rfl
      exact (List.nodup_cons.1 hn).1 hw
    rw [show (A ++ [w]).length + 1 = numOf (root :: o) w + 1 by rw [hnum]; simp] at I
    have hf : ∀ v, v ∈ root :: o → numOf (root :: o) v < fuel :=
      fun v hv => Nat.lt_of_lt_of_le (List.idxOf_lt_length_iff.2 hv) hfuel
    rw [List.reverse_append, List.reverse_singleton, List.singleton_append, List.foldlM_cons]
    by_cases hall : ∀ v ∈ g.pred w, v ∈ root :: o
    · obtain ⟨s', h1, h2⟩ := I.step T (List.mem_cons_of_mem _ hw) hwr fuel hf (hg w) hall
      rw [hnum] at h2
      rw [run_bind_ok h1]
      refine ih ([w] ++ B) s' (by rw [ho]; simp) h2 ⟨x, ?_, hv⟩
      rcases List.mem_append.1 hx with h | h
      · exact h
      · rw [List.mem_singleton.1 h] at hv
        obtain ⟨v, h3, h4⟩ := hv
        exact absurd (hall v h3) h4
    · push Not at hall
      rw [I.step_error T (List.mem_cons_of_mem _ hw) hwr fuel hf (hg w) hneg hall]
      rfl

/-- The second pass. -/
theorem second_pass {s : DomSt} (I : Inv succ root (· ∈ root :: o) (numOf (root :: o)) par dep 1 s) :
    ∀ (B A : List Nat) (f : Nat → Option Nat), o = A ++ B →
      (∀ x ∈ A, ∃ d, f x = some d ∧ Spec.Idom succ root d x) → (∀ x, x ∉ A → f x = s.idom x) →
      ∃ f', B.foldlM idomStep { s with idom := f } = (pure { s with idom := f' } : Run DomSt) ∧
        (∀ x ∈ o, ∃ d, f' x = some d ∧ Spec.Idom succ root d x) ∧ ∀ x, x ∉ o → f' x = s.idom x := by
  have hpos : ∀ x ∈ o, x ≠ root ∧ 1 ≤ numOf (root :: o) x := by
    intro x hx
    have hne : x ≠ root := by
      rintro rfl
      exact (List.nodup_cons.1 hn).1 hx
    refine ⟨hne, ?_⟩
    unfold numOf
    rw [List.idxOf_cons_ne _ (Ne.symm hne)]
    omega
  have hl : ∀ x ∈ o, Linked root (· ∈ root :: o) (numOf (root :: o)) 1 x :=
    fun x hx => ⟨List.mem_cons_of_mem _ hx, (hpos x hx).1, (hpos x hx).2⟩
  have hs : ∀ w, w ∈ root :: o → w ≠ root → SemiOk succ (· ∈ root :: o) (numOf (root :: o)) par dep s.semi w := by
    intro w hw hr
    rcases List.mem_cons.1 hw with h | h
    · exact absurd h hr
    · exact I.ok w (hl w h)
  -- no block is left in a bucket
  have hk : ∀ x ∈ o, KOk root (· ∈ root :: o) (numOf (root :: o)) par dep 1 s.semi (s.idom x) x := by
    intro x hx
    rcases I.done x (hl x hx) with h | h
    · exfalso
      obtain ⟨_, _, h3⟩ := I.bucket _ x h
      have S := I.ok x (hl x hx)
      obtain ⟨c, h4, h5⟩ := T.child S.anc S.ne
      have h6 := h3 c h4 h5
      have hc : c ∈ root :: o := T.anc_mem h5 (List.mem_cons_of_mem _ hx)
      rcases List.mem_cons.1 hc with rfl | hc
      · rw [T.root_par] at h4
        cases h4
      · have := (hpos c hc).2
        omega
    · exact h
  intro B
  induction B with
  | nil =>
    intro A f ho h1 h2
    rw [List.append_nil] at ho
    exact ⟨f, rfl, fun x hx => h1 x (ho ▸ hx), fun x hx => h2 x (ho ▸ hx)⟩
  | cons w B ih =>
    intro A f ho h1 h2
    have hw : w ∈ o := by rw [ho]; simp
    have hwA : w ∉ A := by
      intro h
      have h3 := (List.nodup_cons.1 hn).2
      rw [ho, List.nodup_append] at h3
      exact h3.2.2 w h w (by simp) rfl
    have hV : w ∈ root :: o := List.mem_cons_of_mem _ hw
    have hwr := (hpos w hw).1
    obtain ⟨k, k1, _, k3⟩ := hk w hw
    have hfw : f w = some k := by rw [h2 w hwA, k1]
    have step : ∃ f1, idomStep { s with idom := f } w = (pure { s with idom := f1 } : Run DomSt) ∧
        (∃ d, f1 w = some d ∧ Spec.Idom succ root d w) ∧ ∀ x, x ≠ w → f1 x = f x := by
      rcases k3 with ⟨rfl, k4⟩ | ⟨k4, k5, k6, k7, k8⟩
      · refine ⟨f, ?_, ⟨_, hfw, T.idom_semi hs hV hwr k4⟩, fun x _ => rfl⟩
        unfold idomStep
        rw [if_pos hfw]
      · have hkV : k ∈ root :: o := T.anc_mem k6 hV
        have hkw : k ≠ w := by
          rintro rfl
          omega
        have hkr : k ≠ root := by
          rintro rfl
          have S := hs w hV hwr
          exact k5 (T.anc_antisymm (T.root_anc (T.anc_mem S.anc hV)) k4 (T.anc_mem S.anc hV))
        have hkA : k ∈ A := by
          rcases T.anc_num k6 hV with h | ⟨h, _⟩
          · exact absurd h hkw
          · have := (numOf_lt_iff (l1 := root :: A) (l2 := B) hn (by rw [ho]; simp) hkV).1.1 h
            rcases List.mem_cons.1 this with h | h
            · exact absurd h hkr
            · exact h
        obtain ⟨d, d1, d2⟩ := h1 k hkA
        refine ⟨put f w (f k), ?_, ⟨d, by rw [put_same, d1], T.idom_same hs hV hwr k4 k5 k6 k7 k8 d2⟩,
          fun x hx => put_ne _ _ _ hx⟩
        unfold idomStep
        rw [if_neg (by show ¬ f w = some (s.semi w); rw [hfw]; exact fun e => k5 (Option.some.inj e))]
        show (match f w with
          | none => raiseRun .attribute
          | some d => pure { s with idom := put f w (f d) } : Run DomSt) = _
        rw [hfw]
    obtain ⟨f1, e1, e2, e3⟩ := step
    obtain ⟨f', g1, g2, g3⟩ := ih (A ++ [w]) f1 (by rw [ho]; simp)
      (by
        intro x hx
        rcases List.mem_append.1 hx with hx' | hx'
        · rw [e3 x (by rintro rfl; exact hwA hx')]
          exact h1 x hx'
        · rw [List.mem_singleton.1 hx']
          exact e2)
      (by
        intro x hx
        simp only [List.mem_append, List.mem_singleton, not_or] at hx
        rw [e3 x hx.2, h2 x hx.1])
    refine ⟨f', ?_, g2, g3⟩
    rw [List.foldlM_cons, run_bind_ok e1]
    exact g1

end

/-! ### The tree -/

theorem tree_fold (idom : Nat → Option Nat) (ns : List Nat) : ∀ (acc : (Nat → List Nat) × List (Nat × Nat)),
    (∀ d n, n ∈ acc.1 d ↔ (d, n) ∈ acc.2) →
    (∀ d n, n ∈ (ns.foldl (treeStep idom) acc).1 d ↔ (d, n) ∈ acc.2 ∨ (n ∈ ns ∧ idom n = some d)) ∧
    (∀ d n, (d, n) ∈ (ns.foldl (treeStep idom) acc).2 ↔ (d, n) ∈ acc.2 ∨ (n ∈ ns ∧ idom n = some d)) := by
  induction ns with
  | nil => intro acc h; simp [h]
  | cons m ns ih =>
    intro acc h
    have step : (∀ d n, n ∈ (treeStep idom acc m).1 d ↔ (d, n) ∈ (treeStep idom acc m).2) ∧
        ∀ d n, (d, n) ∈ (treeStep idom acc m).2 ↔ (d, n) ∈ acc.2 ∨ (n = m ∧ idom n = some d) := by
      unfold treeStep
      cases hm : idom m with
      | none =>
        refine ⟨h, ?_⟩
        intro d n
        constructor
        · exact Or.inl
        · rintro (h | ⟨rfl, h⟩)
          · exact h
          · rw [hm] at h; cases h
      | some e =>
        have h2 : ∀ d n, (d, n) ∈ (if (e, m) ∈ acc.2 then acc.2 else acc.2 ++ [(e, m)]) ↔
            (d, n) ∈ acc.2 ∨ (n = m ∧ idom n = some d) := by
          intro d n
          split
          · rename_i hin
            constructor
            · exact Or.inl
            · rintro (h | ⟨rfl, h⟩)
              · exact h
              · rw [hm] at h; cases h; exact hin
          · rw [List.mem_append, List.mem_singleton, Prod.mk.injEq]
            constructor
            · rintro (h | ⟨rfl, rfl⟩)
              · exact Or.inl h
              · exact Or.inr ⟨rfl, hm⟩
            · rintro (h | ⟨rfl, h⟩)
              · exact Or.inl h
              · rw [hm] at h; cases h; exact Or.inr ⟨rfl, rfl⟩
        refine ⟨?_, h2⟩
        intro d n
        rw [h2]
        show n ∈ (if m ∈ acc.1 e then acc.1 else put acc.1 e (acc.1 e ++ [m])) d ↔ _
        split
        · rename_i hin
          rw [h]
          constructor
          · exact Or.inl
          · rintro (h' | ⟨rfl, h'⟩)
            · exact h'
            · rw [hm] at h'; cases h'; exact (h _ _).1 hin
        · by_cases hd : d = e
          · subst hd
            rw [put_same, List.mem_append, List.mem_singleton, h]
            constructor
            · rintro (h' | rfl)
              · exact Or.inl h'
              · exact Or.inr ⟨rfl, hm⟩
            · rintro (h' | ⟨rfl, _⟩)
              · exact Or.inl h'
              · exact Or.inr rfl
          · rw [put_ne _ _ _ hd, h]
            constructor
            · exact Or.inl
            · rintro (h' | ⟨rfl, h'⟩)
              · exact h'
              · rw [hm] at h'; cases h'; exact absurd rfl hd
    obtain ⟨g1, g2⟩ := ih (treeStep idom acc m) step.1
    rw [List.foldl_cons]
    have key : ∀ d n, ((d, n) ∈ (treeStep idom acc m).2 ∨ (n ∈ ns ∧ idom n = some d)) ↔
        ((d, n) ∈ acc.2 ∨ (n ∈ m :: ns ∧ idom n = some d)) := by
      intro d n
      rw [step.2, List.mem_cons]
      tauto
    exact ⟨fun d n => (g1 d n).trans (key d n), fun d n => (g2 d n).trans (key d n)⟩

theorem tree_nodup (idom : Nat → Option Nat) (ns : List Nat) : ∀ (acc : (Nat → List Nat) × List (Nat × Nat)),
    (∀ d, (acc.1 d).Nodup) → acc.2.Nodup →
    (∀ d, ((ns.foldl (treeStep idom) acc).1 d).Nodup) ∧ (ns.foldl (treeStep idom) acc).2.Nodup := by
  induction ns with
  | nil => intro acc h h'; exact ⟨h, h'⟩
  | cons m ns ih =>
    intro acc h h'
    rw [List.foldl_cons]
    apply ih
    · unfold treeStep
      cases idom m with
      | none => exact h
      | some e =>
        intro d
        show ((if m ∈ acc.1 e then acc.1 else put acc.1 e (acc.1 e ++ [m])) d).Nodup
        split
        · exact h d
        · rename_i hin
          by_cases hd : d = e
          · subst hd
            rw [put_same, List.nodup_append]
            exact ⟨h d, by simp, fun a ha b hb => by rw [List.mem_singleton.1 hb]; rintro rfl; exact hin ha⟩
          · rw [put_ne _ _ _ hd]; exact h d
    · unfold treeStep
      cases idom m with
      | none => exact h'
      | some e =>
        show (if (e, m) ∈ acc.2 then acc.2 else acc.2 ++ [(e, m)]).Nodup
        split
        · exact h'
        · rename_i hin
          rw [List.nodup_append]
          exact ⟨h', by simp, fun a ha b hb => by rw [List.mem_singleton.1 hb]; rintro rfl; exact hin ha⟩

/-- A vertex of the search is a block that can be reached. -/
theorem vertex_iff {succ : Nat → List Nat} {root : Nat} {V : Nat → Prop} {num : Nat → Nat}
    {par : Nat → Option Nat} {dep : Nat → Int} (T : DfsTree succ root V num par dep) (x : Nat) :
    V x ↔ Spec.Reach succ root x := by
  constructor
  · intro h
    obtain ⟨l, p, _⟩ := T.tree_path (T.root_anc h) h
    exact ⟨l, p⟩
  · rintro ⟨l, p⟩
    exact T.path_mem p T.root_mem x (Path.mem_end p)

/-! ### Dominance -/

theorem dom_antisymm {succ : Nat → List Nat} {root a b : Nat} (hb : Spec.Reach succ root b)
    (h1 : Spec.Dom succ root a b) (h2 : Spec.Dom succ root b a) : a = b := by
  obtain ⟨l, p⟩ := hb
  obtain ⟨y, m, p1, p2, p3, _⟩ := Path.first p (fun x => x = a ∨ x = b) (Or.inr rfl)
  by_contra hne
  rcases p2 with rfl | rfl
  · exact p3 b (h2 m p1) (Ne.symm hne) (Or.inr rfl)
  · exact p3 a (h1 m p1) hne (Or.inl rfl)

theorem dom_reach {succ : Nat → List Nat} {root a b : Nat} (hb : Spec.Reach succ root b)
    (h1 : Spec.Dom succ root a b) : Spec.Reach succ root a := by
  obtain ⟨l, p⟩ := hb
  have key : ∀ {x l b}, Path succ x l b → ∀ a ∈ l, Spec.Reach succ x a := by
    intro x l b p
    induction p with
    | single x =>
      intro a ha
      rw [List.mem_singleton.1 ha]
      exact ⟨[x], .single x⟩
    | step e _ ih =>
      intro a ha
      rcases List.mem_cons.1 ha with rfl | ha
      · exact ⟨_, .single _⟩
      · obtain ⟨m, q⟩ := ih a ha
        exact ⟨_, .step e q⟩
  exact key p a (h1 l p)

theorem idom_unique {succ : Nat → List Nat} {root d e w : Nat} (hw : Spec.Reach succ root w)
    (h1 : Spec.Idom succ root d w) (h2 : Spec.Idom succ root e w) : d = e :=
  dom_antisymm (dom_reach hw h2.2.1) (h2.2.2 d h1.1 h1.2.1) (h1.2.2 e h2.1 h2.2.1)

theorem idom_root {succ : Nat → List Nat} {root d : Nat} : ¬ Spec.Idom succ root d root := by
  rintro ⟨h1, h2, _⟩
  exact h1 (List.mem_singleton.1 (h2 [root] (.single root)))

end Verif
