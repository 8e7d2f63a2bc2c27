import Verif.Proof.Frontier
import Verif.Proof.Ssa

/-! # The dominator tree goes through every block once -/

namespace Verif

open Spec (Path Reach Dom Idom)

/-- The dominators of a block are linearly ordered. -/
theorem dom_line {succ : Nat → List Nat} {root : Nat} {nodes : List Nat} {f : Nat → Option Nat}
    (hf : IdomOk succ root f) (hnodes : ∀ x, Reach succ root x → x ∈ nodes) : ∀ (k w : Nat), domCount succ root nodes w = k →
    Reach succ root w → ∀ a b, Dom succ root a w → Dom succ root b w → Dom succ root a b ∨ Dom succ root b a := by
  intro k
  induction k using Nat.strongRecOn with
  | _ k ih =>
    intro w hk hw a b ha hb
    by_cases h1 : a = w
    · exact Or.inr (h1 ▸ hb)
    by_cases h2 : b = w
    · exact Or.inl (h2 ▸ ha)
    have hr : w ≠ root := by
      rintro rfl
      exact h1 (dom_root ha)
    obtain ⟨d, hd⟩ := hf.some w hw hr
    have hi := ((hf.iff w d).1 hd).2
    exact ih _ (by rw [← hk]; exact domCount_lt (hnodes w hw) hw hi) d rfl (dom_reach hw hi.2.1) a b
      (hi.2.2 a h1 ha) (hi.2.2 b h2 hb)

/-- A block strictly dominated by another is below exactly one child of it. -/
theorem dom_child {succ : Nat → List Nat} {root : Nat} {nodes : List Nat} {f : Nat → Option Nat}
    (hf : IdomOk succ root f) (hnodes : ∀ x, Reach succ root x → x ∈ nodes) : ∀ (k w : Nat), domCount succ root nodes w = k →
    Reach succ root w → ∀ n, Dom succ root n w → n ≠ w → ∃ c, f c = some n ∧ Dom succ root c w := by
  intro k
  induction k using Nat.strongRecOn with
  | _ k ih =>
    intro w hk hw n hn hne
    have hr : w ≠ root := by
      rintro rfl
      exact hne (dom_root hn)
    obtain ⟨d, hd⟩ := hf.some w hw hr
    have hi := ((hf.iff w d).1 hd).2
    by_cases h : n = d
    · exact ⟨w, h ▸ hd, dom_refl⟩
    · obtain ⟨c, h1, h2⟩ := ih _ (by rw [← hk]; exact domCount_lt (hnodes w hw) hw hi) d rfl (dom_reach hw hi.2.1) n
        (hi.2.2 n hne hn) h
      exact ⟨c, h1, dom_trans h2 hi.2.1⟩

theorem child_unique {succ : Nat → List Nat} {root : Nat} {nodes : List Nat} {f : Nat → Option Nat}
    (hf : IdomOk succ root f) (hnodes : ∀ x, Reach succ root x → x ∈ nodes) {n c c' w : Nat} (hw : Reach succ root w)
    (h1 : f c = some n) (h2 : f c' = some n) (h3 : Dom succ root c w) (h4 : Dom succ root c' w) : c = c' := by
  have key : ∀ c c', f c = some n → f c' = some n → Dom succ root c c' → c = c' := by
    intro c c' h1 h2 h
    by_contra hne
    obtain ⟨hc, i1⟩ := (hf.iff c n).1 h1
    obtain ⟨_, i2⟩ := (hf.iff c' n).1 h2
    exact i1.1 (dom_antisymm hc i1.2.1 (i2.2.2 c hne h))
  rcases dom_line hf hnodes _ w rfl hw c c' h3 h4 with h | h
  · exact key c c' h1 h2 h
  · exact (key c' c h2 h1 h).symm

theorem sum_indicator {l : List Nat} (hn : l.Nodup) (g : Nat → Nat) {c : Nat} (hc : c ∈ l) (h1 : g c = 1)
    (h0 : ∀ x ∈ l, x ≠ c → g x = 0) : (l.map g).sum = 1 := by
  induction l with
  | nil => cases hc
  | cons a l ih =>
    rw [List.map_cons, List.sum_cons]
    rw [List.nodup_cons] at hn
    rcases List.mem_cons.1 hc with rfl | hc
    · have : (l.map g).sum = 0 := by
        have : ∀ x ∈ l, g x = 0 := fun x hx => h0 x (List.mem_cons_of_mem _ hx) (by rintro rfl; exact hn.1 hx)
        clear ih h0 hn hc
        induction l with
        | nil => rfl
        | cons b l ih =>
          rw [List.map_cons, List.sum_cons, this b (by simp), ih fun x hx => this x (List.mem_cons_of_mem _ hx)]
      rw [h1, this]
    · have ha : a ≠ c := by
        rintro rfl
        exact hn.1 hc
      rw [h0 a (by simp) ha, ih hn.2 hc fun x hx => h0 x (List.mem_cons_of_mem _ hx)]

theorem sum_zero {l : List Nat} (g : Nat → Nat) (h0 : ∀ x ∈ l, g x = 0) : (l.map g).sum = 0 := by
  induction l with
  | nil => rfl
  | cons b l ih =>
    rw [List.map_cons, List.sum_cons, h0 b (by simp), ih fun x hx => h0 x (List.mem_cons_of_mem _ hx)]

theorem domCount_le (succ : Nat → List Nat) (root : Nat) (nodes : List Nat) (w : Nat) :
    domCount succ root nodes w ≤ nodes.length := by
  classical
  unfold domCount
  exact List.length_filter_le _ _

/-- Below `n`, every block dominated by `n` comes once. -/
theorem preorder_count {succ : Nat → List Nat} {root : Nat} {nodes : List Nat} {f : Nat → Option Nat}
    {domSucc : Nat → List Nat} (hf : IdomOk succ root f) (hnodes : ∀ x, Reach succ root x → x ∈ nodes)
    (hd : ∀ d w, w ∈ domSucc d ↔ f w = some d) (hdn : ∀ d, (domSucc d).Nodup) :
    ∀ (fuel n w : Nat), Reach succ root n → nodes.length < fuel + domCount succ root nodes n →
      (Reach succ root w → Dom succ root n w → (preorder domSucc fuel n).count w = 1) ∧
      (¬ (Reach succ root w ∧ Dom succ root n w) → (preorder domSucc fuel n).count w = 0) := by
  intro fuel
  induction fuel with
  | zero =>
    intro n w hn h
    have := domCount_le succ root nodes n
    omega
  | succ fuel ih =>
    intro n w hn hfu
    have hch : ∀ c ∈ domSucc n, Reach succ root c ∧ Idom succ root n c ∧
        nodes.length < fuel + domCount succ root nodes c := by
      intro c hc
      obtain ⟨h1, h2⟩ := (hf.iff c n).1 ((hd n c).1 hc)
      have := domCount_lt (hnodes c h1) h1 h2
      exact ⟨h1, h2, by omega⟩
    have hcount : (preorder domSucc (fuel + 1) n).count w
        = ((domSucc n).map fun c => (preorder domSucc fuel c).count w).sum + if n = w then 1 else 0 := by
      rw [preorder, List.count_cons, List.count_flatMap]
      simp [Function.comp_def]
    rw [hcount]
    constructor
    · intro hw hdw
      by_cases he : n = w
      · subst he
        rw [if_pos rfl, sum_zero]
        intro c hc
        obtain ⟨h1, h2, h3⟩ := hch c hc
        exact (ih c n h1 h3).2 fun h => h2.1 (dom_antisymm h1 h2.2.1 h.2)
      · obtain ⟨c, c1, c2⟩ := dom_child hf hnodes _ w rfl hw n hdw he
        have hc := (hd n c).2 c1
        obtain ⟨h1, h2, h3⟩ := hch c hc
        rw [if_neg he, sum_indicator (hdn n) _ hc ((ih c w h1 h3).1 hw c2)]
        intro x hx hxc
        obtain ⟨g1, g2, g3⟩ := hch x hx
        exact (ih x w g1 g3).2 fun h => hxc (child_unique hf hnodes hw ((hd n x).1 hx) c1 h.2 c2)
    · intro hno
      have he : n ≠ w := by
        rintro rfl
        exact hno ⟨hn, dom_refl⟩
      rw [if_neg he, sum_zero]
      intro c hc
      obtain ⟨h1, h2, h3⟩ := hch c hc
      exact (ih c w h1 h3).2 fun h => hno ⟨h.1, dom_trans h2.2.1 h.2⟩

/-- From the root. -/
theorem preorder_root {succ : Nat → List Nat} {root : Nat} {nodes : List Nat} {f : Nat → Option Nat}
    {domSucc : Nat → List Nat} (hf : IdomOk succ root f) (hnodes : ∀ x, Reach succ root x → x ∈ nodes)
    (hd : ∀ d w, w ∈ domSucc d ↔ f w = some d) (hdn : ∀ d, (domSucc d).Nodup) {fuel : Nat} (hfu : nodes.length ≤ fuel) :
    (preorder domSucc fuel root).Nodup ∧ ∀ w, w ∈ preorder domSucc fuel root ↔ Reach succ root w := by
  classical
  have hr : Reach succ root root := ⟨_, .single root⟩
  have hpos : 0 < domCount succ root nodes root := by
    unfold domCount
    exact List.length_pos_of_mem (List.mem_filter.2 ⟨hnodes root hr, decide_eq_true dom_refl⟩)
  have hdom : ∀ w, Dom succ root root w := fun w l p => Path.mem_start p
  have h := fun w => preorder_count hf hnodes hd hdn fuel root w hr (by omega)
  constructor
  · rw [List.nodup_iff_count_le_one]
    intro w
    by_cases hw : Reach succ root w
    · rw [(h w).1 hw (hdom w)]
    · rw [(h w).2 fun h => hw h.1]
      omega
  · intro w
    rw [← List.count_pos_iff]
    constructor
    · intro hc
      by_contra hw
      rw [(h w).2 fun h => hw h.1] at hc
      omega
    · intro hw
      rw [(h w).1 hw (hdom w)]
      omega

end Verif
