import Verif.Model.Dominators
import Verif.Proof.DfsTree
import Mathlib.Data.List.Perm.Subperm

/-! # The depth-first search makes a depth-first tree -/

namespace Verif

open Spec (Path)

/-- A search of the vertices `ns` below `p`, some vertices already visited; it
finds the last argument. -/
inductive Forest (succ : Nat → List Nat) (par : Nat → Option Nat) (dep : Nat → Int) :
    List Nat → Nat → List Nat → List Nat → Prop
  | nil (vis : List Nat) (p : Nat) : Forest succ par dep vis p [] []
  | seen {vis p n ns o} : n ∈ vis → Forest succ par dep vis p ns o → Forest succ par dep vis p (n :: ns) o
  | visit {vis p n ns o1 o2} : n ∉ vis → par n = some p → dep n = dep p + 1 → n ∈ succ p →
      Forest succ par dep (vis ++ [n]) n (succ n) o1 →
      Forest succ par dep (vis ++ n :: o1) p ns o2 → Forest succ par dep vis p (n :: ns) (n :: (o1 ++ o2))

section
variable {succ : Nat → List Nat} {par : Nat → Option Nat} {dep : Nat → Int}

theorem Forest.disjoint {vis p ns o} (h : Forest succ par dep vis p ns o) : ∀ x ∈ o, x ∉ vis := by
  induction h with
  | nil => intro x hx; cases hx
  | seen _ _ ih => exact ih
  | @visit vis p n ns o1 o2 hn _ _ _ _ _ ih1 ih2 =>
    intro x hx
    rcases List.mem_cons.1 hx with rfl | hx
    · exact hn
    · rcases List.mem_append.1 hx with hx | hx
      · exact fun h => ih1 x hx (List.mem_append_left _ h)
      · exact fun h => ih2 x hx (List.mem_append_left _ h)

theorem Forest.nodup {vis p ns o} (h : Forest succ par dep vis p ns o) : o.Nodup := by
  induction h with
  | nil => exact List.nodup_nil
  | seen _ _ ih => exact ih
  | @visit vis p n ns o1 o2 hn _ _ _ h1 h2 ih1 ih2 =>
    rw [List.nodup_cons]
    refine ⟨?_, ?_⟩
    · intro hx
      rcases List.mem_append.1 hx with hx | hx
      · exact h1.disjoint n hx (by simp)
      · exact h2.disjoint n hx (by simp)
    · rw [List.nodup_append]
      refine ⟨ih1, ih2, ?_⟩
      rintro a ha b hb rfl
      exact h2.disjoint a hb (by simp [ha])

theorem Forest.covers {vis p ns o} (h : Forest succ par dep vis p ns o) : ∀ x ∈ ns, x ∈ vis ∨ x ∈ o := by
  induction h with
  | nil => intro x hx; cases hx
  | seen hn _ ih =>
    intro x hx
    rcases List.mem_cons.1 hx with rfl | hx
    · exact Or.inl hn
    · exact ih x hx
  | @visit vis p n ns o1 o2 hn _ _ _ h1 h2 ih1 ih2 =>
    intro x hx
    rcases List.mem_cons.1 hx with rfl | hx
    · exact Or.inr (by simp)
    · rcases ih2 x hx with h | h
      · rcases List.mem_append.1 h with h | h
        · exact Or.inl h
        · right
          rcases List.mem_cons.1 h with rfl | h
          · simp
          · simp [h]
      · right
        simp [h]

/-- Parents are found before, and are at the root of the forest or inside it. -/
theorem Forest.parents {vis p ns o} (h : Forest succ par dep vis p ns o) :
    ∀ l1 x l2, o = l1 ++ x :: l2 → ∃ q, par x = some q ∧ (q = p ∨ q ∈ l1) ∧ x ∈ succ q ∧ dep x = dep q + 1 := by
  induction h with
  | nil => intro l1 x l2 e; simp at e
  | seen _ _ ih => exact ih
  | @visit vis p n ns o1 o2 hn hp hd hs h1 h2 ih1 ih2 =>
    intro l1 x l2 e
    cases l1 with
    | nil =>
      simp only [List.nil_append, List.cons.injEq] at e
      rw [← e.1]
      exact ⟨p, hp, Or.inl rfl, hs, hd⟩
    | cons a l1 =>
      simp only [List.cons_append, List.cons.injEq] at e
      obtain ⟨rfl, e⟩ := e
      rw [List.append_eq_append_iff] at e
      rcases e with ⟨m, e1, e2⟩ | ⟨m, e1, e2⟩
      · obtain ⟨q, g1, g2, g3, g4⟩ := ih2 m x l2 e2
        refine ⟨q, g1, ?_, g3, g4⟩
        rcases g2 with g2 | g2
        · exact Or.inl g2
        · right
          rw [e1]
          simp [g2]
      · cases m with
        | nil =>
          simp only [List.nil_append] at e2
          obtain ⟨q, g1, g2, g3, g4⟩ := ih2 [] x l2 e2.symm
          refine ⟨q, g1, ?_, g3, g4⟩
          rcases g2 with g2 | g2
          · exact Or.inl g2
          · cases g2
        | cons y m =>
          simp only [List.cons_append, List.cons.injEq] at e2
          obtain ⟨rfl, e2⟩ := e2
          obtain ⟨q, g1, g2, g3, g4⟩ := ih1 l1 x m e1
          refine ⟨q, g1, ?_, g3, g4⟩
          right
          rcases g2 with g2 | g2
          · simp [g2]
          · simp [g2]

theorem Forest.par_in {vis p ns o} (h : Forest succ par dep vis p ns o) {x q : Nat} (hx : x ∈ o)
    (hq : par x = some q) : q = p ∨ q ∈ o := by
  obtain ⟨l1, l2, e⟩ := List.append_of_mem hx
  obtain ⟨q', g1, g2, _⟩ := h.parents l1 x l2 e
  rw [hq] at g1
  cases g1
  rcases g2 with g2 | g2
  · exact Or.inl g2
  · exact Or.inr (by rw [e]; simp [g2])

theorem Forest.anc {vis p ns o} (h : Forest succ par dep vis p ns o) : ∀ x ∈ o, Anc par p x := by
  induction h with
  | nil => intro x hx; cases hx
  | seen _ _ ih => exact ih
  | @visit vis p n ns o1 o2 hn hp hd hs h1 h2 ih1 ih2 =>
    intro x hx
    have hpn : Anc par p n := .step hp (.refl _)
    rcases List.mem_cons.1 hx with rfl | hx
    · exact hpn
    · rcases List.mem_append.1 hx with hx | hx
      · exact hpn.trans (ih1 x hx)
      · exact ih2 x hx

/-- The descendants of a vertex are found right after it, before anything else, and
so are its successors unless found before. -/
theorem Forest.intervals {vis p ns o} (h : Forest succ par dep vis p ns o) (hp : p ∈ vis) :
    ∀ m ∈ o, ∃ l1 l2 l3, o = l1 ++ m :: (l2 ++ l3) ∧ (∀ y ∈ l2, Anc par m y) ∧
      (∀ y ∈ succ m, y ∈ vis ∨ y ∈ l1 ∨ y = m ∨ y ∈ l2) ∧
      (∀ y, y ∈ l1 ∨ y ∈ l3 → ∀ q, par y = some q → q ≠ m ∧ q ∉ l2) := by
  induction h with
  | nil => intro m hm; cases hm
  | seen _ _ ih => exact ih hp
  | @visit vis p n ns o1 o2 hn hpn hd hs h1 h2 ih1 ih2 =>
    have d1 := h1.disjoint
    have d2 := h2.disjoint
    intro m hm
    rcases List.mem_cons.1 hm with rfl | hm
    · refine ⟨[], o1, o2, rfl, h1.anc, ?_, ?_⟩
      · intro y hy
        rcases h1.covers y hy with h | h
        · rcases List.mem_append.1 h with h | h
          · exact Or.inl h
          · exact Or.inr (Or.inr (Or.inl (List.mem_singleton.1 h)))
        · exact Or.inr (Or.inr (Or.inr h))
      · rintro y (hy | hy) q hq
        · cases hy
        · rcases h2.par_in hy hq with rfl | h
          · exact ⟨fun e => hn (e ▸ hp), fun h => d1 _ h (List.mem_append_left _ hp)⟩
          · exact ⟨fun e => d2 q h (by simp [e]), fun h' => d2 q h (by simp [h'])⟩
    · rcases List.mem_append.1 hm with hm | hm
      · obtain ⟨l1, l2, l3, e, g1, g2, g3⟩ := ih1 (by simp) m hm
        refine ⟨n :: l1, l2, l3 ++ o2, ?_, g1, ?_, ?_⟩
        · rw [e]; simp
        · intro y hy
          rcases g2 y hy with h | h | h
          · rcases List.mem_append.1 h with h | h
            · exact Or.inl h
            · right; left
              rw [List.mem_singleton.1 h]
              simp
          · right; left; simp [h]
          · exact Or.inr (Or.inr h)
        · have hm1 : ∀ q, q = m ∨ q ∈ l2 → q ∈ o1 := by
            rintro q (rfl | h)
            · exact hm
            · rw [e]; simp [h]
          intro y hy q hq
          have hcase : y = n ∨ (y ∈ l1 ∨ y ∈ l3) ∨ y ∈ o2 := by
            rcases hy with hy | hy
            · rcases List.mem_cons.1 hy with h | h
              · exact Or.inl h
              · exact Or.inr (Or.inl (Or.inl h))
            · rcases List.mem_append.1 hy with h | h
              · exact Or.inr (Or.inl (Or.inr h))
              · exact Or.inr (Or.inr h)
          have hout : q ∉ o1 → q ≠ m ∧ q ∉ l2 := fun h =>
            ⟨fun e => h (hm1 q (Or.inl e)), fun e => h (hm1 q (Or.inr e))⟩
          rcases hcase with rfl | h | h
          · rw [hpn] at hq
            cases hq
            exact hout fun h => d1 _ h (List.mem_append_left _ hp)
          · exact g3 y h q hq
          · apply hout
            rcases h2.par_in h hq with rfl | h'
            · exact fun h => d1 _ h (List.mem_append_left _ hp)
            · exact fun h1 => d2 q h' (by simp [h1])
      · obtain ⟨l1, l2, l3, e, g1, g2, g3⟩ := ih2 (by simp [hp]) m hm
        refine ⟨n :: (o1 ++ l1), l2, l3, ?_, g1, ?_, ?_⟩
        · rw [e]; simp
        · intro y hy
          rcases g2 y hy with h | h | h
          · rcases List.mem_append.1 h with h | h
            · exact Or.inl h
            · right; left
              rcases List.mem_cons.1 h with h | h <;> simp [h]
          · right; left; simp [h]
          · exact Or.inr (Or.inr h)
        · have hm1 : ∀ q, q = m ∨ q ∈ l2 → q ∈ o2 := by
            rintro q (rfl | h)
            · exact hm
            · rw [e]; simp [h]
          intro y hy q hq
          have hout : q ∉ o2 → q ≠ m ∧ q ∉ l2 := fun h =>
            ⟨fun e => h (hm1 q (Or.inl e)), fun e => h (hm1 q (Or.inr e))⟩
          have hcase : y = n ∨ y ∈ o1 ∨ (y ∈ l1 ∨ y ∈ l3) := by
            rcases hy with hy | hy
            · rcases List.mem_cons.1 hy with h | h
              · exact Or.inl h
              · rcases List.mem_append.1 h with h | h
                · exact Or.inr (Or.inl h)
                · exact Or.inr (Or.inr (Or.inl h))
            · exact Or.inr (Or.inr (Or.inr hy))
          rcases hcase with rfl | h | h
          · rw [hpn] at hq
            cases hq
            exact hout fun h => d2 _ h (by simp [hp])
          · apply hout
            rcases h1.par_in h hq with rfl | h'
            · exact fun h => d2 _ h (by simp)
            · exact fun h1 => d2 q h1 (by simp [h'])
          · exact g3 y h q hq

end

/-- Numbering of the vertices: their place in the list. -/
def numOf (L : List Nat) (x : Nat) : Nat := L.idxOf x

theorem numOf_append {L l1 l2 : List Nat} {x : Nat} (hn : L.Nodup) (h : L = l1 ++ x :: l2) :
    numOf L x = l1.length := by
  unfold numOf
  subst h
  rw [List.nodup_append] at hn
  rw [List.idxOf_append_of_notMem (fun hx => hn.2.2 x hx x (by simp) rfl), List.idxOf_cons_self]
  simp

theorem numOf_lt_iff {L l1 l2 : List Nat} {x y : Nat} (hn : L.Nodup) (h : L = l1 ++ x :: l2) (hy : y ∈ L) :
    (numOf L y < numOf L x ↔ y ∈ l1) ∧ (numOf L x < numOf L y ↔ y ∈ l2) := by
  have hx := numOf_append hn h
  have hyy : y ∈ l1 ∨ y = x ∨ y ∈ l2 := by
    rw [h] at hy
    simpa using hy
  have hn' := hn
  rw [h, List.nodup_append, List.nodup_cons] at hn'
  obtain ⟨_, ⟨hx2, _⟩, hd⟩ := hn'
  have k1 : y ∈ l1 → numOf L y < numOf L x := by
    intro hy
    obtain ⟨a, b, e⟩ := List.append_of_mem hy
    have := numOf_append (x := y) (l1 := a) (l2 := b ++ x :: l2) hn (by rw [h, e]; simp)
    rw [this, hx, e]
    simp
  have k2 : y ∈ l2 → numOf L x < numOf L y := by
    intro hy
    obtain ⟨a, b, e⟩ := List.append_of_mem hy
    have := numOf_append (x := y) (l1 := l1 ++ x :: a) (l2 := b) hn (by rw [h, e]; simp)
    rw [this, hx]
    simp
  constructor
  · constructor
    · intro hlt
      rcases hyy with h1 | rfl | h1
      · exact h1
      · omega
      · have := k2 h1
        omega
    · exact k1
  · constructor
    · intro hlt
      rcases hyy with h1 | rfl | h1
      · have := k1 h1
        omega
      · omega
      · exact h1
    · exact k2

/-- A search from the root gives a depth-first tree. -/
theorem Forest.tree {succ : Nat → List Nat} {par : Nat → Option Nat} {dep : Nat → Int} {root : Nat} {o : List Nat}
    (h : Forest succ par dep [root] root (succ root) o) (hr : par root = none) (hd : dep root = 0) :
    DfsTree succ root (· ∈ root :: o) (numOf (root :: o)) par dep := by
  have hro : root ∉ o := fun h' => h.disjoint root h' (by simp)
  have hn : (root :: o).Nodup := List.nodup_cons.2 ⟨hro, h.nodup⟩
  have hroot : numOf (root :: o) root = 0 := numOf_append (l1 := []) hn rfl
  have hint := h.intervals (by simp)
  -- the interval of every vertex
  have key : ∀ m ∈ root :: o, ∃ l1 l2 l3, root :: o = l1 ++ m :: (l2 ++ l3) ∧ (∀ y ∈ l2, Anc par m y) ∧
      (∀ y ∈ succ m, y ∈ l1 ∨ y = m ∨ y ∈ l2) ∧
      (∀ y, y ∈ l1 ∨ y ∈ l3 → ∀ q, par y = some q → q ≠ m ∧ q ∉ l2) := by
    intro m hm
    rcases List.mem_cons.1 hm with rfl | hm
    · refine ⟨[], o, [], by simp, h.anc, ?_, ?_⟩
      · intro y hy
        rcases h.covers y hy with h' | h'
        · exact Or.inr (Or.inl (List.mem_singleton.1 h'))
        · exact Or.inr (Or.inr h')
      · rintro y (hy | hy) <;> cases hy
    · obtain ⟨l1, l2, l3, e, g1, g2, g3⟩ := hint m hm
      refine ⟨root :: l1, l2, l3, by rw [e]; simp, g1, ?_, ?_⟩
      · intro y hy
        rcases g2 y hy with h' | h' | h'
        · left; simp [List.mem_singleton.1 h']
        · left; simp [h']
        · exact Or.inr h'
      · intro y hy q hq
        have : y = root ∨ (y ∈ l1 ∨ y ∈ l3) := by
          rcases hy with hy | hy
          · rcases List.mem_cons.1 hy with h' | h'
            · exact Or.inl h'
            · exact Or.inr (Or.inl h')
          · exact Or.inr (Or.inr hy)
        rcases this with rfl | h'
        · rw [hr] at hq; cases hq
        · exact g3 y h' q hq
  have hpar : ∀ w ∈ o, ∃ p, par w = some p ∧ p ∈ root :: o ∧ w ∈ succ p ∧
      numOf (root :: o) p < numOf (root :: o) w ∧ dep w = dep p + 1 := by
    intro w hw
    obtain ⟨l1, l2, e⟩ := List.append_of_mem hw
    obtain ⟨q, g1, g2, g3, g4⟩ := h.parents l1 w l2 e
    have hq : q ∈ root :: l1 := by
      rcases g2 with rfl | g2
      · simp
      · simp [g2]
    have hqo : q ∈ root :: o := by
      rw [e]
      rcases List.mem_cons.1 hq with rfl | hq
      · simp
      · simp [hq]
    exact ⟨q, g1, hqo, g3, ((numOf_lt_iff (l1 := root :: l1) (l2 := l2) hn (by rw [e]; simp) hqo).1).2 hq, g4⟩
  -- descendants are in the interval
  have hdesc : ∀ m l1 l2 l3, root :: o = l1 ++ m :: (l2 ++ l3) →
      (∀ y, y ∈ l1 ∨ y ∈ l3 → ∀ q, par y = some q → q ≠ m ∧ q ∉ l2) →
      ∀ x, Anc par m x → x ∈ root :: o → x = m ∨ x ∈ l2 := by
    intro m l1 l2 l3 e g3 x hx
    induction hx with
    | refl => intro _; exact Or.inl rfl
    | @step q b hq _ ih =>
      intro hb
      have hqo : q ∈ root :: o := by
        rcases List.mem_cons.1 hb with rfl | hb
        · rw [hr] at hq; cases hq
        · obtain ⟨q', k1, k2, _⟩ := hpar b hb
          rw [hq] at k1
          cases k1
          exact k2
      have := ih hqo
      by_contra hno
      have hb13 : b ∈ l1 ∨ b ∈ l3 := by
        rw [e] at hb
        simp only [List.mem_append, List.mem_cons] at hb
        tauto
      obtain ⟨k1, k2⟩ := g3 b hb13 q hq
      rcases this with h' | h'
      · exact k1 h'
      · exact k2 h'
  refine ⟨by simp, hr, hd, ?_, ?_, ?_, ?_, ?_⟩
  · intro x y hx hy e
    exact (List.idxOf_inj hx).1 e
  · intro w hw hne
    rcases List.mem_cons.1 hw with h' | h'
    · exact absurd h' hne
    · exact hpar w h'
  · intro x y hx hy
    obtain ⟨l1, l2, l3, e, _, g2, _⟩ := key x hx
    rw [e]
    rcases g2 y hy with h' | h' | h' <;> simp [h']
  · intro x y hx hy hlt
    obtain ⟨l1, l2, l3, e, g1, g2, _⟩ := key x hx
    have hyo : y ∈ root :: o := by
      rw [e]
      rcases g2 y hy with h' | h' | h' <;> simp [h']
    rcases g2 y hy with h' | h' | h'
    · have := ((numOf_lt_iff hn e hyo).1).2 h'
      omega
    · rw [h'] at hlt; omega
    · exact g1 y h'
  · intro m y x hm hy hx hmy hyx hmx
    obtain ⟨l1, l2, l3, e, g1, _, g3⟩ := key m hm
    have hx2 := hdesc m l1 l2 l3 e g3 x hmx hx
    rcases Nat.lt_or_eq_of_le hmy with hlt | heq
    · have hy2 := ((numOf_lt_iff hn e hy).2).1 hlt
      rcases List.mem_append.1 hy2 with h' | h'
      · exact g1 y h'
      · exfalso
        obtain ⟨a, b, e3⟩ := List.append_of_mem h'
        have ey : root :: o = (l1 ++ m :: (l2 ++ a)) ++ y :: b := by
          rw [e, e3]; simp
        have : numOf (root :: o) x < numOf (root :: o) y := by
          apply ((numOf_lt_iff hn ey hx).1).2
          rcases hx2 with rfl | h' <;> simp [*]
        omega
    · have : m = y := (List.idxOf_inj hm).1 heq
      rw [this]
      exact .refl _

/-! ### The search -/

/-- One successor in the search. -/
def dfsVisit (g : FlowGraph) (fuel node : Nat) (index : Int) (acc : DfsSt × List Nat) (n : Nat) :
    Option (DfsSt × List Nat) :=
  if n ∈ acc.1.visited then some acc
  else do
    let r ← dominatorTreeDfs g fuel n (index + 1) { acc.1 with parent := put acc.1.parent n (some node) }
    pure (r.1, acc.2 ++ r.2)

theorem dfs_eq (g : FlowGraph) (fuel node : Nat) (index : Int) (s : DfsSt) :
    dominatorTreeDfs g (fuel + 1) node index s
      = (g.succ node).foldlM (dfsVisit g fuel node index)
          ({ s with idx := put s.idx node index, visited := s.visited ++ [node] }, [node]) := rfl

/-- What a search from `node` does. -/
structure DfsRun (g : FlowGraph) (node : Nat) (index : Int) (s s' : DfsSt) (o : List Nat) : Prop where
  visited : s'.visited = s.visited ++ node :: o
  parent : ∀ x, x ∉ o → s'.parent x = s.parent x
  idx : ∀ x, x ≠ node → x ∉ o → s'.idx x = s.idx x
  node_idx : s'.idx node = index
  forest : ∀ par dep, (∀ x ∈ o, par x = s'.parent x) → (∀ x ∈ o, dep x = s'.idx x) → dep node = index →
    Forest g.succ par dep (s.visited ++ [node]) node (g.succ node) o

/-- What the search of some successors does. -/
structure DfsRuns (g : FlowGraph) (node : Nat) (index : Int) (ns : List Nat) (s s' : DfsSt) (o : List Nat) :
    Prop where
  visited : s'.visited = s.visited ++ o
  fresh : ∀ x ∈ o, x ∉ s.visited
  parent : ∀ x, x ∉ o → s'.parent x = s.parent x
  idx : ∀ x, x ∉ o → s'.idx x = s.idx x
  forest : ∀ par dep, (∀ x ∈ o, par x = s'.parent x) → (∀ x ∈ o, dep x = s'.idx x) → dep node = index →
    Forest g.succ par dep s.visited node ns o

theorem dfsRuns_of (g : FlowGraph) (fuel node : Nat) (index : Int)
    (ih : ∀ n i s s' r, n ∉ s.visited → dominatorTreeDfs g fuel n i s = some (s', r) →
      ∃ o, r = n :: o ∧ DfsRun g n i s s' o) (ns : List Nat) (hns : ∀ n ∈ ns, n ∈ g.succ node) :
    ∀ (s s' : DfsSt) (res res' : List Nat),
      ns.foldlM (dfsVisit g fuel node index) (s, res) = some (s', res') →
      ∃ o, res' = res ++ o ∧ DfsRuns g node index ns s s' o := by
  induction ns with
  | nil =>
    intro s s' res res' h
    cases h
    exact ⟨[], by simp, by simp, by simp, by simp, by simp, fun par dep _ _ _ => .nil _ _⟩
  | cons n ns ihn =>
    intro s s' res res' h
    have ihn := ihn fun x hx => hns x (List.mem_cons_of_mem _ hx)
    rw [List.foldlM_cons] at h
    by_cases hv : n ∈ s.visited
    · have e : dfsVisit g fuel node index (s, res) n = some (s, res) := by
        unfold dfsVisit
        rw [if_pos hv]
      rw [e] at h
      obtain ⟨o, h1, h2⟩ := ihn s s' res res' h
      exact ⟨o, h1, h2.visited, h2.fresh, h2.parent, h2.idx,
        fun par dep a b c => .seen hv (h2.forest par dep a b c)⟩
    · cases hr : dominatorTreeDfs g fuel n (index + 1) { s with parent := put s.parent n (some node) } with
      | none =>
        have e : dfsVisit g fuel node index (s, res) n = none := by
          unfold dfsVisit
          rw [if_neg hv, hr]
          rfl
        rw [e] at h
        cases h
      | some q =>
        obtain ⟨s1, r1⟩ := q
        have e : dfsVisit g fuel node index (s, res) n = some (s1, res ++ r1) := by
          unfold dfsVisit
          rw [if_neg hv, hr]
          rfl
        rw [e] at h
        obtain ⟨o1, rfl, R1⟩ := ih n (index + 1) { s with parent := put s.parent n (some node) } s1 r1 hv hr
        obtain ⟨o2, h3, R2⟩ := ihn s1 s' _ res' h
        have hs1 : s1.visited = s.visited ++ n :: o1 := R1.visited
        have hf2 : ∀ x ∈ o2, x ∉ s.visited ∧ x ≠ n ∧ x ∉ o1 := by
          intro x hx
          have := R2.fresh x hx
          rw [hs1] at this
          simp only [List.mem_append, List.mem_cons, not_or] at this
          exact this
        -- the search below `n` leaves the vertices visited before alone
        have hF1 := R1.forest s1.parent s1.idx (fun _ _ => rfl) (fun _ _ => rfl) R1.node_idx
        have hd1 := hF1.disjoint
        have hno1 : n ∉ o1 := fun h => hd1 n h (by simp)
        refine ⟨n :: (o1 ++ o2), by rw [h3]; simp, ?_, ?_, ?_, ?_, ?_⟩
        · rw [R2.visited, hs1]; simp
        · intro x hx
          rcases List.mem_cons.1 hx with rfl | hx
          · exact hv
          · rcases List.mem_append.1 hx with hx | hx
            · exact fun h => hd1 x hx (List.mem_append_left _ h)
            · exact (hf2 x hx).1
        · intro x hx
          simp only [List.mem_cons, List.mem_append, not_or] at hx
          rw [R2.parent x hx.2.2, R1.parent x hx.2.1]
          exact put_ne' _ _ _ hx.1
        · intro x hx
          simp only [List.mem_cons, List.mem_append, not_or] at hx
          rw [R2.idx x hx.2.2, R1.idx x hx.1 hx.2.1]
        · intro par dep hp hd hnode
          have hn2 : n ∉ o2 := fun h => (hf2 n h).2.1 rfl
          have hpn : par n = some node := by
            rw [hp n (by simp), R2.parent n hn2, R1.parent n hno1]
            exact put_same' _ _ _
          have hdn : dep n = index + 1 := by
            rw [hd n (by simp), R2.idx n hn2, R1.node_idx]
          refine .visit hv hpn (by rw [hdn, hnode]) (hns n (by simp)) ?_ ?_
          · apply R1.forest par dep
            · intro x hx
              have h2 : x ∉ o2 := fun h => (hf2 x h).2.2 hx
              rw [hp x (by simp [hx]), R2.parent x h2]
            · intro x hx
              have h2 : x ∉ o2 := fun h => (hf2 x h).2.2 hx
              rw [hd x (by simp [hx]), R2.idx x h2]
            · exact hdn
          · rw [← hs1]
            exact R2.forest par dep (fun x hx => hp x (by simp [hx])) (fun x hx => hd x (by simp [hx])) hnode
where
  put_ne' {α : Type} (f : Nat → α) (k : Nat) (v : α) {x : Nat} (h : x ≠ k) : put f k v x = f x := by
    unfold put
    rw [if_neg h]
  put_same' {α : Type} (f : Nat → α) (k : Nat) (v : α) : put f k v k = v := by
    unfold put
    rw [if_pos rfl]

theorem dfs_run (g : FlowGraph) (fuel : Nat) : ∀ n i s s' r, n ∉ s.visited →
    dominatorTreeDfs g fuel n i s = some (s', r) → ∃ o, r = n :: o ∧ DfsRun g n i s s' o := by
  induction fuel with
  | zero => intro n i s s' r _ h; cases h
  | succ fuel ih =>
    intro n i s s' r hv h
    rw [dfs_eq] at h
    obtain ⟨o, h1, R⟩ := dfsRuns_of g fuel n i ih (g.succ n) (fun _ h => h) _ s' _ r h
    have hno : n ∉ o := fun h => R.fresh n h (by simp)
    refine ⟨o, h1, ?_, R.parent, ?_, ?_, R.forest⟩
    · rw [R.visited]; simp
    · intro x h1 h2
      rw [R.idx x h2]
      exact dfsRuns_of.put_ne' _ _ _ h1
    · rw [R.idx n hno]
      exact dfsRuns_of.put_same' _ _ _

/-- Vertices still to be visited. -/
def unseen (U vis : List Nat) : Nat := (U.filter fun x => decide (x ∉ vis)).length

theorem unseen_mono (U : List Nat) {v v' : List Nat} (h : ∀ x ∈ v, x ∈ v') : unseen U v' ≤ unseen U v := by
  unfold unseen
  induction U with
  | nil => simp
  | cons a U ih =>
    simp only [List.filter_cons]
    by_cases h1 : a ∈ v'
    · by_cases h2 : a ∈ v
      · simpa [h1, h2] using ih
      · simp only [h1, h2, not_true_eq_false, decide_false, Bool.false_eq_true, if_false, not_false_eq_true,
          decide_true, if_true, List.length_cons]
        omega
    · have h2 : a ∉ v := fun h2 => h1 (h a h2)
      simpa [h1, h2] using ih

theorem unseen_lt (U : List Nat) {v : List Nat} {n : Nat} (hn : n ∈ U) (hv : n ∉ v) :
    unseen U (v ++ [n]) < unseen U v := by
  induction U with
  | nil => cases hn
  | cons a U ih =>
    have hm := unseen_mono U (v := v) (v' := v ++ [n]) (fun x hx => by simp [hx])
    unfold unseen at *
    simp only [List.filter_cons]
    by_cases h1 : a = n
    · subst h1
      simp only [hv, List.mem_append, List.mem_singleton, or_true, not_true_eq_false, decide_false,
        Bool.false_eq_true, if_false, not_false_eq_true, decide_true, if_true, List.length_cons]
      simp only [List.mem_append, List.mem_singleton] at hm
      omega
    · have hnU : n ∈ U := by
        rcases List.mem_cons.1 hn with h | h
        · exact absurd h.symm h1
        · exact h
      have := ih hnU
      by_cases h2 : a ∈ v
      · simpa [h1, h2] using this
      · simp only [h1, h2, List.mem_append, List.mem_singleton, or_self, not_false_eq_true, decide_true,
          if_true, List.length_cons]
        simp only [List.mem_append, List.mem_singleton] at this
        omega

/-- The search ends. -/
theorem dfs_ends (g : FlowGraph) (U : List Nat) (hU : ∀ x ∈ U, ∀ y ∈ g.succ x, y ∈ U) (fuel : Nat) :
    ∀ n i s, n ∈ U → n ∉ s.visited → unseen U s.visited ≤ fuel → ∃ q, dominatorTreeDfs g fuel n i s = some q := by
  induction fuel with
  | zero =>
    intro n i s hn hv hf
    have := unseen_lt U hn hv
    omega
  | succ fuel ih =>
    intro n i s hn hv hf
    rw [dfs_eq]
    have hlt := unseen_lt U hn hv
    have key : ∀ (ns : List Nat) (t : DfsSt) (res : List Nat), (∀ x ∈ ns, x ∈ U) →
        unseen U t.visited ≤ fuel → ∃ q, ns.foldlM (dfsVisit g fuel n i) (t, res) = some q := by
      intro ns
      induction ns with
      | nil => intro t res _ _; exact ⟨_, rfl⟩
      | cons m ns ihn =>
        intro t res hm ht
        rw [List.foldlM_cons]
        by_cases hmv : m ∈ t.visited
        · have e : dfsVisit g fuel n i (t, res) m = some (t, res) := by
            unfold dfsVisit
            rw [if_pos hmv]
          rw [e]
          exact ihn t res (fun x hx => hm x (List.mem_cons_of_mem _ hx)) ht
        · obtain ⟨⟨t1, r1⟩, hq⟩ := ih m (i + 1) { t with parent := put t.parent m (some n) }
            (hm m (by simp)) hmv ht
          have e : dfsVisit g fuel n i (t, res) m = some (t1, res ++ r1) := by
            unfold dfsVisit
            rw [if_neg hmv, hq]
            rfl
          rw [e]
          obtain ⟨o, _, R⟩ := dfs_run g fuel m (i + 1) { t with parent := put t.parent m (some n) } t1 r1 hmv hq
          apply ihn t1 _ (fun x hx => hm x (List.mem_cons_of_mem _ hx))
          refine Nat.le_trans (unseen_mono U ?_) ht
          intro x hx
          rw [R.visited]
          exact List.mem_append_left _ hx
    apply key (g.succ n) _ _ (fun x hx => hU n hn x hx)
    show unseen U (s.visited ++ [n]) ≤ fuel
    omega

/-- The search from the root of a finite graph: a depth-first tree of the blocks
that can be reached. -/
theorem dfs_root (g : FlowGraph) (root : Nat) (hr : root ∈ g.nodes) (hU : ∀ x ∈ g.nodes, ∀ y ∈ g.succ x, y ∈ g.nodes)
    (fuel : Nat) (hf : g.nodes.length ≤ fuel) :
    ∃ s o, dominatorTreeDfs g fuel root 0 {} = some (s, root :: o) ∧
      DfsTree g.succ root (· ∈ root :: o) (numOf (root :: o)) s.parent s.idx ∧
      (root :: o).Nodup ∧ (∀ x, x ∉ root :: o → s.idx x = -1) ∧
      (root :: o).length ≤ g.nodes.length := by
  obtain ⟨⟨s, r⟩, hq⟩ := dfs_ends g g.nodes hU fuel root 0 {} hr (by simp) (by
    refine Nat.le_trans ?_ hf
    unfold unseen
    exact List.length_filter_le _ _)
  obtain ⟨o, rfl, R⟩ := dfs_run g fuel root 0 {} s r (by simp) hq
  have hF := R.forest s.parent s.idx (fun _ _ => rfl) (fun _ _ => rfl) R.node_idx
  have hro : root ∉ o := fun h => hF.disjoint root h (by simp)
  have hT := Forest.tree hF (by rw [R.parent root hro]) R.node_idx
  have hnd : (root :: o).Nodup := List.nodup_cons.2 ⟨hro, hF.nodup⟩
  refine ⟨s, o, hq, hT, hnd, ?_, ?_⟩
  · intro x hx
    simp only [List.mem_cons, not_or] at hx
    rw [R.idx x hx.1 hx.2]
  · apply List.Subperm.length_le
    apply hnd.subperm
    intro x hx
    obtain ⟨l, p, _⟩ := hT.tree_path (hT.root_anc hx) hx
    have : ∀ a l b, Path g.succ a l b → a ∈ g.nodes → b ∈ g.nodes := by
      intro a l b p
      induction p with
      | single a => exact id
      | step e _ ih => exact fun ha => ih (hU _ ha _ e)
    exact this _ _ _ p hr

end Verif
