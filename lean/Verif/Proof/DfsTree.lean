import Verif.Spec.Graph
import Mathlib.Data.List.Basic

/-!
# Depth-first trees and semidominators

Facts about any depth-first tree of a graph, and about any function `semi` with the
two properties of semidominators (`SemiOk`): they determine the dominators.
-/

namespace Verif

open Spec (Path)

/-! ### Paths -/

theorem Path.mem_start {succ : Nat → List Nat} {a b : Nat} {l : List Nat} (h : Path succ a l b) : a ∈ l := by
  cases h <;> simp

theorem Path.mem_end {succ : Nat → List Nat} {a b : Nat} {l : List Nat} (h : Path succ a l b) : b ∈ l := by
  induction h with
  | single a => simp
  | step _ _ ih => exact List.mem_cons_of_mem _ ih

theorem Path.append {succ : Nat → List Nat} {a b c : Nat} {l m : List Nat} (h : Path succ a l b)
    (h' : Path succ b m c) : ∃ n, Path succ a n c ∧ ∀ x, x ∈ n ↔ x ∈ l ∨ x ∈ m := by
  induction h with
  | single a =>
    refine ⟨m, h', ?_⟩
    intro x
    constructor
    · exact Or.inr
    · rintro (h | h)
      · rw [List.mem_singleton.1 h]; exact Path.mem_start h'
      · exact h
  | step e _ ih =>
    obtain ⟨n, h1, h2⟩ := ih h'
    refine ⟨_, .step e h1, ?_⟩
    intro x
    simp only [List.mem_cons, h2]
    tauto

theorem Path.suffix {succ : Nat → List Nat} {a b x : Nat} {l : List Nat} (h : Path succ a l b) (hx : x ∈ l) :
    ∃ m, Path succ x m b ∧ ∀ y ∈ m, y ∈ l := by
  induction h with
  | single a =>
    rw [List.mem_singleton.1 hx]
    exact ⟨[a], .single a, fun y hy => hy⟩
  | @step a b c l e p ih =>
    rcases List.mem_cons.1 hx with rfl | hx
    · exact ⟨x :: l, .step e p, fun y hy => hy⟩
    · obtain ⟨m, h1, h2⟩ := ih hx
      exact ⟨m, h1, fun y hy => List.mem_cons_of_mem _ (h2 y hy)⟩

/-- Up to the first vertex with a property. -/
theorem Path.first {succ : Nat → List Nat} {a b : Nat} {l : List Nat} (h : Path succ a l b) (Q : Nat → Prop)
    (hb : Q b) : ∃ y m, Path succ a m y ∧ Q y ∧ (∀ z ∈ m, z ≠ y → ¬ Q z) ∧ ∀ z ∈ m, z ∈ l := by
  classical
  induction h with
  | single a => exact ⟨a, [a], .single a, hb, fun z hz hne => absurd (List.mem_singleton.1 hz) hne, fun z hz => hz⟩
  | @step a b c l e p ih =>
    by_cases ha : Q a
    · exact ⟨a, [a], .single a, ha, fun z hz hne => absurd (List.mem_singleton.1 hz) hne,
        fun z hz => by rw [List.mem_singleton.1 hz]; simp⟩
    · obtain ⟨y, m, h1, h2, h3, h4⟩ := ih hb
      refine ⟨y, a :: m, .step e h1, h2, ?_, ?_⟩
      · intro z hz hne
        rcases List.mem_cons.1 hz with rfl | hz
        · exact ha
        · exact h3 z hz hne
      · intro z hz
        rcases List.mem_cons.1 hz with rfl | hz
        · simp
        · exact List.mem_cons_of_mem _ (h4 z hz)

/-- Up to the edge into the first vertex with a property. -/
theorem Path.first_edge {succ : Nat → List Nat} {a b : Nat} {l : List Nat} (h : Path succ a l b) (Q : Nat → Prop)
    (hb : Q b) : Q a ∨ ∃ v y m, Path succ a m v ∧ y ∈ succ v ∧ Q y ∧ (∀ z ∈ m, ¬ Q z) ∧ ∀ z ∈ m, z ∈ l := by
  classical
  induction h with
  | single a => exact Or.inl hb
  | @step a b c l e p ih =>
    by_cases ha : Q a
    · exact Or.inl ha
    · right
      rcases ih hb with h | ⟨v, y, m, h1, h2, h3, h4, h5⟩
      · exact ⟨a, b, [a], .single a, e, h, fun z hz => by rw [List.mem_singleton.1 hz]; exact ha,
          fun z hz => by rw [List.mem_singleton.1 hz]; simp⟩
      · refine ⟨v, y, a :: m, .step e h1, h2, h3, ?_, ?_⟩
        · intro z hz
          rcases List.mem_cons.1 hz with rfl | hz
          · exact ha
          · exact h4 z hz
        · intro z hz
          rcases List.mem_cons.1 hz with rfl | hz
          · simp
          · exact List.mem_cons_of_mem _ (h5 z hz)

/-! ### Trees -/

/-- `a` is `b` or an ancestor of it. -/
inductive Anc (par : Nat → Option Nat) : Nat → Nat → Prop
  | refl (a : Nat) : Anc par a a
  | step {a p b : Nat} : par b = some p → Anc par a p → Anc par a b

theorem Anc.trans {par : Nat → Option Nat} {a b c : Nat} (h1 : Anc par a b) (h2 : Anc par b c) : Anc par a c := by
  induction h2 with
  | refl => exact h1
  | step hp _ ih => exact .step hp ih

theorem Anc.line {par : Nat → Option Nat} {a b c : Nat} (h1 : Anc par a c) (h2 : Anc par b c) :
    Anc par a b ∨ Anc par b a := by
  induction h1 with
  | refl => exact Or.inr h2
  | @step p c hp hd ih =>
    cases h2 with
    | refl => exact Or.inl (.step hp hd)
    | step hp' hd' =>
      rw [hp] at hp'
      cases hp'
      exact ih hd'

/-- A depth-first tree: `num` numbers the vertices as they are found, `dep` is the
depth. -/
structure DfsTree (succ : Nat → List Nat) (root : Nat) (V : Nat → Prop) (num : Nat → Nat)
    (par : Nat → Option Nat) (dep : Nat → Int) : Prop where
  root_mem : V root
  root_par : par root = none
  root_dep : dep root = 0
  inj : ∀ x y, V x → V y → num x = num y → x = y
  par_spec : ∀ w, V w → w ≠ root → ∃ p, par w = some p ∧ V p ∧ w ∈ succ p ∧ num p < num w ∧ dep w = dep p + 1
  closed : ∀ x y, V x → y ∈ succ x → V y
  forward : ∀ x y, V x → y ∈ succ x → num x < num y → Anc par x y
  interval : ∀ m y x, V m → V y → V x → num m ≤ num y → num y ≤ num x → Anc par m x → Anc par m y

section
variable {succ : Nat → List Nat} {root : Nat} {V : Nat → Prop} {num : Nat → Nat} {par : Nat → Option Nat}
  {dep : Nat → Int} (T : DfsTree succ root V num par dep)
include T

theorem DfsTree.anc_mem {a b : Nat} (h : Anc par a b) (hb : V b) : V a := by
  induction h with
  | refl => exact hb
  | @step p b hp _ ih =>
    have hne : b ≠ root := by
      rintro rfl
      rw [T.root_par] at hp
      cases hp
    obtain ⟨q, h1, h2, _⟩ := T.par_spec _ hb hne
    rw [hp] at h1
    cases h1
    exact ih h2

theorem DfsTree.anc_num {a b : Nat} (h : Anc par a b) (hb : V b) : a = b ∨ (num a < num b ∧ dep a < dep b) := by
  induction h with
  | refl => exact Or.inl rfl
  | @step p b hp _ ih =>
    have hne : b ≠ root := by
      rintro rfl
      rw [T.root_par] at hp
      cases hp
    obtain ⟨q, h1, h2, _, h4, h5⟩ := T.par_spec _ hb hne
    rw [hp] at h1
    cases h1
    rcases ih h2 with rfl | ⟨h6, h7⟩
    · exact Or.inr ⟨h4, by omega⟩
    · exact Or.inr ⟨by omega, by omega⟩

theorem DfsTree.anc_antisymm {a b : Nat} (h : Anc par a b) (h' : Anc par b a) (hb : V b) : a = b := by
  rcases T.anc_num h hb with h1 | ⟨h1, _⟩
  · exact h1
  · rcases T.anc_num h' (T.anc_mem h hb) with h2 | ⟨h2, _⟩
    · exact h2.symm
    · omega

theorem DfsTree.anc_of_dep {a b c : Nat} (ha : Anc par a c) (hb : Anc par b c) (hc : V c) (h : dep a ≤ dep b) :
    Anc par a b := by
  rcases Anc.line ha hb with h1 | h1
  · exact h1
  · rcases T.anc_num h1 (T.anc_mem ha hc) with rfl | ⟨_, h2⟩
    · exact .refl _
    · omega

theorem DfsTree.anc_of_num {a b c : Nat} (ha : Anc par a c) (hb : Anc par b c) (hc : V c) (h : num a ≤ num b) :
    Anc par a b := by
  rcases Anc.line ha hb with h1 | h1
  · exact h1
  · rcases T.anc_num h1 (T.anc_mem ha hc) with rfl | ⟨h2, _⟩
    · exact .refl _
    · omega

theorem DfsTree.dep_nonneg {a : Nat} (ha : V a) : 0 ≤ dep a := by
  have : ∀ n a, num a = n → V a → 0 ≤ dep a := by
    intro n
    induction n using Nat.strongRecOn with
    | _ n ih =>
      intro a hn ha
      by_cases h : a = root
      · rw [h, T.root_dep]; exact Int.le_refl _
      · obtain ⟨p, _, h2, _, h4, h5⟩ := T.par_spec a ha h
        have := ih (num p) (by omega) p rfl h2
        omega
  exact this _ a rfl ha

theorem DfsTree.root_anc {a : Nat} (ha : V a) : Anc par root a := by
  have : ∀ n a, num a = n → V a → Anc par root a := by
    intro n
    induction n using Nat.strongRecOn with
    | _ n ih =>
      intro a hn ha
      by_cases h : a = root
      · rw [h]; exact .refl _
      · obtain ⟨p, h1, h2, _, h4, _⟩ := T.par_spec a ha h
        exact .step h1 (ih (num p) (by omega) p rfl h2)
  exact this _ a rfl ha

theorem DfsTree.path_mem {a b : Nat} {l : List Nat} (h : Path succ a l b) (ha : V a) : ∀ x ∈ l, V x := by
  induction h with
  | single a => intro x hx; rw [List.mem_singleton.1 hx]; exact ha
  | step e _ ih =>
    intro x hx
    rcases List.mem_cons.1 hx with rfl | hx
    · exact ha
    · exact ih (T.closed _ _ ha e) x hx

/-- Along the tree. -/
theorem DfsTree.tree_path {a b : Nat} (h : Anc par a b) (hb : V b) :
    ∃ l, Path succ a l b ∧ ∀ x ∈ l, Anc par a x ∧ Anc par x b := by
  induction h with
  | refl => exact ⟨[a], .single a, fun x hx => by rw [List.mem_singleton.1 hx]; exact ⟨.refl _, .refl _⟩⟩
  | @step p b hp hd ih =>
    have hne : b ≠ root := by
      rintro rfl
      rw [T.root_par] at hp
      cases hp
    obtain ⟨q, h1, h2, h3, _, _⟩ := T.par_spec _ hb hne
    rw [hp] at h1
    cases h1
    obtain ⟨l, g1, g2⟩ := ih h2
    obtain ⟨n, g3, g4⟩ := Path.append g1 (.step h3 (.single b))
    refine ⟨n, g3, ?_⟩
    intro x hx
    rcases (g4 x).1 hx with hx | hx
    · exact ⟨(g2 x hx).1, .step hp (g2 x hx).2⟩
    · rcases List.mem_cons.1 hx with rfl | hx
      · exact ⟨hd, .step hp (.refl _)⟩
      · rw [List.mem_singleton.1 hx]
        exact ⟨.step hp hd, .refl _⟩

/-- The first found vertex of a path is an ancestor of its end. -/
theorem DfsTree.path_min {x y : Nat} {l : List Nat} (h : Path succ x l y) (hx : V x) :
    ∃ m ∈ l, (∀ z ∈ l, num m ≤ num z) ∧ Anc par m y := by
  induction h with
  | single a => exact ⟨a, by simp, fun z hz => by rw [List.mem_singleton.1 hz]; exact Nat.le_refl _, .refl _⟩
  | @step a b c l e p ih =>
    have hb := T.closed _ _ hx e
    obtain ⟨m, h1, h2, h3⟩ := ih hb
    by_cases hlt : num a < num m
    · have hab : Anc par a b := T.forward a b hx e (Nat.lt_of_lt_of_le hlt (h2 b (Path.mem_start p)))
      have ham : Anc par a m := T.interval a m b hx (T.path_mem p hb m h1) hb (by omega)
        (h2 b (Path.mem_start p)) hab
      refine ⟨a, by simp, ?_, ham.trans h3⟩
      intro z hz
      rcases List.mem_cons.1 hz with rfl | hz
      · exact Nat.le_refl _
      · have := h2 z hz
        omega
    · refine ⟨m, List.mem_cons_of_mem _ h1, ?_, h3⟩
      intro z hz
      rcases List.mem_cons.1 hz with rfl | hz
      · omega
      · exact h2 z hz

/-- A path to a later vertex goes through a common ancestor. -/
theorem DfsTree.common {x y : Nat} {l : List Nat} (h : Path succ x l y) (hx : V x) (hlt : num x ≤ num y) :
    ∃ m ∈ l, Anc par m x ∧ Anc par m y := by
  obtain ⟨m, h1, h2, h3⟩ := T.path_min h hx
  have hl := T.path_mem h hx
  exact ⟨m, h1, T.interval m x y (hl m h1) hx (hl y (Path.mem_end h)) (h2 x (Path.mem_start h)) hlt h3, h3⟩

end

/-! ### Semidominators -/

/-- A path from `x` to `w` all of whose vertices after `x` are found no earlier
than `w`. -/
def SemiPath (succ : Nat → List Nat) (num : Nat → Nat) (x w : Nat) : Prop :=
  ∃ b l, b ∈ succ x ∧ Path succ b l w ∧ ∀ z ∈ l, num w ≤ num z

/-- What the semidominator of `w` is. -/
structure SemiOk (succ : Nat → List Nat) (V : Nat → Prop) (num : Nat → Nat) (par : Nat → Option Nat)
    (dep : Nat → Int) (semi : Nat → Nat) (w : Nat) : Prop where
  path : SemiPath succ num (semi w) w
  anc : Anc par (semi w) w
  ne : semi w ≠ w
  least : ∀ x, V x → num x < num w → SemiPath succ num x w → dep (semi w) ≤ dep x

section
variable {succ : Nat → List Nat} {root : Nat} {V : Nat → Prop} {num : Nat → Nat} {par : Nat → Option Nat}
  {dep : Nat → Int} (T : DfsTree succ root V num par dep)
include T

theorem DfsTree.semiPath_anc {x w : Nat} (h : SemiPath succ num x w) (hx : V x) (hlt : num x < num w) :
    Anc par x w := by
  obtain ⟨b, l, h1, h2, h3⟩ := h
  obtain ⟨m, g1, g2, g3⟩ := T.common (.step h1 h2) hx (Nat.le_of_lt hlt)
  rcases List.mem_cons.1 g1 with rfl | g1
  · exact g3
  · have := h3 m g1
    rcases T.anc_num g2 hx with rfl | ⟨h4, _⟩ <;> omega

/-- On a path from before `d` to after it, not through it, there is a last vertex
before `d`. -/
theorem last_before {d w : Nat} {x : Nat} {l : List Nat} (h : Path succ x l w) (hx : V x) (hd : V d)
    (hn : d ∉ l) :
    (∀ z ∈ l, num d < num z) ∨ num w < num d ∨
      ∃ y b m, V y ∧ num y < num d ∧ b ∈ succ y ∧ Path succ b m w ∧ (∀ z ∈ m, num d < num z) := by
  induction h with
  | single a =>
    have hne : d ≠ a := fun e => hn (by simp [e])
    rcases Nat.lt_trichotomy (num d) (num a) with h | h | h
    · exact Or.inl fun z hz => by rw [List.mem_singleton.1 hz]; exact h
    · exact absurd (T.inj _ _ hd hx h) hne
    · exact Or.inr (Or.inl h)
  | @step a b c l e p ih =>
    have hb := T.closed _ _ hx e
    rcases ih hb (fun h => hn (List.mem_cons_of_mem _ h)) with h | h | h
    · have hne : d ≠ a := fun e => hn (by simp [e])
      rcases Nat.lt_trichotomy (num d) (num a) with h' | h' | h'
      · left
        intro z hz
        rcases List.mem_cons.1 hz with rfl | hz
        · exact h'
        · exact h z hz
      · exact absurd (T.inj _ _ hd hx h') hne
      · exact Or.inr (Or.inr ⟨a, b, l, hx, h', e, p, h⟩)
    · exact Or.inr (Or.inl h)
    · exact Or.inr (Or.inr h)

/-- Dominance, by semidominators: an ancestor `d` of `w` dominates it exactly when
no vertex between them has a semidominator above `d`. -/
theorem DfsTree.dom_iff {semi : Nat → Nat} (hs : ∀ w, V w → w ≠ root → SemiOk succ V num par dep semi w)
    {d w : Nat} (hd : Anc par d w) (hw : V w) :
    Spec.Dom succ root d w ↔ ∀ u, Anc par d u → u ≠ d → Anc par u w → dep d ≤ dep (semi u) := by
  constructor
  · intro h u hu hne huw
    by_contra hlt
    have hVu := T.anc_mem huw hw
    have hVd := T.anc_mem hd hw
    have hur : u ≠ root := by
      rintro rfl
      exact hne (T.anc_antisymm (T.root_anc hVd) hu hVd)
    have S := hs u hVu hur
    have hVs := T.anc_mem S.anc hVu
    obtain ⟨l1, p1, q1⟩ := T.tree_path (T.root_anc hVs) hVs
    obtain ⟨b, l2, e, p2, q2⟩ := S.path
    obtain ⟨l3, p3, q3⟩ := T.tree_path huw hw
    obtain ⟨n1, p4, q4⟩ := Path.append p2 p3
    obtain ⟨n2, p5, q5⟩ := Path.append p1 (.step e p4)
    have hdu : num d < num u := by
      rcases T.anc_num hu hVu with h | ⟨h, _⟩
      · exact absurd h.symm hne
      · exact h
    rcases (q5 d).1 (h n2 p5) with h1 | h1
    · have h2 := (q1 d h1).2
      rcases T.anc_num h2 hVs with h3 | ⟨_, h3⟩
      · rw [h3] at hlt; omega
      · omega
    · rcases List.mem_cons.1 h1 with h2 | h2
      · rw [← h2] at hlt; omega
      · rcases (q4 d).1 h2 with h3 | h3
        · have := q2 d h3
          omega
        · have := (q3 d h3).1
          rcases T.anc_num this hVd with h4 | ⟨h4, _⟩
          · exact hne h4
          · omega
  · intro h l p
    by_contra hn
    have hVd := T.anc_mem hd hw
    have hdr : d ≠ root := by
      rintro rfl
      exact hn (Path.mem_start p)
    have hrd : num root < num d := by
      rcases T.anc_num (T.root_anc hVd) hVd with h | ⟨h, _⟩
      · exact absurd h.symm hdr
      · exact h
    rcases last_before T p T.root_mem hVd hn with h1 | h1 | ⟨x, b, m, hx, hxd, e, pb, hm⟩
    · have := h1 root (Path.mem_start p)
      omega
    · rcases T.anc_num hd hw with h2 | ⟨h2, _⟩
      · subst h2
        exact hn (Path.mem_end p)
      · omega
    · have hVb := T.closed _ _ hx e
      obtain ⟨y, m', py, ⟨hy1, hy2⟩, hfirst, hsub⟩ :=
        Path.first pb (fun z => Anc par d z ∧ Anc par z w) ⟨hd, .refl w⟩
      have hVy := T.anc_mem hy2 hw
      have hdy : num d < num y := hm y (hsub y (Path.mem_end py))
      have hall : ∀ z ∈ m', num y ≤ num z := by
        intro z hz
        by_contra hlt
        obtain ⟨m2, pz, hz2⟩ := Path.suffix py hz
        have hVz := T.path_mem py hVb z hz
        obtain ⟨c, hc1, hc2, hc3⟩ := T.common pz hVz (by omega)
        have hcw := hc3.trans hy2
        have hdc : num d < num c := hm c (hsub c (hz2 c hc1))
        have hdc' : Anc par d c := T.anc_of_num hd hcw hw (by omega)
        have hcy : c ≠ y := by
          rintro rfl
          rcases T.anc_num hc2 hVz with h3 | ⟨h3, _⟩
          · rw [h3] at hlt; omega
          · omega
        exact hfirst c (hz2 c hc1) hcy ⟨hdc', hcw⟩
      have hsp : SemiPath succ num x y := ⟨b, m', e, py, hall⟩
      have hyr : y ≠ root := by
        rintro rfl
        omega
      have S := hs y hVy hyr
      have h3 := S.least x hx (by omega) hsp
      have h4 := h y hy1 (by rintro rfl; omega) hy2
      have hxy := T.semiPath_anc hsp hx (by omega)
      have h5 : Anc par d x := T.anc_of_dep hy1 hxy hVy (by omega)
      rcases T.anc_num h5 hx with h6 | ⟨h6, _⟩
      · rw [h6] at hxd; omega
      · omega

/-- Dominators are ancestors. -/
theorem DfsTree.dom_anc {d w : Nat} (hw : V w) (h : Spec.Dom succ root d w) : Anc par d w := by
  obtain ⟨l, p, q⟩ := T.tree_path (T.root_anc hw) hw
  exact (q d (h l p)).2

/-- No vertex between `w` and its semidominator has a semidominator above it: it is
the immediate dominator. -/
theorem DfsTree.idom_semi {semi : Nat → Nat} (hs : ∀ w, V w → w ≠ root → SemiOk succ V num par dep semi w)
    {w : Nat} (hw : V w) (hr : w ≠ root)
    (h : ∀ u, Anc par (semi w) u → u ≠ semi w → Anc par u w → dep (semi w) ≤ dep (semi u)) :
    Spec.Idom succ root (semi w) w := by
  have S := hs w hw hr
  refine ⟨S.ne, (T.dom_iff hs S.anc hw).2 h, ?_⟩
  intro e he hd
  have ha := T.dom_anc hw hd
  have hk := (T.dom_iff hs ha hw).1 hd
  have h1 := hk w ha (Ne.symm he) (.refl _)
  have h2 : Anc par e (semi w) := T.anc_of_dep ha S.anc hw h1
  exact (T.dom_iff hs h2 (T.anc_mem S.anc hw)).2 fun u g1 g2 g3 => hk u g1 g2 (g3.trans S.anc)

/-- Otherwise the vertex between them with the highest semidominator has the same
immediate dominator. -/
theorem DfsTree.idom_same {semi : Nat → Nat} (hs : ∀ w, V w → w ≠ root → SemiOk succ V num par dep semi w)
    {w u d : Nat} (hw : V w) (hr : w ≠ root) (h1 : Anc par (semi w) u) (h2 : u ≠ semi w) (h3 : Anc par u w)
    (h4 : dep (semi u) < dep (semi w))
    (h5 : ∀ x, Anc par (semi w) x → x ≠ semi w → Anc par x w → dep (semi u) ≤ dep (semi x))
    (hd : Spec.Idom succ root d u) : Spec.Idom succ root d w := by
  have S := hs w hw hr
  have hVu := T.anc_mem h3 hw
  have huw : u ≠ w := by
    rintro rfl
    omega
  have key : ∀ e, (e ≠ w ∧ Spec.Dom succ root e w) ↔ (e ≠ u ∧ Spec.Dom succ root e u) := by
    intro e
    constructor
    · rintro ⟨he, hd⟩
      have ha := T.dom_anc hw hd
      have hk := (T.dom_iff hs ha hw).1 hd
      have g1 := hk w ha (Ne.symm he) (.refl _)
      have g2 : Anc par e (semi w) := T.anc_of_dep ha S.anc hw g1
      refine ⟨?_, ?_⟩
      · rintro rfl
        exact h2 (T.anc_antisymm g2 h1 (T.anc_mem S.anc hw))
      · exact (T.dom_iff hs (g2.trans h1) hVu).2 fun x k1 k2 k3 => hk x k1 k2 (k3.trans h3)
    · rintro ⟨he, hd⟩
      have ha := T.dom_anc hVu hd
      have hk := (T.dom_iff hs ha hVu).1 hd
      have g1 := hk u ha (Ne.symm he) (.refl _)
      refine ⟨?_, ?_⟩
      · rintro rfl
        exact he (T.anc_antisymm ha h3 hVu)
      · refine (T.dom_iff hs (ha.trans h3) hw).2 ?_
        intro x k1 k2 k3
        rcases Anc.line k3 h3 with k4 | k4
        · exact hk x k1 k2 k4
        · have := h5 x (h1.trans k4) (by
            rintro rfl
            exact h2 (T.anc_antisymm k4 h1 (T.anc_mem S.anc hw))) k3
          omega
  obtain ⟨k1, k2, k3⟩ := hd
  obtain ⟨k4, k5⟩ := (key d).2 ⟨k1, k2⟩
  refine ⟨k4, k5, ?_⟩
  intro e he hde
  obtain ⟨k6, k7⟩ := (key e).1 ⟨he, hde⟩
  exact k3 e k6 k7

/-- The child of an ancestor on the way down. -/
theorem DfsTree.child {p v : Nat} (h : Anc par p v) (hne : p ≠ v) : ∃ c, par c = some p ∧ Anc par c v := by
  clear T
  induction h with
  | refl => exact absurd rfl hne
  | @step q b hq hd ih =>
    by_cases hp : p = q
    · subst hp
      exact ⟨b, hq, .refl _⟩
    · obtain ⟨c, h1, h2⟩ := ih hp
      exact ⟨c, h1, .step hq h2⟩

end

end Verif
