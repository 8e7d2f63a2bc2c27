import Verif.Proof.Basic
import Verif.Model.Dot

/-!
# Lemmas on drawings
-/

namespace Verif

section keys

/-- What comes before a separator that neither of two words contains is the same. -/
theorem split_at {c : Char} : ∀ {a b x y : List Char}, c ∉ a → c ∉ b → a ++ c :: x = b ++ c :: y → a = b ∧ x = y
  | [], [], _, _, _, _, h => ⟨rfl, by simpa using h⟩
  | [], _ :: _, _, _, _, hb, h => by
      simp only [List.nil_append, List.cons_append, List.cons.injEq] at h
      exact absurd (by simp [h.1]) hb
  | _ :: _, [], _, _, ha, _, h => by
      simp only [List.nil_append, List.cons_append, List.cons.injEq] at h
      exact absurd (by simp [h.1]) ha
  | _ :: a, _ :: b, _, _, ha, hb, h => by
      simp only [List.cons_append, List.cons.injEq] at h
      obtain ⟨e, f⟩ := split_at (fun m => ha (List.mem_cons_of_mem _ m)) (fun m => hb (List.mem_cons_of_mem _ m)) h.2
      exact ⟨by rw [h.1, e], f⟩

theorem hyphen_digits (n : Nat) : '-' ∉ (toString n).toList := by
  rw [Nat.toString_eq_repr, Nat.toList_repr]
  intro h
  have := Nat.isDigit_of_mem_toDigits (b := 10) (by omega) (by omega) h
  exact absurd this (by decide)

theorem space_digits (n : Nat) : ' ' ∉ (toString n).toList := by
  rw [Nat.toString_eq_repr, Nat.toList_repr]
  intro h
  have := Nat.isDigit_of_mem_toDigits (b := 10) (by omega) (by omega) h
  exact absurd this (by decide)

theorem gt_digits (n : Nat) : '>' ∉ (toString n).toList := by
  rw [Nat.toString_eq_repr, Nat.toList_repr]
  intro h
  have := Nat.isDigit_of_mem_toDigits (b := 10) (by omega) (by omega) h
  exact absurd this (by decide)

theorem digits_inj {m n : Nat} (h : (toString m).toList = (toString n).toList) : m = n := by
  rw [Nat.toString_eq_repr, Nat.toString_eq_repr, Nat.toList_repr, Nat.toList_repr] at h
  have := congrArg (fun l => Nat.ofDigitChars 10 l 0) h
  simpa only [Nat.ofDigitChars_ten_toDigits] using this

/-- The text of a node starts with its number and a hyphen, or is the number in angles. -/
theorem blockText_form (text : Nat → String) (c : Cfg) (n : Nat) :
    (∃ r, (blockText text c n).toList = (toString n).toList ++ '-' :: r) ∨
      (blockText text c n).toList = ' ' :: '<' :: ((toString n).toList ++ ['>', ' ']) := by
  unfold blockText
  split
  · exact .inl ⟨_, by rw [String.toList_append]; rfl⟩
  · exact .inr (by rw [String.toList_append, String.toList_append]; rfl)
  · exact .inl ⟨_, by rw [String.toList_append]; rfl⟩
  · exact .inl ⟨_, by rw [String.toList_append]; rfl⟩
  · dsimp only
    split
    · refine .inl ⟨_, by rw [String.toList_append, String.toList_append, List.append_assoc]; rfl⟩
    · refine .inl ⟨_, by
        rw [String.toList_append, String.toList_append, String.toList_append, String.toList_append,
          List.append_assoc, List.append_assoc, List.append_assoc]; rfl⟩

/-- The text of a node with anything but a continuation after it determines the node. -/
theorem blockText_start (text : Nat → String) (c : Cfg) {m n : Nat} {x y : List Char}
    (h : (blockText text c m).toList ++ x = (blockText text c n).toList ++ y) : m = n := by
  have first : ∀ k : Nat, ∃ d t, (toString k).toList = d :: t ∧ d ≠ ' ' := by
    intro k
    cases hk : (toString k).toList with
    | nil =>
      rw [Nat.toString_eq_repr, Nat.toList_repr] at hk
      exact absurd hk Nat.toDigits_ne_nil
    | cons d t =>
      refine ⟨d, t, rfl, fun e => space_digits k ?_⟩
      rw [hk, e]; exact List.mem_cons_self
  rcases blockText_form text c m with ⟨r, f⟩ | f <;> rcases blockText_form text c n with ⟨r', f'⟩ | f' <;> rw [f, f'] at h
  · simp only [List.append_assoc, List.cons_append] at h
    exact digits_inj (split_at (hyphen_digits m) (hyphen_digits n) h).1
  · obtain ⟨d, t, e, ne⟩ := first m
    rw [e] at h
    simp only [List.cons_append, List.cons.injEq] at h
    exact absurd h.1 ne
  · obtain ⟨d, t, e, ne⟩ := first n
    rw [e] at h
    simp only [List.cons_append, List.cons.injEq] at h
    exact absurd h.1.symm ne
  · simp only [List.append_assoc, List.cons_append, List.nil_append, List.cons.injEq, true_and] at h
    exact digits_inj (split_at (gt_digits m) (gt_digits n) h).1

theorem blockText_inj (text : Nat → String) (c : Cfg) {m n : Nat} (h : blockText text c m = blockText text c n) : m = n :=
  blockText_start text c (x := []) (y := []) (by rw [h])

theorem edgeKey_list {α : Type} (str : α → String) (u v : α) :
    (edgeKey str u v).toList = (str u).toList ++ '-' :: (str v).toList := by
  unfold edgeKey
  rw [String.toList_append, String.toList_append, List.append_assoc]
  rfl

/-- The keys of the edges of a control flow graph are distinct. -/
theorem blockKey_inj (text : Nat → String) (c : Cfg) {u v u' v' : Nat}
    (h : edgeKey (blockText text c) u v = edgeKey (blockText text c) u' v') : u = u' ∧ v = v' := by
  have h := congrArg String.toList h
  rw [edgeKey_list, edgeKey_list] at h
  have e := blockText_start text c h
  refine ⟨e, ?_⟩
  rw [e] at h
  have := List.append_cancel_left h
  simp only [List.cons.injEq, true_and] at this
  exact blockText_inj text c (String.toList_inj.mp this)

/-- The keys of edges between nodes without hyphens in their names are distinct. -/
theorem plainKey {α : Type} (str : α → String) {u v u' v' : α} (hu : '-' ∉ (str u).toList) (hu' : '-' ∉ (str u').toList)
    (h : edgeKey str u v = edgeKey str u' v') : str u = str u' ∧ str v = str v' := by
  have h := congrArg String.toList h
  rw [edgeKey_list, edgeKey_list] at h
  obtain ⟨a, b⟩ := split_at hu hu' h
  exact ⟨String.toList_inj.mp a, String.toList_inj.mp b⟩

end keys

section write
variable {α : Type} (str : α → String)

/-- The edges that are drawn. -/
def keptEdges (directed : Bool) : List String → List (α × α) → List (α × α)
  | _, [] => []
  | seen, e :: l =>
    if edgeKey str e.1 e.2 ∈ seen ∨ (directed = false ∧ edgeKey str e.2 e.1 ∈ seen) then keptEdges directed seen l
    else e :: keptEdges directed (seen ++ [edgeKey str e.1 e.2]) l

theorem keptEdges_sub (directed : Bool) : ∀ (l : List (α × α)) (seen : List String),
    (keptEdges str directed seen l).Sublist l
  | [], _ => List.Sublist.refl _
  | e :: l, seen => by
    unfold keptEdges
    split
    · exact (keptEdges_sub directed l seen).trans (List.sublist_cons_self _ _)
    · exact List.Sublist.cons_cons _ (keptEdges_sub directed l _)

/-- Nothing that is drawn has a key that was seen before. -/
theorem keptEdges_new (directed : Bool) : ∀ (l : List (α × α)) (seen : List String),
    (∀ e ∈ keptEdges str directed seen l, edgeKey str e.1 e.2 ∉ seen ∧ (directed = false → edgeKey str e.2 e.1 ∉ seen)) ∧
    (keptEdges str directed seen l).Pairwise fun e f => edgeKey str e.1 e.2 ≠ edgeKey str f.1 f.2 ∧
      (directed = false → edgeKey str e.1 e.2 ≠ edgeKey str f.2 f.1)
  | [], _ => by simp [keptEdges]
  | e :: l, seen => by
    unfold keptEdges
    split
    · exact keptEdges_new directed l seen
    · next h =>
      obtain ⟨a, b⟩ := keptEdges_new directed l (seen ++ [edgeKey str e.1 e.2])
      have h : edgeKey str e.1 e.2 ∉ seen ∧ (directed = false → edgeKey str e.2 e.1 ∉ seen) :=
        ⟨fun x => h (.inl x), fun d x => h (.inr ⟨d, x⟩)⟩
      constructor
      · intro f hf
        rcases List.mem_cons.mp hf with rfl | hf
        · exact h
        · have := a f hf
          simp only [List.mem_append, List.mem_singleton, not_or] at this
          exact ⟨this.1.1, fun d => (this.2 d).1⟩
      · refine List.pairwise_cons.mpr ⟨fun f hf => ?_, b⟩
        have := a f hf
        simp only [List.mem_append, List.mem_singleton, not_or] at this
        exact ⟨fun e => this.1.2 e.symm, fun d e => (this.2 d).2 e.symm⟩

/-- Every edge is drawn, or its key was seen, or another with that key is drawn. -/
theorem keptEdges_all (directed : Bool) : ∀ (l : List (α × α)) (seen : List String), ∀ e ∈ l,
    (edgeKey str e.1 e.2 ∈ seen ∨ (directed = false ∧ edgeKey str e.2 e.1 ∈ seen)) ∨
    ∃ f ∈ keptEdges str directed seen l, edgeKey str f.1 f.2 = edgeKey str e.1 e.2 ∨
      (directed = false ∧ edgeKey str f.1 f.2 = edgeKey str e.2 e.1)
  | [], _, _, h => absurd h List.not_mem_nil
  | g :: l, seen, e, h => by
    unfold keptEdges
    split
    · next hs =>
      rcases List.mem_cons.mp h with rfl | h
      · exact .inl hs
      · exact keptEdges_all directed l seen e h
    · rcases List.mem_cons.mp h with rfl | h
      · exact .inr ⟨e, List.mem_cons_self, .inl rfl⟩
      · rcases keptEdges_all directed l _ e h with (hs | ⟨d, hs⟩) | ⟨f, hf, k⟩
        · rcases List.mem_append.mp hs with hs | hs
          · exact .inl (.inl hs)
          · exact .inr ⟨g, List.mem_cons_self, .inl (List.mem_singleton.mp hs).symm⟩
        · rcases List.mem_append.mp hs with hs | hs
          · exact .inl (.inr ⟨d, hs⟩)
          · exact .inr ⟨g, List.mem_cons_self, .inr ⟨d, (List.mem_singleton.mp hs).symm⟩⟩
        · exact .inr ⟨f, List.mem_cons_of_mem _ hf, k⟩

/-- With distinct keys every edge of a digraph is drawn. -/
theorem keptEdges_full : ∀ (l : List (α × α)) (seen : List String), l.Nodup →
    (∀ e ∈ l, ∀ f ∈ l, edgeKey str e.1 e.2 = edgeKey str f.1 f.2 → e = f) → (∀ e ∈ l, edgeKey str e.1 e.2 ∉ seen) →
    keptEdges str true seen l = l
  | [], _, _, _, _ => rfl
  | e :: l, seen, hn, hk, hs => by
    unfold keptEdges
    rw [if_neg (by simpa using hs e List.mem_cons_self)]
    rw [keptEdges_full l _ (List.nodup_cons.mp hn).2
      (fun a ha b hb => hk a (List.mem_cons_of_mem _ ha) b (List.mem_cons_of_mem _ hb))]
    intro f hf
    simp only [List.mem_append, List.mem_singleton, not_or]
    refine ⟨hs f (List.mem_cons_of_mem _ hf), fun h => ?_⟩
    have := hk f (List.mem_cons_of_mem _ hf) e List.mem_cons_self h
    exact (List.nodup_cons.mp hn).1 (this ▸ hf)

/-- What `pydot.Edge` is given. -/
def drawEdge (g : Gr α) (weighted : Bool) (e : α × α) : DotEdge := ⟨str e.1, str e.2, edgeDict g weighted e⟩

theorem writeEdges_eq (g : Gr α) (weighted : Bool)
    (hok : ∀ e ∈ g.edges, mkDotEdge (str e.1) (str e.2) (edgeDict g weighted e) = .ok (drawEdge str g weighted e)) :
    ∀ (l : List (α × α)), (∀ e ∈ l, e ∈ g.edges) → ∀ s : List String × List DotEdge,
    ∃ seen, l.foldlM (writeDotEdge str g weighted) s =
      .ok (seen, s.2 ++ (keptEdges str g.directed s.1 l).map (drawEdge str g weighted))
  | [], _, s => ⟨s.1, by simp [keptEdges]; rfl⟩
  | e :: l, hl, s => by
    have ih := writeEdges_eq g weighted hok l fun x h => hl x (List.mem_cons_of_mem _ h)
    rw [List.foldlM_cons]
    unfold writeDotEdge keptEdges
    by_cases h1 : edgeKey str e.1 e.2 ∈ s.1
    · rw [if_pos h1, if_pos (.inl h1)]
      exact ih s
    · rw [if_neg h1]
      by_cases h2 : (!g.directed && decide (edgeKey str e.2 e.1 ∈ s.1)) = true
      · rw [if_pos h2, if_pos (.inr (by simpa using h2))]
        exact ih s
      · rw [if_neg h2, if_neg (by
          rintro (h | h)
          · exact h1 h
          · exact h2 (by simpa using h)), hok e (hl e List.mem_cons_self)]
        obtain ⟨seen, h⟩ := ih (s.1 ++ [edgeKey str e.1 e.2], s.2 ++ [drawEdge str g weighted e])
        refine ⟨seen, ?_⟩
        simp only [List.map_cons]
        rw [List.append_cons (as := s.2)]
        exact h

end write

section dicts

theorem attrDict_get (l : DotAttrs) (k : String) : dictGet (attrDict l) k = (l.findRev? fun p => p.1 = k).map (·.2) := by
  unfold attrDict
  suffices ∀ (l : DotAttrs) (d : DotAttrs), dictGet (l.foldl (fun d p => dictSet d p.1 p.2) d) k =
      ((l.findRev? fun p => p.1 = k).map (·.2)).or (dictGet d k) by
    rw [this l []]; simp [dictGet_nil]
  intro l
  induction l with
  | nil => intro d; simp
  | cons p l ih =>
    intro d
    rw [List.foldl_cons, ih, dictGet_dictSet]
    rw [List.findRev?_eq_find?_reverse, List.findRev?_eq_find?_reverse, List.reverse_cons, List.find?_append]
    cases h : l.reverse.find? fun p => p.1 = k with
    | some q => simp
    | none =>
      by_cases e : p.1 = k
      · simp [e]
      · simp [e]

/-- A new key goes to the end. -/
theorem dictSet_end {κ β : Type} [DecidableEq κ] : ∀ (d : List (κ × β)) (k : κ) (v : β), k ∉ d.map (·.1) → dictSet d k v = d ++ [(k, v)]
  | [], _, _, _ => rfl
  | p :: d, k, v, h => by
    simp only [List.map_cons, List.mem_cons, not_or] at h
    unfold dictSet
    rw [if_neg (Ne.symm h.1), dictSet_end d k v h.2]; rfl

theorem attrDict_nodup (l : DotAttrs) (h : (l.map (·.1)).Nodup) : attrDict l = l := by
  unfold attrDict
  suffices ∀ (l d : DotAttrs), ((d ++ l).map (·.1)).Nodup → l.foldl (fun d p => dictSet d p.1 p.2) d = d ++ l by
    simpa using this l [] (by simpa using h)
  intro l
  induction l with
  | nil => intro d _; simp
  | cons p l ih =>
    intro d hd
    rw [List.foldl_cons, dictSet_end, ih]
    · simp
    · simpa using hd
    · intro hp
      rw [List.map_append, List.nodup_append] at hd
      exact hd.2.2 _ hp _ (by simp) rfl

theorem attrDict_keys (l : DotAttrs) (k : String) : k ∈ (attrDict l).map (·.1) ↔ k ∈ l.map (·.1) := by
  unfold attrDict
  suffices ∀ (l d : DotAttrs), k ∈ (l.foldl (fun d p => dictSet d p.1 p.2) d).map (·.1) ↔ k ∈ d.map (·.1) ∨ k ∈ l.map (·.1) by
    simpa using this l []
  intro l
  induction l with
  | nil => intro d; simp
  | cons p l ih =>
    intro d
    rw [List.foldl_cons, ih, keys_dictSet]
    simp only [List.map_cons, List.mem_cons]
    split
    · next h => constructor
                · rintro (a | a) <;> simp_all
                · rintro (a | rfl | a)
                  · exact .inl a
                  · exact .inl (by simpa using h)
                  · exact .inr a
    · simp only [List.mem_append, List.mem_singleton]; exact or_assoc

end dicts

end Verif
