import Verif.Spec.CfgExact
import Verif.Proof.CfgEdgesLoop

/-! # What one more instruction adds to the graph of a sequence -/

namespace Verif

open Spec

section
variable {prog : List CfgInst} {l : List Nat} {i : Nat}

/-- A decomposition of a list with one more element at the end. -/
theorem snoc_cases {d r : List Nat} {k : Nat} (h : l ++ [i] = d ++ k :: r) :
    (r = [] ∧ d = l ∧ k = i) ∨ ∃ r', r = r' ++ [i] ∧ l = d ++ k :: r' := by
  rcases List.eq_nil_or_concat r with rfl | ⟨r', y, rfl⟩
  · obtain ⟨e1, e2⟩ := List.append_inj' h rfl
    cases e2
    exact Or.inl ⟨rfl, e1.symm, rfl⟩
  · rw [List.concat_eq_append] at h ⊢
    have h : l ++ [i] = (d ++ k :: r') ++ [y] := by rw [h]; simp
    obtain ⟨e1, e2⟩ := List.append_inj' h rfl
    cases e2
    exact Or.inr ⟨r', rfl, e1⟩

theorem starts_snoc (prog : List CfgInst) (l : List Nat) (i x : Nat) : (lineOf prog (l ++ [i])).Starts x ↔ (lineOf prog l).Starts x ∨
    (x = i ∧ ((lineOf prog l).opens l i = true ∨ (lineOf prog l).branch i = true)) ∨
    (x ∈ l ++ [i] ∧ (lineOf prog l).branch i = true ∧ (lineOf prog l).target i = some x) := by
  constructor
  · rintro ⟨d, r, h, hc⟩
    rcases snoc_cases h with ⟨rfl, rfl, rfl⟩ | ⟨r', rfl, h'⟩
    · rcases hc with hc | hc | ⟨j, hj, hc⟩
      · exact Or.inr (Or.inl ⟨rfl, Or.inl hc⟩)
      · exact Or.inr (Or.inl ⟨rfl, Or.inr hc⟩)
      · rw [List.mem_singleton] at hj
        subst hj
        exact Or.inr (Or.inl ⟨rfl, Or.inr hc.1⟩)
    · rcases hc with hc | hc | ⟨j, hj, hc⟩
      · exact Or.inl ⟨d, r', h', Or.inl hc⟩
      · exact Or.inl ⟨d, r', h', Or.inr (Or.inl hc)⟩
      · rw [← List.cons_append, List.mem_append, List.mem_singleton] at hj
        rcases hj with hj | rfl
        · exact Or.inl ⟨d, r', h', Or.inr (Or.inr ⟨j, hj, hc⟩)⟩
        · exact Or.inr (Or.inr ⟨by rw [h']; simp, hc⟩)
  · rintro (⟨d, r, h, hc⟩ | ⟨rfl, hc⟩ | ⟨hx, hc⟩)
    · have h : l = d ++ x :: r := h
      refine ⟨d, r ++ [i], by show l ++ [i] = _; rw [h]; simp, ?_⟩
      rcases hc with hc | hc | ⟨j, hj, hc⟩
      · exact Or.inl hc
      · exact Or.inr (Or.inl hc)
      · exact Or.inr (Or.inr ⟨j, by rw [← List.cons_append, List.mem_append]; exact Or.inl hj, hc⟩)
    · refine ⟨l, [], rfl, ?_⟩
      rcases hc with hc | hc
      · exact Or.inl hc
      · exact Or.inr (Or.inl hc)
    · obtain ⟨d, r, h⟩ := List.append_of_mem hx
      refine ⟨d, r, h, Or.inr (Or.inr ⟨i, ?_, hc⟩)⟩
      rcases snoc_cases h with ⟨rfl, _, rfl⟩ | ⟨r', rfl, _⟩ <;> simp

theorem guarded_snoc (prog : List CfgInst) (l : List Nat) (i x : Nat) : (lineOf prog (l ++ [i])).Guarded x ↔ (lineOf prog l).Guarded x ∨
    (x = i ∧ (lineOf prog l).opens l i = true ∧ (lineOf prog l).cond i ≠ condAlways) := by
  constructor
  · rintro ⟨d, r, h, hc⟩
    rcases snoc_cases h with ⟨rfl, rfl, rfl⟩ | ⟨r', rfl, h'⟩
    · exact Or.inr ⟨rfl, hc⟩
    · exact Or.inl ⟨d, r', h', hc⟩
  · rintro (⟨d, r, h, hc⟩ | ⟨rfl, hc⟩)
    · have h : l = d ++ x :: r := h
      exact ⟨d, r ++ [i], by show l ++ [i] = _; rw [h]; simp, hc⟩
    · exact ⟨l, [], rfl, hc⟩

theorem leaves_snoc (prog : List CfgInst) (l : List Nat) (i x : Nat) : (lineOf prog (l ++ [i])).Leaves x ↔ (lineOf prog l).Leaves x ∨
    (x = i ∧ (lineOf prog l).branch i = true ∧ (lineOf prog l).target i = none) := by
  constructor
  · rintro ⟨h, hc⟩
    have h : x ∈ l ++ [i] := h
    rw [List.mem_append, List.mem_singleton] at h
    rcases h with h | rfl
    · exact Or.inl ⟨h, hc⟩
    · exact Or.inr ⟨rfl, hc⟩
  · rintro (⟨h, hc⟩ | ⟨rfl, hc⟩)
    · have h : x ∈ l := h
      exact ⟨by show x ∈ l ++ [i]; simp [h], hc⟩
    · exact ⟨by show x ∈ l ++ [x]; simp, hc⟩

theorem place_snoc (prog : List CfgInst) (D l : List Nat) (i : Nat) : (lineOf prog D).place (l ++ [i]) =
    if ((lineOf prog D).branch i && !(lineOf prog D).opens l i) = true then
      if (lineOf prog D).link i = true then match (lineOf prog D).target i with
        | none => .unknown i
        | some _ => .block i
      else match l.getLast? with
        | none => .root
        | some a => .block a
    else .block i := by
  show placeRev _ _ _ _ (l ++ [i]).reverse = _
  rw [List.reverse_append, List.reverse_singleton, List.singleton_append, ← List.head?_reverse]
  unfold Line.opens
  cases l.reverse <;> rfl

theorem guard_snoc (prog : List CfgInst) (D l : List Nat) (i : Nat) : (lineOf prog D).guard (l ++ [i]) =
    if (lineOf prog D).opens l i = true then if (lineOf prog D).cond i = condAlways then none else some i
    else (lineOf prog D).guard l := by
  show guardRev _ _ (l ++ [i]).reverse = _
  rw [List.reverse_append, List.reverse_singleton, List.singleton_append, guardRev]
  rfl

theorem place_mem (prog : List CfgInst) (D l : List Nat) {x : Nat} (h : (lineOf prog D).place l = .block x) : x ∈ l := by
  rcases List.eq_nil_or_concat l with rfl | ⟨d, b, rfl⟩
  · cases h
  · rw [List.concat_eq_append] at h ⊢
    rw [place_snoc] at h
    split at h
    · split at h
      · split at h
        · cases h
        · cases h
          simp
      · cases hd : d.getLast? with
        | none => rw [hd] at h; cases h
        | some a =>
          rw [hd] at h
          cases h
          exact List.mem_append_left _ (List.mem_of_getLast? hd)
    · cases h
      simp

/-! ### When the instruction opens a group or is a branch -/

theorem runsTo_mono {a j : Nat} (hb : (lineOf prog l).branch i = true ∨ (lineOf prog l).opens l i = true)
    (h : (lineOf prog l).RunsTo a j) : (lineOf prog (l ++ [i])).RunsTo a j := by
  obtain ⟨d, m, r, h1, h2, h3, h4⟩ := h
  have h1 : l = d ++ a :: (m ++ r) := h1
  refine ⟨d, m, r ++ [i], by show l ++ [i] = _; rw [h1]; simp, h2, h3, ?_⟩
  intro x r' hr
  cases r with
  | nil =>
    cases hr
    rw [List.append_nil] at h1
    rw [← h1]
    exact hb
  | cons y r =>
    rw [List.cons_append, List.cons.injEq] at hr
    exact h4 x r (by rw [hr.1])

theorem runsTo_snoc {a j : Nat} (hn : (l ++ [i]).Nodup) (hb : (lineOf prog l).branch i = true ∨ (lineOf prog l).opens l i = true)
    (h : (lineOf prog (l ++ [i])).RunsTo a j) : (a = i ∧ j = i) ∨ (a ∈ l ∧ (lineOf prog l).RunsTo a j) := by
  obtain ⟨d, m, r, h1, h2, h3, h4⟩ := h
  rcases snoc_cases h1 with ⟨e1, _, rfl⟩ | ⟨r', e1, e2⟩
  · rw [List.append_eq_nil_iff] at e1
    rw [e1.1] at h2
    cases h2
    exact Or.inl ⟨rfl, rfl⟩
  · right
    refine ⟨by rw [e2]; simp, ?_⟩
    rcases List.eq_nil_or_concat r with rfl | ⟨r2, y, rfl⟩
    · rw [List.append_nil] at e1
      subst e1
      have := h3 r' i [] rfl
      have e2' : (lineOf prog l).opens l i = (lineOf prog (l ++ [i])).opens (d ++ a :: r') i := by rw [e2]; rfl
      rcases hb with hb | hb
      · exact absurd (hb.symm.trans this.1) (by decide)
      · exact absurd (hb.symm.trans (e2'.trans this.2)) (by decide)
    · rw [List.concat_eq_append, ← List.append_assoc] at e1
      obtain ⟨f1, f2⟩ := List.append_inj' e1 rfl
      cases f2
      subst f1
      exact ⟨d, m, r2, e2, h2, h3, fun x r'' hr => h4 x (r'' ++ [i]) (by rw [hr]; simp)⟩

theorem runsTo_self (prog : List CfgInst) (l : List Nat) (i : Nat) : (lineOf prog (l ++ [i])).RunsTo i i :=
  ⟨l, [], [], by rfl, rfl, fun m1 x m2 h => by simp at h, fun x r' h => by cases h⟩

theorem edge_mono {s t : CfgEnd} (hb : (lineOf prog l).branch i = true ∨ (lineOf prog l).opens l i = true)
    (h : (lineOf prog l).Edge s t) : (lineOf prog (l ++ [i])).Edge s t := by
  have ap : ∀ {d r : List Nat}, (lineOf prog l).line = d ++ r → (lineOf prog (l ++ [i])).line = d ++ (r ++ [i]) := fun {d r} h => by
    have h : l = d ++ r := h
    show l ++ [i] = _
    rw [h]
    simp
  cases h with
  | flow h1 h2 h3 => exact .flow (L := lineOf prog (l ++ [i])) (ap h1) h2 h3
  | skip h1 h2 h3 => exact .skip (L := lineOf prog (l ++ [i])) (ap h1) h2 h3
  | holds h1 => exact .holds ((guarded_snoc prog l i _).2 (Or.inl h1))
  | cut h1 h2 h3 => exact .cut (L := lineOf prog (l ++ [i])) (ap h1) h2 ((starts_snoc prog l i _).2 (Or.inl h3))
  | leave h1 h2 => exact .leave ((leaves_snoc prog l i _).2 (Or.inl h1)) (runsTo_mono hb h2)
  | away h1 => exact .away ((leaves_snoc prog l i _).2 (Or.inl h1))
  | jump h1 h2 h3 h4 h5 => exact .jump (L := lineOf prog (l ++ [i])) (ap h1) h2 h3 h4 (runsTo_mono hb h5)

/-- What an instruction that opens a group adds. -/
def NewGroup (prog : List CfgInst) (l : List Nat) (i : Nat) (s t : CfgEnd) : Prop :=
  (lineOf prog l).opens l i = true ∧
    ((t = (lineOf prog l).entry i ∧ s = (lineOf prog l).place l ∧ (lineOf prog l).passes s) ∨
     (t = (lineOf prog l).entry i ∧ ∃ x, (lineOf prog l).guard l = some x ∧ s = .cond x) ∨
     (s = .cond i ∧ t = .block i ∧ (lineOf prog l).cond i ≠ condAlways))

/-- What a branch that opens no group adds. -/
def NewPiece (prog : List CfgInst) (l : List Nat) (i : Nat) (s t : CfgEnd) : Prop :=
  (lineOf prog l).opens l i = false ∧ (lineOf prog l).branch i = true ∧ ∃ a, l.getLast? = some a ∧ s = .block a ∧ t = .block i

/-- What a branch adds. -/
def NewBranch (prog : List CfgInst) (l : List Nat) (i : Nat) (s t : CfgEnd) : Prop :=
  (lineOf prog l).branch i = true ∧
    (((lineOf prog l).target i = none ∧ ((s = .block i ∧ t = .unknown i) ∨ (s = .unknown i ∧ t = .fin))) ∨
     ∃ k, (lineOf prog l).target i = some k ∧ k ∈ l ++ [i] ∧ ((s = .block i ∧ t = .block k) ∨
       ∃ d a r, l = d ++ a :: k :: r ∧ (lineOf prog l).opens (d ++ [a]) k = false ∧ s = .block a ∧ t = .block k))

theorem edge_snoc (hn : (l ++ [i]).Nodup) (hb : (lineOf prog l).branch i = true ∨ (lineOf prog l).opens l i = true) (s t : CfgEnd) :
    (lineOf prog (l ++ [i])).Edge s t ↔
      (lineOf prog l).Edge s t ∨ NewGroup prog l i s t ∨ NewPiece prog l i s t ∨ NewBranch prog l i s t := by
  constructor
  · intro h
    cases h with
    | flow h1 h2 h3 =>
      rcases snoc_cases h1 with ⟨rfl, rfl, rfl⟩ | ⟨r', rfl, h'⟩
      · exact Or.inr (Or.inl ⟨h2, Or.inl ⟨rfl, rfl, h3⟩⟩)
      · exact Or.inl (.flow (L := lineOf prog l) h' h2 h3)
    | skip h1 h2 h3 =>
      rcases snoc_cases h1 with ⟨rfl, rfl, rfl⟩ | ⟨r', rfl, h'⟩
      · exact Or.inr (Or.inl ⟨h2, Or.inr (Or.inl ⟨rfl, _, h3, rfl⟩)⟩)
      · exact Or.inl (.skip (L := lineOf prog l) h' h2 h3)
    | holds h1 =>
      rcases (guarded_snoc prog l i _).1 h1 with h1 | ⟨rfl, h1⟩
      · exact Or.inl (.holds h1)
      · exact Or.inr (Or.inl ⟨h1.1, Or.inr (Or.inr ⟨rfl, rfl, h1.2⟩)⟩)
    | @cut d r a k h1 h2 h3 =>
      have h1' : l ++ [i] = (d ++ [a]) ++ k :: r := by
        have h1 : l ++ [i] = d ++ a :: k :: r := h1
        rw [h1]; simp
      rcases snoc_cases h1' with ⟨rfl, rfl, rfl⟩ | ⟨r', rfl, h'⟩
      · refine Or.inr (Or.inr (Or.inl ⟨h2, ?_, a, by simp, rfl, rfl⟩))
        rcases hb with hb | hb
        · exact hb
        · exact absurd (hb.symm.trans h2) (by decide)
      · have h' : l = d ++ a :: k :: r' := by rw [h']; simp
        rcases (starts_snoc prog l i k).1 h3 with h3 | ⟨rfl, h3⟩ | ⟨h4, h5, h6⟩
        · exact Or.inl (.cut (L := lineOf prog l) h' h2 h3)
        · rw [List.nodup_append] at hn
          exact absurd rfl (hn.2.2 k (by rw [h']; simp) k (by simp))
        · exact Or.inr (Or.inr (Or.inr ⟨h5, Or.inr ⟨k, h6, h4, Or.inr ⟨d, a, r', h', h2, rfl, rfl⟩⟩⟩))
    | leave h1 h2 =>
      rcases runsTo_snoc hn hb h2 with ⟨rfl, rfl⟩ | ⟨ha, h3⟩
      · exact Or.inr (Or.inr (Or.inr ⟨h1.2.1, Or.inl ⟨h1.2.2, Or.inl ⟨rfl, rfl⟩⟩⟩))
      · exact Or.inl (.leave ⟨ha, h1.2⟩ h3)
    | away h1 =>
      rcases (leaves_snoc prog l i _).1 h1 with h1 | ⟨rfl, h1⟩
      · exact Or.inl (.away h1)
      · exact Or.inr (Or.inr (Or.inr ⟨h1.1, Or.inl ⟨h1.2, Or.inr ⟨rfl, rfl⟩⟩⟩))
    | @jump d r i0 j t h1 h2 h3 h4 h5 =>
      rcases runsTo_snoc hn hb h5 with ⟨rfl, rfl⟩ | ⟨ha, h6⟩
      · rcases snoc_cases h1 with ⟨rfl, rfl, _⟩ | ⟨r', rfl, h'⟩
        · exact Or.inr (Or.inr (Or.inr ⟨h2, Or.inr ⟨_, h3, h4, Or.inl ⟨rfl, rfl⟩⟩⟩))
        · rw [List.nodup_append] at hn
          exact absurd rfl (hn.2.2 j (by rw [h']; simp) j (by simp))
      · rcases snoc_cases h1 with ⟨rfl, rfl, rfl⟩ | ⟨r', rfl, h'⟩
        · rw [List.nodup_append] at hn
          exact absurd rfl (hn.2.2 _ ha _ (by simp))
        · exact Or.inl (.jump (L := lineOf prog l) h' h2 h3 h4 h6)
  · rintro (h | ⟨ho, h⟩ | ⟨h1, h2, a, h3, rfl, rfl⟩ | ⟨h1, h⟩)
    · exact edge_mono hb h
    · rcases h with ⟨rfl, rfl, h⟩ | ⟨rfl, x, h, rfl⟩ | ⟨rfl, rfl, h⟩
      · exact .flow (L := lineOf prog (l ++ [i])) (r := []) rfl ho h
      · exact .skip (L := lineOf prog (l ++ [i])) (r := []) rfl ho h
      · exact .holds ((guarded_snoc prog l i _).2 (Or.inr ⟨rfl, ho, h⟩))
    · obtain ⟨d, rfl⟩ : ∃ d, l = d ++ [a] := by
        rcases List.eq_nil_or_concat l with rfl | ⟨d, y, rfl⟩
        · cases h3
        · rw [List.concat_eq_append, List.getLast?_concat] at h3
          cases h3
          exact ⟨d, by simp⟩
      exact .cut (L := lineOf prog (d ++ [a] ++ [i])) (d := d) (r := []) (by show d ++ [a] ++ [i] = _; simp) h1
        ((starts_snoc prog _ i i).2 (Or.inr (Or.inl ⟨rfl, Or.inr h2⟩)))
    · rcases h with ⟨h, (⟨rfl, rfl⟩ | ⟨rfl, rfl⟩)⟩ | ⟨k, h, hk, (⟨rfl, rfl⟩ | ⟨d, a, r, h', h2, rfl, rfl⟩)⟩
      · exact .leave ((leaves_snoc prog l i _).2 (Or.inr ⟨rfl, h1, h⟩)) (runsTo_self prog l i)
      · exact .away ((leaves_snoc prog l i _).2 (Or.inr ⟨rfl, h1, h⟩))
      · exact .jump (L := lineOf prog (l ++ [i])) (d := l) (r := []) rfl h1 h hk (runsTo_self prog l i)
      · exact .cut (L := lineOf prog (l ++ [i])) (d := d) (r := r ++ [i]) (by show l ++ [i] = _; rw [h']; simp) h2
          ((starts_snoc prog _ i _).2 (Or.inr (Or.inr ⟨hk, h1, h⟩)))

/-! ### When it joins the current block -/

theorem edge_join {a : Nat} (hn : (l ++ [i]).Nodup) (hb : (lineOf prog l).branch i = false) (ho : (lineOf prog l).opens l i = false)
    (ha : l.getLast? = some a) (s t : CfgEnd) :
    (lineOf prog (l ++ [i])).Edge s t ↔ ∃ s0, (lineOf prog l).Edge s0 t ∧ s = if s0 = .block a then .block i else s0 := by
  obtain ⟨l0, rfl⟩ : ∃ d, l = d ++ [a] := by
    rcases List.eq_nil_or_concat l with rfl | ⟨d, y, rfl⟩
    · cases ha
    · rw [List.concat_eq_append, List.getLast?_concat] at ha
      cases ha
      exact ⟨d, by simp⟩
  have hnl : (l0 ++ [a]).Nodup := (List.nodup_append.1 hn).1
  have hne : ∀ {d r : List Nat} {x k : Nat}, l0 ++ [a] = d ++ k :: r → x ∈ d → x ≠ a := by
    rintro d r x k h hx rfl
    rcases snoc_cases h with ⟨_, rfl, rfl⟩ | ⟨r', rfl, h'⟩
    · rw [List.nodup_append] at hnl
      exact hnl.2.2 k hx k (by simp) rfl
    · rw [List.nodup_append] at hnl
      exact hnl.2.2 x (by rw [h']; simp [hx]) x (by simp) rfl
  have hst : ∀ x, (lineOf prog (l0 ++ [a] ++ [i])).Starts x ↔ (lineOf prog (l0 ++ [a])).Starts x := by
    intro x
    rw [starts_snoc, ho, hb]
    simp
  have hlv : ∀ x, (lineOf prog (l0 ++ [a] ++ [i])).Leaves x ↔ (lineOf prog (l0 ++ [a])).Leaves x := by
    intro x
    rw [leaves_snoc, hb]
    simp
  have hgd : ∀ x, (lineOf prog (l0 ++ [a] ++ [i])).Guarded x ↔ (lineOf prog (l0 ++ [a])).Guarded x := by
    intro x
    rw [guarded_snoc, ho]
    simp
  -- the end of a run
  have hrun : ∀ x j, (lineOf prog (l0 ++ [a] ++ [i])).RunsTo x j → (lineOf prog (l0 ++ [a])).branch x = true →
      ∃ j0, (lineOf prog (l0 ++ [a])).RunsTo x j0 ∧ j = if j0 = a then i else j0 := by
    rintro x j ⟨d, m, r, h1, h2, h3, h4⟩ hx
    rcases snoc_cases h1 with ⟨_, _, rfl⟩ | ⟨r', e1, e2⟩
    · exact absurd (hx.symm.trans hb) (by decide)
    rcases List.eq_nil_or_concat r with rfl | ⟨r2, y, rfl⟩
    · rw [List.append_nil] at e1
      subst e1
      refine ⟨((x :: r').getLast?).getD 0, ⟨d, r', [], by rw [List.append_nil]; exact e2, ?_, ?_, fun y r' h => by cases h⟩, ?_⟩
      · cases hz : (x :: r').getLast? with
        | none => simp at hz
        | some z => rfl
      · intro m1 y m2 hm
        exact h3 m1 y (m2 ++ [i]) (by rw [hm]; simp)
      · have e3 : (l0 ++ [a]).getLast? = (x :: r').getLast? := by
          rw [e2, List.getLast?_append]
          cases hz : (x :: r').getLast? with
          | none => simp at hz
          | some z => rfl
        rw [List.getLast?_concat] at e3
        rw [← e3]
        have h2 : (x :: (r' ++ [i])).getLast? = some j := h2
        rw [← List.cons_append, List.getLast?_concat] at h2
        simpa using h2.symm
    · rw [List.concat_eq_append, ← List.append_assoc] at e1
      obtain ⟨f1, f2⟩ := List.append_inj' e1 rfl
      cases f2
      subst f1
      refine ⟨j, ⟨d, m, r2, e2, h2, h3, fun x r'' hr => h4 x (r'' ++ [i]) (by rw [hr]; simp)⟩, ?_⟩
      rw [if_neg]
      have e2 : l0 ++ [a] = d ++ x :: (m ++ r2) := e2
      cases r2 with
      | nil =>
        rw [List.append_nil] at e2
        have := h4 i [] rfl
        rw [← e2] at this
        rcases this with h | h
        · exact absurd (h.symm.trans hb) (by decide)
        · exact absurd (h.symm.trans ho) (by decide)
      | cons y r2 =>
        refine hne (d := d ++ x :: m) (k := y) (r := r2) (by rw [e2]; simp) ?_
        rw [List.mem_append]
        exact Or.inr (List.mem_of_getLast? h2)
  have hrun' : ∀ x j0, (lineOf prog (l0 ++ [a])).RunsTo x j0 → (lineOf prog (l0 ++ [a] ++ [i])).RunsTo x (if j0 = a then i else j0) := by
    rintro x j ⟨d, m, r, h1, h2, h3, h4⟩
    have h1 : l0 ++ [a] = d ++ x :: (m ++ r) := h1
    cases r with
    | nil =>
      rw [List.append_nil] at h1
      have hj : j = a := by
        have : (l0 ++ [a]).getLast? = some j := by rw [h1, List.getLast?_append, h2]; rfl
        rw [List.getLast?_concat] at this
        exact (Option.some.inj this).symm
      rw [if_pos hj]
      refine ⟨d, m ++ [i], [], by show l0 ++ [a] ++ [i] = _; rw [h1]; simp, ?_, ?_, fun y r' h => by cases h⟩
      · rw [← List.cons_append, List.getLast?_concat]
      · intro m1 y m2 hm
        rcases snoc_cases hm with ⟨rfl, rfl, rfl⟩ | ⟨r', rfl, h'⟩
        · rw [← h1]
          exact ⟨hb, ho⟩
        · exact h3 m1 y r' h'
    | cons y r =>
      have : j ≠ a := by
        refine hne (d := d ++ x :: m) (k := y) (r := r) (by rw [h1]; simp) ?_
        rw [List.mem_append]
        exact Or.inr (List.mem_of_getLast? h2)
      rw [if_neg this]
      refine ⟨d, m, (y :: r) ++ [i], by show l0 ++ [a] ++ [i] = _; rw [h1]; simp, h2, h3, ?_⟩
      intro z r' hr
      rw [List.cons_append, List.cons.injEq] at hr
      exact h4 z r (by rw [hr.1])
  have hif : ∀ j0, (if CfgEnd.block j0 = .block a then CfgEnd.block i else .block j0) = .block (if j0 = a then i else j0) := by
    intro j0
    by_cases h : j0 = a
    · rw [if_pos h, if_pos (by rw [h])]
    · rw [if_neg h, if_neg (by simpa using h)]
  constructor
  · intro h
    cases h with
    | @flow d r k h1 h2 h3 =>
      rcases snoc_cases h1 with ⟨rfl, rfl, rfl⟩ | ⟨r', rfl, h'⟩
      · exact absurd (h2.symm.trans ho) (by decide)
      · refine ⟨_, .flow (L := lineOf prog (l0 ++ [a])) h' h2 h3, ?_⟩
        rw [if_neg]
        · rfl
        · intro he
          exact hne h' (place_mem prog _ d he) rfl
    | skip h1 h2 h3 =>
      rcases snoc_cases h1 with ⟨rfl, rfl, rfl⟩ | ⟨r', rfl, h'⟩
      · exact absurd (h2.symm.trans ho) (by decide)
      · exact ⟨_, .skip (L := lineOf prog (l0 ++ [a])) h' h2 h3, rfl⟩
    | holds h1 => exact ⟨_, .holds ((hgd _).1 h1), rfl⟩
    | @cut d r b k h1 h2 h3 =>
      have h1' : l0 ++ [a] ++ [i] = (d ++ [b]) ++ k :: r := by
        have h1 : l0 ++ [a] ++ [i] = d ++ b :: k :: r := h1
        rw [h1]; simp
      rw [hst] at h3
      rcases snoc_cases h1' with ⟨rfl, e, rfl⟩ | ⟨r', rfl, h'⟩
      · obtain ⟨d', r'', h4, _⟩ := h3
        rw [List.nodup_append] at hn
        have h4 : l0 ++ [a] = d' ++ k :: r'' := h4
        exact absurd rfl (hn.2.2 k (by rw [h4]; simp) k (by simp))
      · refine ⟨_, .cut (L := lineOf prog (l0 ++ [a])) (r := r') (by show l0 ++ [a] = _; rw [h']; simp) h2 h3, ?_⟩
        rw [if_neg]
        intro he
        cases he
        exact hne h' (by simp) rfl
    | leave h1 h2 =>
      obtain ⟨j0, h3, h4⟩ := hrun _ _ h2 h1.2.1
      exact ⟨_, .leave ((hlv _).1 h1) h3, by rw [hif, h4]⟩
    | away h1 => exact ⟨_, .away ((hlv _).1 h1), rfl⟩
    | jump h1 h2 h3 h4 h5 =>
      obtain ⟨j0, h6, h7⟩ := hrun _ _ h5 h2
      rcases snoc_cases h1 with ⟨rfl, rfl, rfl⟩ | ⟨r', rfl, h'⟩
      · exact absurd (h2.symm.trans hb) (by decide)
      · exact ⟨_, .jump (L := lineOf prog (l0 ++ [a])) h' h2 h3 h4 h6, by rw [hif, h7]⟩
  · rintro ⟨s0, h, rfl⟩
    have ap : ∀ {d r : List Nat}, (lineOf prog (l0 ++ [a])).line = d ++ r → (lineOf prog (l0 ++ [a] ++ [i])).line = d ++ (r ++ [i]) :=
      fun {d r} h => by
        have h : l0 ++ [a] = d ++ r := h
        show l0 ++ [a] ++ [i] = _
        rw [h]
        simp
    cases h with
    | @flow d r k h1 h2 h3 =>
      rw [if_neg fun he => hne h1 (place_mem prog _ d he) rfl]
      exact .flow (L := lineOf prog (l0 ++ [a] ++ [i])) (ap h1) h2 h3
    | skip h1 h2 h3 => exact .skip (L := lineOf prog (l0 ++ [a] ++ [i])) (ap h1) h2 h3
    | holds h1 => exact .holds ((hgd _).2 h1)
    | @cut d r b k h1 h2 h3 =>
      have h1' : l0 ++ [a] = (d ++ [b]) ++ k :: r := by
        have h1 : l0 ++ [a] = d ++ b :: k :: r := h1
        rw [h1]; simp
      rw [if_neg (by intro he; cases he; exact hne h1' (by simp) rfl)]
      exact .cut (L := lineOf prog (l0 ++ [a] ++ [i])) (ap h1) h2 ((hst _).2 h3)
    | leave h1 h2 =>
      rw [hif]
      exact .leave ((hlv _).2 h1) (hrun' _ _ h2)
    | away h1 => exact .away ((hlv _).2 h1)
    | jump h1 h2 h3 h4 h5 =>
      rw [hif]
      exact .jump (L := lineOf prog (l0 ++ [a] ++ [i])) (ap h1) h2 h3 h4 (hrun' _ _ h5)

end

end Verif
