import Verif.Model.Constraint
import Verif.Spec.Constraint
import Verif.Proof.Metadata

/-! # Lemmas about the count constraint -/

namespace Verif
open Spec

variable {V I K : Type} [DecidableEq V] [DecidableEq I] [DecidableEq K]

theorem dictGet_zeros (k : K) : ∀ (l : List (K × Int)) (s : List (K × Int)),
    dictGet (l.foldl (fun s p => dictSet s p.1 0) s) k =
      if k ∈ l.map (·.1) then some 0 else dictGet s k := by
  intro l
  induction l with
  | nil => intro s; simp
  | cons p t ih =>
    intro s
    rw [List.foldl_cons, ih, dictGet_dictSet]
    by_cases h1 : k ∈ t.map (·.1)
    · simp [h1]
    · by_cases h2 : k = p.1
      · subst h2; simp
      · have h3 : p.1 ≠ k := fun h => h2 h.symm
        simp [h1, h2, h3]

theorem keys_zeros : ∀ (l : List (K × Int)) (s : List (K × Int)), (s.map (·.1)).Nodup →
    ((l.foldl (fun s p => dictSet s p.1 0) s).map (·.1)).Nodup := by
  intro l
  induction l with
  | nil => intro s h; exact h
  | cons p t ih => intro s h; exact ih _ (keys_dictSet_nodup _ _ _ h)

theorem dictGet_addFields (k : K) : ∀ (vs : List K) (s : List (K × Int)),
    dictGet (vs.foldl addField s) k =
      if k ∈ vs then some ((dictGet s k).getD 0 + vs.count k) else dictGet s k := by
  intro vs
  induction vs with
  | nil => intro s; simp
  | cons v t ih =>
    intro s
    have h1 : dictGet (addField s v) k =
        if v = k then some ((dictGet s k).getD 0 + 1) else dictGet s k := by
      unfold addField
      split
      · next h =>
        rw [dictGet_dictSet]
        by_cases hv : k = v
        · subst hv; simp [h]
        · have : v ≠ k := fun h => hv h.symm
          simp [hv, this]
      · next n h =>
        rw [dictGet_dictSet]
        by_cases hv : k = v
        · subst hv; simp [h]
        · have : v ≠ k := fun h => hv h.symm
          simp [hv, this]
    rw [List.foldl_cons, ih, h1]
    by_cases hv : v = k
    · subst hv
      by_cases ht : v ∈ t
      · simp only [ht, if_true, List.mem_cons, true_or, List.count_cons_self, Option.getD_some]
        congr 1; push_cast; omega
      · simp [ht, List.count_eq_zero_of_not_mem ht]
    · have : ¬ k = v := fun h => hv h.symm
      simp [hv, this, List.count_cons_of_ne hv]

theorem keys_addFields : ∀ (vs : List K) (s : List (K × Int)), (s.map (·.1)).Nodup →
    ((vs.foldl addField s).map (·.1)).Nodup := by
  intro vs
  induction vs with
  | nil => intro s h; exact h
  | cons v t ih =>
    intro s h
    rw [List.foldl_cons]
    apply ih
    unfold addField
    split <;> exact keys_dictSet_nodup _ _ _ h

/-- What one assigned value contributes to the count of `k`. -/
def contrib (f : CountField I K) (o : Option I) (k : K) : Nat :=
  match o with
  | none => 0
  | some i => if f.ignore i then 0 else (f.field i).count k

theorem occurrences_eq (f : CountField I K) (vs : List V) (a : V → Option I) (k : K) :
    occurrences f.ignore f.field vs a k = (vs.map fun v => contrib f (a v) k).sum := rfl

theorem sumFold_spec (f : CountField I K) (a : V → Option I) (k : K) : ∀ (vs : List V)
    (s : List (K × Int) × Bool),
    dictGet (vs.foldl (sumTurn f a) s).1 k =
      (if occurrences f.ignore f.field vs a k = 0 then dictGet s.1 k
       else some ((dictGet s.1 k).getD 0 + occurrences f.ignore f.field vs a k)) ∧
    ((vs.foldl (sumTurn f a) s).2 = true ↔ s.2 = true ∨ ∃ v ∈ vs, a v = none) := by
  intro vs
  induction vs with
  | nil => intro s; simp [occurrences]
  | cons v t ih =>
    intro s
    obtain ⟨h1, h2⟩ := ih (sumTurn f a s v)
    rw [List.foldl_cons, h1, h2]
    rw [occurrences_eq, occurrences_eq]
    simp only [List.map_cons, List.sum_cons]
    generalize (t.map fun v => contrib f (a v) k).sum = n
    rcases ha : a v with _ | i
    · simp [sumTurn, ha, contrib]
    · by_cases hi : f.ignore i = true
      · simp [sumTurn, ha, contrib, hi]
      · simp only [Bool.not_eq_true] at hi
        simp only [sumTurn, ha, hi, Bool.false_eq_true, if_false, contrib, dictGet_addFields]
        refine ⟨?_, by simp [ha]⟩
        by_cases hm : k ∈ f.field i
        · have hc := List.count_pos_iff.2 hm
          have h3 : ¬ (f.field i).count k + n = 0 := by omega
          simp only [hm, if_true, h3, if_false, Option.getD_some]
          by_cases hn : n = 0
          · subst hn; simp
          · simp only [hn, if_false]; congr 1; push_cast; omega
        · simp [hm, List.count_eq_zero_of_not_mem hm]

/-- `sum` holds the number of occurrences of every key of the table and of
every value that occurs. -/
theorem sumFields_get (f : CountField I K) (ex : List (K × Int)) (vs : List V) (a : V → Option I) (k : K) :
    dictGet (sumFields f ex vs a).1 k =
      if k ∈ ex.map (·.1) ∨ occurrences f.ignore f.field vs a k ≠ 0
      then some (occurrences f.ignore f.field vs a k : Int) else none := by
  unfold sumFields
  rw [(sumFold_spec f a k vs _).1, dictGet_zeros]
  by_cases h1 : occurrences f.ignore f.field vs a k = 0
  · simp only [h1, if_true, ne_eq, not_true, or_false]
    split <;> simp [dictGet_nil]
  · by_cases h2 : k ∈ ex.map (·.1) <;> simp only [h1, h2, dictGet_nil, if_true, if_false] <;> simp [h1]

theorem sumFields_missing (f : CountField I K) (ex : List (K × Int)) (vs : List V) (a : V → Option I) :
    (sumFields f ex vs a).2 = true ↔ ∃ v ∈ vs, a v = none := by
  unfold sumFields
  rw [foldl_snd]
  simp
where
  foldl_snd : ∀ {vs : List V} {s : List (K × Int) × Bool},
      ((vs.foldl (sumTurn f a) s).2 = true) = (s.2 = true ∨ ∃ v ∈ vs, a v = none) := by
    intro vs
    induction vs with
    | nil => intro s; simp
    | cons v t ih =>
      intro s
      rw [List.foldl_cons, ih]
      rcases ha : a v with _ | i
      · simp [sumTurn, ha]
      · by_cases hi : f.ignore i = true <;> simp [sumTurn, ha, hi]

theorem sumFields_nodup (f : CountField I K) (ex : List (K × Int)) (vs : List V) (a : V → Option I) :
    ((sumFields f ex vs a).1.map (·.1)).Nodup := by
  unfold sumFields
  have : ∀ (vs : List V) (s : List (K × Int) × Bool), (s.1.map (·.1)).Nodup →
      ((vs.foldl (sumTurn f a) s).1.map (·.1)).Nodup := by
    intro vs
    induction vs with
    | nil => intro s h; exact h
    | cons v t ih =>
      intro s h
      rw [List.foldl_cons]
      apply ih
      unfold sumTurn
      split
      · split
        · exact h
        · exact keys_addFields _ _ h
      · exact h
  exact this vs _ (keys_zeros _ _ (by simp))

theorem mem_sumFields (f : CountField I K) (ex : List (K × Int)) (vs : List V) (a : V → Option I)
    (p : K × Int) : p ∈ (sumFields f ex vs a).1 ↔
      (p.1 ∈ ex.map (·.1) ∨ occurrences f.ignore f.field vs a p.1 ≠ 0) ∧
      p.2 = (occurrences f.ignore f.field vs a p.1 : Int) := by
  constructor
  · intro h
    have h1 := dictGet_of_mem (sumFields_nodup f ex vs a) (show (p.1, p.2) ∈ _ from h)
    rw [sumFields_get] at h1
    split at h1
    · next hc => exact ⟨hc, (Option.some.inj h1).symm⟩
    · simp at h1
  · rintro ⟨h1, h2⟩
    have := dictGet_mem (k := p.1) (v := p.2) (d := (sumFields f ex vs a).1)
      (by rw [sumFields_get, if_pos h1, h2])
    exact this

/-- The first test of the constraint. -/
theorem overflows_false (f : CountField I K) (ex : List (K × Int)) (vs : List V) (a : V → Option I) :
    overflows ex (sumFields f ex vs a).1 = false ↔
      ∀ k, match dictGet ex k with
        | none => occurrences f.ignore f.field vs a k = 0
        | some e => (occurrences f.ignore f.field vs a k : Int) ≤ e := by
  unfold overflows
  rw [List.any_eq_false]
  constructor
  · intro h k
    by_cases hk : k ∈ ex.map (·.1) ∨ occurrences f.ignore f.field vs a k ≠ 0
    · have h1 := h (k, (occurrences f.ignore f.field vs a k : Int))
        ((mem_sumFields f ex vs a _).2 ⟨hk, rfl⟩)
      rcases he : dictGet ex k with _ | e
      · simp [he] at h1
      · simp only [he, gt_iff_lt, decide_eq_true_eq, not_lt] at h1
        exact h1
    · have h2 : dictGet ex k = none := by rw [dictGet_eq_none]; exact fun h => hk (.inl h)
      rw [h2]
      by_contra hc
      exact hk (.inr hc)
  · intro h p hp
    obtain ⟨h1, h2⟩ := (mem_sumFields f ex vs a p).1 hp
    have h3 := h p.1
    rcases he : dictGet ex p.1 with _ | e
    · rw [he] at h3
      rcases h1 with h1 | h1
      · exact absurd h1 ((dictGet_eq_none _ _).1 he)
      · exact absurd h3 h1
    · rw [he] at h3
      simp only [gt_iff_lt, decide_eq_true_eq, not_lt]
      rw [h2]; exact h3

theorem required_eq (ex : List (K × Int)) (k : K) : required ex k = (dictGet ex k).getD 0 := by
  unfold required dictGet
  generalize ex.find? (fun p => decide (p.1 = k)) = o
  cases o <;> rfl

/-- The last loops raise nothing when the first test passed. -/
theorem checkSums_ok (ex : List (K × Int)) (bad : Int → Int → Bool) : ∀ (s : List (K × Int)),
    (∀ p ∈ s, p.1 ∈ ex.map (·.1)) →
    checkSums ex bad s = .ok (s.all fun p => !bad p.2 (required ex p.1)) := by
  intro s
  induction s with
  | nil => intro _; rfl
  | cons p t ih =>
    intro h
    have h1 := h p (by simp)
    have h2 := ih fun q hq => h q (by simp [hq])
    obtain ⟨e, he⟩ : ∃ e, dictGet ex p.1 = some e :=
      Option.isSome_iff_exists.1 (by rw [dictGet_isSome]; simpa using h1)
    unfold checkSums
    simp only [he, List.all_cons, required_eq, Option.getD_some]
    by_cases hb : bad p.2 e = true
    · simp [hb]
    · simp only [hb, Bool.false_eq_true, if_false]
      rw [h2]; simp [required_eq, hb]

theorem sumKeys_sub (f : CountField I K) (ex : List (K × Int)) (vs : List V) (a : V → Option I)
    (h : overflows ex (sumFields f ex vs a).1 = false) :
    ∀ p ∈ (sumFields f ex vs a).1, p.1 ∈ ex.map (·.1) := by
  intro p hp
  by_contra hc
  have h1 := (overflows_false f ex vs a).1 h p.1
  rw [(dictGet_eq_none _ _).2 hc] at h1
  rcases ((mem_sumFields f ex vs a p).1 hp).1 with h2 | h2
  · exact hc h2
  · exact h2 h1

theorem finalCheck_missing (f : CountField I K) (ex : List (K × Int)) (vs : List V) (a : V → Option I)
    (h : overflows ex (sumFields f ex vs a).1 = false) :
    finalCheck ex (sumFields f ex vs a).1 true = .ok true := by
  unfold finalCheck
  simp only [if_true]
  rw [checkSums_ok _ _ _ (sumKeys_sub f ex vs a h)]
  congr 1
  rw [List.all_eq_true]
  intro p hp
  have h1 := (overflows_false f ex vs a).1 h p.1
  obtain ⟨e, he⟩ : ∃ e, dictGet ex p.1 = some e :=
    Option.isSome_iff_exists.1 (by rw [dictGet_isSome]; exact sumKeys_sub f ex vs a h p hp)
  rw [he] at h1
  rw [required_eq, he, ((mem_sumFields f ex vs a p).1 hp).2]
  simpa using h1

theorem finalCheck_complete (f : CountField I K) (ex : List (K × Int)) (vs : List V) (a : V → Option I)
    (h : overflows ex (sumFields f ex vs a).1 = false) :
    ∃ b, finalCheck ex (sumFields f ex vs a).1 false = .ok b ∧
      (b = true ↔ Satisfies f.ignore f.field ex vs a) := by
  unfold finalCheck
  simp only [Bool.false_eq_true, if_false]
  refine ⟨_, checkSums_ok _ _ _ (sumKeys_sub f ex vs a h), ?_⟩
  rw [List.all_eq_true]
  constructor
  · intro h1 k
    by_cases hk : k ∈ ex.map (·.1)
    · have := h1 (k, (occurrences f.ignore f.field vs a k : Int))
        ((mem_sumFields f ex vs a _).2 ⟨.inl hk, rfl⟩)
      simpa using this
    · have h2 := (overflows_false f ex vs a).1 h k
      rw [(dictGet_eq_none _ _).2 hk] at h2
      rw [h2, required_eq, (dictGet_eq_none _ _).2 hk]; rfl
  · intro h1 p hp
    rw [((mem_sumFields f ex vs a p).1 hp).2, h1 p.1]
    simp

theorem overflows_not (f : CountField I K) (ex : List (K × Int)) (vs : List V) (a : V → Option I)
    (h : Satisfies f.ignore f.field ex vs a) : overflows ex (sumFields f ex vs a).1 = false := by
  rw [overflows_false]
  intro k
  have := h k
  rw [required_eq] at this
  rcases he : dictGet ex k with _ | e <;> rw [he] at this <;> simp at this ⊢ <;> omega

/-! ### Completions count at least as much -/

theorem contrib_le {f : CountField I K} {vs : List V} {doms : V → List I} {part full : V → Option I}
    (h : Completes vs doms part full) (k : K) :
    ∀ v ∈ vs, contrib f (part v) k ≤ contrib f (full v) k := by
  intro v hv
  obtain ⟨i, hi, h1⟩ := h v hv
  rcases hp : part v with _ | j
  · simp [contrib]
  · rw [hp] at h1; simp only at h1; rw [hi, h1]

theorem occurrences_mono {f : CountField I K} {vs : List V} {doms : V → List I}
    {part full : V → Option I} (h : Completes vs doms part full) (k : K) :
    occurrences f.ignore f.field vs part k ≤ occurrences f.ignore f.field vs full k := by
  rw [occurrences_eq, occurrences_eq]
  have := contrib_le (f := f) h k
  clear h
  induction vs with
  | nil => simp
  | cons v t ih =>
    simp only [List.map_cons, List.sum_cons]
    have h1 := this v (by simp)
    have h2 := ih fun w hw => this w (by simp [hw])
    omega

theorem occurrences_add {f : CountField I K} {vs : List V} {doms : V → List I}
    {part full : V → Option I} (h : Completes vs doms part full) (k : K) (v : V) (hv : v ∈ vs)
    (hp : part v = none) :
    occurrences f.ignore f.field vs part k + contrib f (full v) k ≤
      occurrences f.ignore f.field vs full k := by
  rw [occurrences_eq, occurrences_eq]
  have := contrib_le (f := f) h k
  clear h
  induction vs with
  | nil => simp at hv
  | cons w t ih =>
    simp only [List.map_cons, List.sum_cons]
    have h1 := this w (by simp)
    have h3 : (t.map fun v => contrib f (part v) k).sum ≤ (t.map fun v => contrib f (full v) k).sum := by
      clear ih hv
      have h2 : ∀ w ∈ t, contrib f (part w) k ≤ contrib f (full w) k :=
        fun w hw => this w (by simp [hw])
      clear this
      induction t with
      | nil => simp
      | cons u t ih =>
        simp only [List.map_cons, List.sum_cons]
        have h1 := h2 u (by simp)
        have h2 := ih fun w hw => h2 w (by simp [hw])
        omega
    rcases List.mem_cons.1 hv with hv | hv
    · subst hv
      rw [hp]
      simp only [contrib] at h3 ⊢
      omega
    · have h2 := ih hv fun w hw => this w (by simp [hw])
      omega

/-- An overflowing count rules every completion out. -/
theorem overflow_hopeless {f : CountField I K} {ex : List (K × Int)} {vs : List V} {doms : V → List I}
    {part full : V → Option I} (h : Completes vs doms part full)
    (ho : overflows ex (sumFields f ex vs part).1 = true) :
    ¬ Satisfies f.ignore f.field ex vs full := by
  intro hs
  have : overflows ex (sumFields f ex vs part).1 = false := by
    rw [overflows_false]
    intro k
    have h1 := hs k
    have h2 := occurrences_mono (f := f) h k
    rw [required_eq] at h1
    rcases he : dictGet ex k with _ | e <;> rw [he] at h1 <;> simp at h1 ⊢ <;> omega
  rw [ho] at this; exact absurd this (by simp)

/-! ### Forward checking -/

/-- Taking the value would exceed the count of `v`. -/
def exceeds (f : CountField I K) (ex : List (K × Int)) (vs : List V) (part : V → Option I) (v : K) : Bool :=
  match dictGet ex v with
  | none => true
  | some e => decide ((occurrences f.ignore f.field vs part v : Int) + 1 > e)

theorem tooMany_eq (f : CountField I K) (ex : List (K × Int)) (vs : List V) (part : V → Option I) (v : K) :
    tooMany (sumFields f ex vs part).1 ex v = .ok (exceeds f ex vs part v) := by
  unfold tooMany exceeds
  rcases he : dictGet ex v with _ | e
  · rfl
  · have : v ∈ ex.map (·.1) := by
      rw [← dictGet_isSome, he]; rfl
    simp only [sumFields_get, this, true_or, if_true]

/-- The value is not ignored and exceeds some count. -/
def violates (f : CountField I K) (ex : List (K × Int)) (vs : List V) (part : V → Option I) (x : I) : Bool :=
  !f.ignore x && (f.field x).any (exceeds f ex vs part)

/-- Such a value cannot be part of a solution. -/
theorem violates_hopeless {f : CountField I K} {ex : List (K × Int)} {vs : List V} {doms : V → List I}
    {part full : V → Option I} (h : Completes vs doms part full) {v : V} (hv : v ∈ vs)
    (hp : part v = none) {x : I} (hx : full v = some x) (hviol : violates f ex vs part x = true) :
    ¬ Satisfies f.ignore f.field ex vs full := by
  intro hs
  unfold violates at hviol
  simp only [Bool.and_eq_true, Bool.not_eq_true', List.any_eq_true] at hviol
  obtain ⟨hi, k, hk, he⟩ := hviol
  have h1 := occurrences_add (f := f) h k v hv hp
  have h2 := hs k
  have h3 : 0 < contrib f (full v) k := by
    rw [hx]; simp only [contrib, hi, Bool.false_eq_true, if_false]
    exact List.count_pos_iff.2 hk
  rw [required_eq] at h2
  unfold exceeds at he
  rcases hd : dictGet ex k with _ | e <;> rw [hd] at h2 he <;> simp at h2 he <;> omega

theorem hideFields_eq (f : CountField I K) (ex : List (K × Int)) (vs : List V) (part : V → Option I)
    (x : I) : ∀ (ks : List K) (d : List I),
    (hideFields (sumFields f ex vs part).1 ex x ks d = .error .value ∨
     ∃ d', hideFields (sumFields f ex vs part).1 ex x ks d = .ok d' ∧
      (∀ y, y ≠ x → (y ∈ d' ↔ y ∈ d)) ∧
      (ks.any (exceeds f ex vs part) = false → d' = d) ∧
      (d.Nodup → d'.Nodup ∧ (ks.any (exceeds f ex vs part) = true → x ∉ d')) ∧ d'.Sublist d) ∧
    (ks.countP (exceeds f ex vs part) ≤ 1 → x ∈ d →
      hideFields (sumFields f ex vs part).1 ex x ks d ≠ .error .value) ∧
    (2 ≤ ks.countP (exceeds f ex vs part) + (if x ∈ d then 0 else 1) →
      1 ≤ ks.countP (exceeds f ex vs part) → d.Nodup →
      hideFields (sumFields f ex vs part).1 ex x ks d = .error .value) := by
  intro ks
  induction ks with
  | nil =>
    intro d
    refine ⟨.inr ⟨d, rfl, by simp, by simp, by simp⟩, by simp [hideFields], by simp⟩
  | cons k t ih =>
    intro d
    simp only [hideFields, tooMany_eq, bind, Except.bind]
    by_cases he : exceeds f ex vs part k = true
    · simp only [he, if_true, hideValue]
      by_cases hm : x ∈ d
      · simp only [hm, if_true]
        obtain ⟨h1, h2, h3⟩ := ih (d.erase x)
        refine ⟨?_, ?_, ?_⟩
        · rcases h1 with h1 | ⟨d', h1, h4, h5, h6, h7⟩
          · exact .inl h1
          · refine .inr ⟨d', h1, ?_, by simp [he], ?_, h7.trans List.erase_sublist⟩
            · intro y hy
              rw [h4 y hy, List.mem_erase_of_ne hy]
            · intro hd
              obtain ⟨h8, h9⟩ := h6 (hd.erase x)
              refine ⟨h8, fun _ hx => ?_⟩
              exact (hd.not_mem_erase) (h7.subset hx)
        · intro hc _
          rw [List.countP_cons_of_pos he] at hc
          have hz : t.countP (exceeds f ex vs part) = 0 := by omega
          rw [List.countP_eq_zero] at hz
          have h0 : t.any (exceeds f ex vs part) = false := by
            rw [List.any_eq_false]; exact hz
          rcases h1 with h1 | ⟨d', h1, _⟩
          · exfalso
            clear h2 h3 ih hc
            revert h1
            generalize d.erase x = D
            clear h0
            induction t with
            | nil => simp [hideFields]
            | cons u t ih =>
              have hu := hz u (by simp)
              simp only [hideFields, tooMany_eq, bind, Except.bind, Bool.not_eq_true] at hu ⊢
              simp only [hu, Bool.false_eq_true, if_false]
              exact ih fun a ha => hz a (by simp [ha])
          · rw [h1]; simp
        · intro hc hc1 hd
          rw [List.countP_cons_of_pos he] at hc hc1
          refine h3 ?_ (by omega) (hd.erase x)
          rw [if_neg (hd.not_mem_erase)]; omega
      · simp only [hm, if_false]
        simp
    · simp only [he, Bool.false_eq_true, if_false]
      obtain ⟨h1, h2, h3⟩ := ih d
      rw [List.countP_cons_of_neg he]
      refine ⟨?_, h2, h3⟩
      rcases h1 with h1 | ⟨d', h1, h4, h5, h6, h7⟩
      · exact .inl h1
      · exact .inr ⟨d', h1, h4, by simpa [he] using h5, by simpa [he] using h6, h7⟩

theorem hideValues_eq (f : CountField I K) (ex : List (K × Int)) (vs : List V) (part : V → Option I) :
    ∀ (l d : List I),
    (hideValues f (sumFields f ex vs part).1 ex l d = .error .value ∨
     ∃ d', hideValues f (sumFields f ex vs part).1 ex l d = .ok d' ∧
      (∀ y ∈ d, y ∉ d' → violates f ex vs part y = true) ∧
      (d.Nodup → ∀ y ∈ l, violates f ex vs part y = true → y ∉ d') ∧
      (d.Nodup → d'.Nodup) ∧ d'.Sublist d) ∧
    ((∀ x ∈ l, f.ignore x = false → (f.field x).countP (exceeds f ex vs part) ≤ 1) → l.Nodup →
      (∀ x ∈ l, x ∈ d) → hideValues f (sumFields f ex vs part).1 ex l d ≠ .error .value) ∧
    (∀ x ∈ l, f.ignore x = false → 2 ≤ (f.field x).countP (exceeds f ex vs part) → d.Nodup →
      hideValues f (sumFields f ex vs part).1 ex l d = .error .value) := by
  intro l
  induction l with
  | nil =>
    intro d
    refine ⟨.inr ⟨d, rfl, fun y h1 h2 => absurd h1 h2, by simp, id, List.Sublist.refl _⟩, ?_, ?_⟩ <;>
      simp [hideValues]
  | cons x t ih =>
    intro d
    simp only [hideValues]
    by_cases hi : f.ignore x = true
    · simp only [hi, if_true]
      obtain ⟨h1, h2, h3⟩ := ih d
      refine ⟨?_, ?_, ?_⟩
      · rcases h1 with h1 | ⟨d', h1, h4, h5, h6, h7⟩
        · exact .inl h1
        · refine .inr ⟨d', h1, h4, ?_, h6, h7⟩
          intro hd y hy hv
          rcases List.mem_cons.1 hy with hy | hy
          · subst hy; simp [violates, hi] at hv
          · exact h5 hd y hy hv
      · intro hc hn hm
        exact h2 (fun y hy => hc y (by simp [hy])) (List.nodup_cons.1 hn).2
          fun y hy => hm y (by simp [hy])
      · intro y hy hy1 hy2 hd
        rcases List.mem_cons.1 hy with hy | hy
        · subst hy; rw [hi] at hy1; simp at hy1
        · exact h3 y hy hy1 hy2 hd
    · simp only [hi, Bool.false_eq_true, if_false]
      simp only [Bool.not_eq_true] at hi
      obtain ⟨g1, g2, g3⟩ := hideFields_eq f ex vs part x (f.field x) d
      rcases g1 with g1 | ⟨d1, g1, g4, g5, g6, g7⟩
      · rw [g1]
        refine ⟨.inl rfl, ?_, fun _ _ _ _ _ => rfl⟩
        intro hc hn hm
        exact absurd g1 (g2 (hc x (by simp) hi) (hm x (by simp)))
      · simp only [g1, bind, Except.bind]
        obtain ⟨h1, h2, h3⟩ := ih d1
        refine ⟨?_, ?_, ?_⟩
        · rcases h1 with h1 | ⟨d', h1, h4, h5, h6, h7⟩
          · exact .inl h1
          · refine .inr ⟨d', h1, ?_, ?_, fun hd => h6 (g6 hd).1, h7.trans g7⟩
            · intro y hy hn
              by_cases hyx : y = x
              · subst hyx
                by_cases ha : (f.field y).any (exceeds f ex vs part) = true
                · simp [violates, hi, ha]
                · rw [g5 (by simpa using ha)] at h4
                  exact h4 y hy hn
              · exact h4 y ((g4 y hyx).2 hy) hn
            · intro hd y hy hv
              rcases List.mem_cons.1 hy with hy | hy
              · subst hy
                have ha : (f.field y).any (exceeds f ex vs part) = true := by
                  simpa [violates, hi] using hv
                exact fun hm => (g6 hd).2 ha (h7.subset hm)
              · exact h5 (g6 hd).1 y hy hv
        · intro hc hn hm
          refine h2 (fun y hy => hc y (by simp [hy])) (List.nodup_cons.1 hn).2 ?_
          intro y hy
          refine (g4 y ?_).2 (hm y (by simp [hy]))
          rintro rfl
          exact (List.nodup_cons.1 hn).1 hy
        · intro y hy hy1 hy2 hd
          rcases List.mem_cons.1 hy with hy | hy
          · subst hy
            exact absurd (g3 (by omega) (by omega) hd) (by rw [g1]; simp)
          · exact h3 y hy hy1 hy2 (g6 hd).1

/-- Everything a forward check does to the domains. -/
theorem forwardCheck_eq (f : CountField I K) (ex : List (K × Int)) (vs : List V) (part : V → Option I) :
    ∀ (ws : List V) (doms : V → List I), (∀ w, (doms w).Nodup) →
    forwardCheck f (sumFields f ex vs part).1 ex part ws doms = .error .value ∨
    ∃ b doms', forwardCheck f (sumFields f ex vs part).1 ex part ws doms = .ok (b, doms') ∧
      (∀ w, doms' w = doms w ∨ w ∈ ws ∧ part w = none) ∧
      (∀ w, (doms' w).Sublist (doms w)) ∧ (∀ w, (doms' w).Nodup) ∧
      (∀ w, ∀ y ∈ doms w, y ∉ doms' w → violates f ex vs part y = true) ∧
      (b = false → ∃ w ∈ ws, part w = none ∧ doms' w = []) ∧
      (b = true → ∀ w ∈ ws, part w = none → doms' w ≠ [] ∧
        ∀ y ∈ doms' w, violates f ex vs part y = false) := by
  intro ws
  induction ws with
  | nil =>
    intro doms hn
    exact .inr ⟨true, doms, rfl, by simp, fun w => List.Sublist.refl _, hn,
      fun w y h1 h2 => absurd h1 h2, by simp, by simp⟩
  | cons w t ih =>
    intro doms hn
    simp only [forwardCheck]
    rcases hp : part w with _ | j
    · simp only
      rcases (hideValues_eq f ex vs part (doms w) (doms w)).1 with h1 | ⟨d, h1, h2, h3, h4, h5⟩
      · left; simp [h1, bind, Except.bind]
      · simp only [h1, bind, Except.bind]
        by_cases hd : d = []
        · right
          refine ⟨false, fun u => if u = w then [] else doms u, by simp [hd], ?_, ?_, ?_, ?_, ?_, by simp⟩
          · intro u; by_cases hu : u = w
            · subst hu; right; exact ⟨by simp, hp⟩
            · left; simp [hu]
          · intro u; by_cases hu : u = w
            · subst hu; simp
            · simp [hu]
          · intro u; by_cases hu : u = w
            · simp [hu]
            · simp [hu, hn u]
          · intro u y hy hy2
            by_cases hu : u = w
            · subst hu; exact h2 y hy (by simp [hd])
            · simp [hu, hy] at hy2
          · intro _; exact ⟨w, by simp, hp, by simp⟩
        · have he : d.isEmpty = false := by cases d <;> simp_all
          simp only [he, Bool.false_eq_true, if_false]
          rcases ih (fun u => if u = w then d else doms u) (by
            intro u; by_cases hu : u = w
            · simp [hu, h4 (hn w)]
            · simp [hu, hn u]) with g1 | ⟨b, doms', g1, g2, g3, g4, g5, g6, g7⟩
          · left; exact g1
          · right
            have hsub : ∀ u, (doms' u).Sublist (doms u) := by
              intro u
              have := g3 u
              by_cases hu : u = w
              · subst hu; simp only [if_true] at this; exact this.trans h5
              · simpa [hu] using this
            refine ⟨b, doms', g1, ?_, hsub, g4, ?_, ?_, ?_⟩
            · intro u
              by_cases hu : u = w
              · right; subst hu; exact ⟨by simp, hp⟩
              · rcases g2 u with g | g
                · left; simpa [hu] using g
                · right; exact ⟨by simp [g.1], g.2⟩
            · intro u y hy hy2
              by_cases hu : u = w
              · subst hu
                by_cases hyd : y ∈ d
                · exact g5 u y (by simpa using hyd) hy2
                · exact h2 y hy hyd
              · exact g5 u y (by simpa [hu] using hy) hy2
            · intro hb
              obtain ⟨u, hu, h8, h9⟩ := g6 hb
              exact ⟨u, by simp [hu], h8, h9⟩
            · intro hb u hu hpu
              by_cases hut : u ∈ t
              · exact g7 hb u hut hpu
              · have huw : u = w := by simpa [hut] using hu
                subst huw
                have h8 : doms' u = d := by
                  rcases g2 u with g | g
                  · simpa using g
                  · exact absurd g.1 hut
                rw [h8]
                refine ⟨hd, fun y hy => ?_⟩
                by_contra hc
                exact h3 (hn u) y (h5.subset hy) (by simpa using hc) hy
    · simp only
      rcases ih doms hn with g1 | ⟨b, doms', g1, g2, g3, g4, g5, g6, g7⟩
      · left; exact g1
      · right
        refine ⟨b, doms', g1, ?_, g3, g4, g5, ?_, ?_⟩
        · intro u
          rcases g2 u with g | g
          · exact .inl g
          · exact .inr ⟨by simp [g.1], g.2⟩
        · intro hb
          obtain ⟨u, hu, h8, h9⟩ := g6 hb
          exact ⟨u, by simp [hu], h8, h9⟩
        · intro hb u hu hpu
          rcases List.mem_cons.1 hu with hu | hu
          · subst hu; rw [hp] at hpu; simp at hpu
          · exact g7 hb u hu hpu

/-- No exception when every value exceeds at most one count. -/
theorem forwardCheck_ok (f : CountField I K) (ex : List (K × Int)) (vs : List V) (part : V → Option I) :
    ∀ (ws : List V) (doms : V → List I), (∀ w, (doms w).Nodup) →
    (∀ w, ∀ x ∈ doms w, f.ignore x = false → (f.field x).countP (exceeds f ex vs part) ≤ 1) →
    forwardCheck f (sumFields f ex vs part).1 ex part ws doms ≠ .error .value := by
  intro ws
  induction ws with
  | nil => intro doms _ _; simp [forwardCheck]
  | cons w t ih =>
    intro doms hn hc
    simp only [forwardCheck]
    rcases hp : part w with _ | j
    · simp only
      obtain ⟨g1, g2, _⟩ := hideValues_eq f ex vs part (doms w) (doms w)
      rcases g1 with g1 | ⟨d, g1, _, _, h4, h5⟩
      · exact absurd g1 (g2 (hc w) (hn w) fun x hx => hx)
      · simp only [g1, bind, Except.bind]
        split
        · simp
        · apply ih
          · intro u; by_cases hu : u = w
            · simp [hu, h4 (hn w)]
            · simp [hu, hn u]
          · intro u x hx
            by_cases hu : u = w
            · subst hu; exact hc u x (h5.subset (by simpa using hx))
            · exact hc u x (by simpa [hu] using hx)
    · exact ih doms hn hc

end Verif
