import Verif.Model.Basic

/-! Lemmas about the shared conventions: loops, dictionaries, indexing. -/

namespace Verif

/-- A loop that makes exactly `n` turns, by an indexed invariant. -/
theorem whileLoop_count {σ : Type} {cond : σ → Bool} {body : σ → Py σ} (I : Nat → σ → Prop)
    (n : Nat)
    (hstep : ∀ i s, i < n → I i s → cond s = true ∧ ∃ s', body s = .ok s' ∧ I (i + 1) s')
    (hend : ∀ s, I n s → cond s = false) :
    ∀ m i s, i + m = n → I i s → ∀ fuel, m < fuel →
      ∃ s', whileLoop cond body fuel s = some (.ok s') ∧ I n s' := by
  intro m
  induction m with
  | zero =>
    intro i s h hi fuel hf
    obtain ⟨f, rfl⟩ : ∃ f, fuel = f + 1 := ⟨fuel - 1, by omega⟩
    have : i = n := by omega
    subst this
    refine ⟨s, ?_, hi⟩
    simp [whileLoop, hend s hi]
  | succ m ih =>
    intro i s h hi fuel hf
    obtain ⟨f, rfl⟩ : ∃ f, fuel = f + 1 := ⟨fuel - 1, by omega⟩
    obtain ⟨hc, s', hb, hi'⟩ := hstep i s (by omega) hi
    obtain ⟨s'', h1, h2⟩ := ih (i + 1) s' (by omega) hi' f (by omega)
    exact ⟨s'', by simp [whileLoop, hc, hb, h1], h2⟩

theorem dictGet_nil {α β : Type} [DecidableEq α] (k : α) :
    dictGet ([] : List (α × β)) k = none := rfl

theorem dictGet_cons {α β : Type} [DecidableEq α] (p : α × β) (d : List (α × β)) (k : α) :
    dictGet (p :: d) k = if p.1 = k then some p.2 else dictGet d k := by
  unfold dictGet
  rw [List.find?_cons]
  by_cases h : p.1 = k <;> simp [h]

theorem dictGet_dictSet {α β : Type} [DecidableEq α] (d : List (α × β)) (k k' : α) (v : β) :
    dictGet (dictSet d k v) k' = if k = k' then some v else dictGet d k' := by
  induction d with
  | nil => simp [dictSet, dictGet_cons, dictGet_nil]
  | cons p d ih =>
    simp only [dictSet]
    by_cases h : p.1 = k
    · rw [if_pos h, dictGet_cons, dictGet_cons]
      by_cases h2 : k = k' <;> simp [h, h2]
    · rw [if_neg h, dictGet_cons, dictGet_cons, ih]
      by_cases h2 : k = k'
      · subst h2; simp [h]
      · simp [h2]

theorem keys_dictSet {α β : Type} [DecidableEq α] (d : List (α × β)) (k : α) (v : β) :
    (dictSet d k v).map (·.1) =
      if k ∈ d.map (·.1) then d.map (·.1) else d.map (·.1) ++ [k] := by
  induction d with
  | nil => simp [dictSet]
  | cons p d ih =>
    simp only [dictSet]
    by_cases h : p.1 = k
    · rw [if_pos h]; simp [h]
    · rw [if_neg h, List.map_cons, ih]
      have h' : k ≠ p.1 := fun e => h e.symm
      by_cases h2 : k ∈ d.map (·.1)
      · rw [if_pos h2, if_pos (by simp only [List.map_cons]; exact List.mem_cons_of_mem _ h2)]
        simp
      · rw [if_neg h2, if_neg (by simp only [List.map_cons, List.mem_cons, not_or]; exact ⟨h', h2⟩)]
        simp

theorem dictGet_isSome {α β : Type} [DecidableEq α] (d : List (α × β)) (k : α) :
    (dictGet d k).isSome = true ↔ k ∈ d.map (·.1) := by
  induction d with
  | nil => simp [dictGet_nil]
  | cons p d ih =>
    rw [dictGet_cons]
    by_cases h : p.1 = k
    · simp [h]
    · rw [if_neg h, ih]
      have h' : k ≠ p.1 := fun e => h e.symm
      simp [h']

theorem dictGet_eq_none {α β : Type} [DecidableEq α] (d : List (α × β)) (k : α) :
    dictGet d k = none ↔ k ∉ d.map (·.1) := by
  rw [← dictGet_isSome]
  cases dictGet d k <;> simp

theorem dictGet_mem {α β : Type} [DecidableEq α] {d : List (α × β)} {k : α} {v : β}
    (h : dictGet d k = some v) : (k, v) ∈ d := by
  induction d with
  | nil => simp [dictGet_nil] at h
  | cons p d ih =>
    rw [dictGet_cons] at h
    by_cases hk : p.1 = k
    · rw [if_pos hk] at h
      obtain ⟨a, b⟩ := p
      simp only [Option.some.injEq] at h hk
      subst h; subst hk; simp
    · rw [if_neg hk] at h
      exact List.mem_cons_of_mem _ (ih h)

theorem dictGet_of_mem {α β : Type} [DecidableEq α] {d : List (α × β)} {k : α} {v : β}
    (hn : (d.map (·.1)).Nodup) (h : (k, v) ∈ d) : dictGet d k = some v := by
  induction d with
  | nil => simp at h
  | cons p d ih =>
    rw [dictGet_cons]
    rw [List.map_cons, List.nodup_cons] at hn
    rcases List.mem_cons.1 h with h | h
    · subst h; simp
    · have : p.1 ≠ k := by
        intro e
        exact hn.1 (List.mem_map.2 ⟨(k, v), h, e.symm⟩)
      rw [if_neg this]
      exact ih hn.2 h

theorem pyGet_nat {α : Type} (l : List α) (n : Nat) (h : n < l.length) :
    pyGet l (n : Int) = .ok l[n] := by
  unfold pyGet
  dsimp only
  rw [if_neg (by omega), if_neg (by omega)]
  simp [h]

theorem pyGet_last_index {α : Type} (l : List α) (h : 0 < l.length) :
    pyGet l (-1) = .ok (l[l.length - 1]'(by omega)) := by
  have e : (if (-1 : Int) < 0 then -1 + (l.length : Int) else -1) = ((l.length - 1 : Nat) : Int) := by
    rw [if_pos (by omega)]; omega
  unfold pyGet
  rw [e]
  dsimp only
  rw [if_neg (by omega), Int.toNat_natCast, List.getElem?_eq_getElem (by omega)]

theorem pyGet_mem {α : Type} {l : List α} {i : Int} {x : α} (h : pyGet l i = .ok x) : x ∈ l := by
  unfold pyGet at h
  dsimp only at h
  generalize (if i < 0 then i + (l.length : Int) else i) = j at h
  split at h
  · simp at h
  · split at h
    · rename_i hx
      simp only [Except.ok.injEq] at h
      subst h
      exact List.mem_of_getElem? hx
    · simp at h

theorem pySet_mem {α : Type} {l l' : List α} {i : Int} {x y : α} (h : pySet l i x = .ok l')
    (hy : y ∈ l') : y ∈ l ∨ y = x := by
  unfold pySet at h
  dsimp only at h
  generalize (if i < 0 then i + (l.length : Int) else i) = j at h
  split at h
  · simp at h
  · simp only [Except.ok.injEq] at h
    subst h
    exact List.mem_or_eq_of_mem_set hy

theorem pyGet_nat_err {α : Type} (l : List α) (n : Nat) (h : l.length ≤ n) :
    pyGet l (n : Int) = .error .index := by
  unfold pyGet
  dsimp only
  rw [if_neg (by omega), if_neg (by omega)]
  simp [h]

end Verif
