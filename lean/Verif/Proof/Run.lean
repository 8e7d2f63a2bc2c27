import Verif.Proof.Dominators

/-! # Computations that may raise or run on -/

namespace Verif

theorem run_bind_inv {α β : Type} {m : Run α} {f : α → Run β} {b : β} (h : (m >>= f) = pure b) :
    ∃ a, m = pure a ∧ f a = pure b := by
  match m, h with
  | some (.ok a), h => exact ⟨a, rfl, h⟩
  | some (.error e), h => cases h
  | none, h => cases h

theorem run_pure_inj {α : Type} {a b : α} (h : (pure a : Run α) = pure b) : a = b := by
  cases h
  rfl

theorem raiseRun_ne {α : Type} {e : Err} {a : α} : (raiseRun e : Run α) ≠ pure a := by
  intro h
  cases h

theorem running_ne {α : Type} {a : α} : (running : Run α) ≠ pure a := by
  intro h
  cases h

/-- An invariant of a loop. -/
theorem run_fold_inv {α σ : Type} {f : σ → α → Run σ} (I : σ → Prop) (l : List α) :
    ∀ (s s' : σ), (∀ a ∈ l, ∀ s s', I s → f s a = pure s' → I s') → l.foldlM f s = pure s' → I s → I s' := by
  induction l with
  | nil =>
    intro s s' _ h hs
    have := run_pure_inj h
    subst this
    exact hs
  | cons a l ih =>
    intro s s' hf h hs
    rw [List.foldlM_cons] at h
    obtain ⟨s1, h1, h2⟩ := run_bind_inv h
    exact ih s1 s' (fun b hb => hf b (List.mem_cons_of_mem _ hb)) h2 (hf a (by simp) s s1 hs h1)

/-- An invariant of a loop that depends on what has been done. -/
theorem run_fold_pre {α σ : Type} {f : σ → α → Run σ} (I : List α → σ → Prop) (l : List α) :
    ∀ (pre : List α) (s s' : σ),
      (∀ pre a post, ∀ s s', I pre s → f s a = pure s' → (∃ q, l = q ++ a :: post) → I (pre ++ [a]) s') →
      l.foldlM f s = pure s' → I pre s → I (pre ++ l) s' := by
  induction l with
  | nil =>
    intro pre s s' _ h hs
    have := run_pure_inj h
    subst this
    rw [List.append_nil]
    exact hs
  | cons a l ih =>
    intro pre s s' hf h hs
    rw [List.foldlM_cons] at h
    obtain ⟨s1, h1, h2⟩ := run_bind_inv h
    have := ih (pre ++ [a]) s1 s'
      (fun pre b post s s' hI hb ⟨q, hq⟩ => hf pre b post s s' hI hb ⟨a :: q, by rw [hq]; rfl⟩) h2
      (hf pre a l s s1 hs h1 ⟨[], rfl⟩)
    rw [List.append_assoc] at this
    exact this

theorem run_mapM_ok {α β : Type} {f : α → Run β} (l : List α) : ∀ (r : List β), l.mapM f = pure r →
    List.Forall₂ (fun a b => f a = pure b) l r := by
  induction l with
  | nil =>
    intro r h
    rw [List.mapM_nil] at h
    have := run_pure_inj h
    subst this
    exact .nil
  | cons a l ih =>
    intro r h
    rw [List.mapM_cons] at h
    obtain ⟨b, h1, h2⟩ := run_bind_inv h
    obtain ⟨bs, h3, h4⟩ := run_bind_inv h2
    have := run_pure_inj h4
    subst this
    exact .cons h1 (ih bs h3)

end Verif
