import Verif.Props.SolutionIO

/-! # C125: writing a solution that was read -/

namespace Verif
open Spec

theorem upTo_idem (e : Nat) (l : List Nat) : upTo e (upTo e l) = upTo e l := by
  induction l with
  | nil => rfl
  | cons x xs ih =>
    by_cases h : x = e
    · simp [upTo, h]
    · simp [upTo, h, ih]

theorem mem_upTo {e : Nat} {l : List Nat} (h : e ∈ l) : e ∈ upTo e l := by
  induction l with
  | nil => simp at h
  | cons x xs ih =>
    by_cases hx : x = e
    · simp [upTo, hx]
    · rw [upTo, if_neg hx]
      exact List.mem_cons_of_mem _ (ih ((List.mem_cons.1 h).resolve_left fun he => hx he.symm))

/-- Dictionaries with the same keys in the same order and the same answers are the same. -/
theorem dict_same {β γ : Type} {f : β → γ} : ∀ {d d' : List (Nat × β)}, d.map (·.1) = d'.map (·.1) → (d.map (·.1)).Nodup →
    (∀ k v v', dictGet d k = some v → dictGet d' k = some v' → f v = f v') →
    (d.map fun q => (q.1, f q.2)) = d'.map fun q => (q.1, f q.2)
  | [], d', h, _, _ => by
      have : d' = [] := by simpa using h.symm
      simp [this]
  | q :: d, [], h, _, _ => by simp at h
  | q :: d, q' :: d', h, hn, hv => by
      simp only [List.map_cons, List.cons.injEq, List.nodup_cons] at h hn ⊢
      have hn' : q'.1 ∉ d'.map (·.1) := by rw [← h.2, ← h.1]; exact hn.1
      refine ⟨?_, dict_same h.2 hn.2 fun k v v' h1 h2 => ?_⟩
      · have := hv q.1 q.2 q'.2 (by simp [dictGet]) (by simp [dictGet, h.1])
        rw [h.1, this]
      · have hk : k ∈ d.map (·.1) := by rw [← dictGet_isSome, h1]; rfl
        have hk' : k ∈ d'.map (·.1) := h.2 ▸ hk
        have e1 : q.1 ≠ k := fun e => hn.1 (e ▸ hk)
        have e2 : q'.1 ≠ k := fun e => hn' (e ▸ hk')
        refine hv k v v' ?_ ?_
        · rw [← h1]; simp [dictGet, e1]
        · rw [← h2]; simp [dictGet, e2]

/-- **C125.**  A solution that was written can be read, and writing what was read, with the originals
that were read, gives the same file again, byte for byte. -/
theorem C125_rewrite (orig prog : Program) (hk : (prog.map (·.1)).Nodup)
    (h : (writeBinary orig prog).2 = .ok ()) (rest : Bytes) :
    ∃ o p, readSolution ((writeBinary orig prog).1 ++ rest) = .ok (o, p) ∧
      writeBinary o p = ((writeBinary orig prog).1, .ok ()) := by
  obtain ⟨o, p, h1, h2, h3, h4, h5⟩ := C26_read_written orig prog hk h rest
  refine ⟨o, p, h1, ?_⟩
  have hk' : (p.map (·.1)).Nodup := h3 ▸ hk
  obtain ⟨hl, hall⟩ := (C28_write_iff orig prog).1 h
  have hlen : p.length = prog.length := by simpa using congrArg List.length h3
  -- what was read at an address
  have at_addr : ∀ k cs', dictGet p k = some cs' → ∃ c, dictGet o k = some [⟨c, k⟩] ∧ c ∈ cs'.map (·.encoding) ∧
      upTo c (cs'.map (·.encoding)) = cs'.map (·.encoding) ∧ entryFits (k, cs'.map (·.encoding)) := by
    intro k cs' hcs'
    have hm : k ∈ prog.map (·.1) := by rw [← h3, ← dictGet_isSome, hcs']; rfl
    obtain ⟨cs, hcs⟩ := Option.isSome_iff_exists.1 ((dictGet_isSome prog k).2 hm)
    obtain ⟨c, l, e1, e2, e3⟩ := hall (k, cs) (dictGet_mem hcs)
    obtain ⟨⟨cs'', f1, f2, _⟩, f4⟩ := h5 k cs c l hcs e1
    rw [hcs', Option.some.injEq] at f1
    subst f1
    refine ⟨c.encoding, f4, ?_, ?_, ?_⟩
    · rw [f2]; exact mem_upTo e2
    · rw [f2, upTo_idem]
    · rw [f2]; exact e3
  have hok : (writeBinary o p).2 = .ok () := by
    refine (C28_write_iff o p).2 ⟨hlen ▸ hl, fun q hq => ?_⟩
    obtain ⟨c, e1, e2, e3, e4⟩ := at_addr q.1 q.2 (dictGet_of_mem hk' hq)
    exact ⟨_, _, e1, e2, by rw [e3]; exact e4⟩
  obtain ⟨o₂, p₂, _, g2, g3, _, g5⟩ := C26_read_written o p hk' hok []
  have : (p₂.map fun q => (q.1, q.2.map (·.encoding))) = p.map fun q => (q.1, q.2.map (·.encoding)) := by
    refine dict_same (f := fun l : List CInst => l.map (·.encoding)) g3 (g3 ▸ hk') fun k v v' hv hv' => ?_
    obtain ⟨c, e1, _, e3, _⟩ := at_addr k v' hv'
    obtain ⟨⟨w, f1, f2, _⟩, _⟩ := g5 k v' _ _ hv' e1
    rw [hv, Option.some.injEq] at f1
    subst f1
    dsimp only at f2 ⊢
    rw [f2, e3]
  exact Prod.ext (g2.trans ((congrArg solutionFile this).trans h2.symm)) hok

/-- Two addresses with three and two candidates; the original of the first is the second candidate. -/
theorem C125_case :
    let w := writeBinary [(4, [⟨7, 4⟩]), (8, [⟨1, 8⟩])] [(8, [⟨1, 8⟩, ⟨2, 8⟩]), (4, [⟨6, 4⟩, ⟨7, 4⟩, ⟨9, 4⟩])]
    w.2 = .ok () ∧ readSolution w.1 = .ok ([(8, [⟨1, 8⟩]), (4, [⟨7, 4⟩])], [(8, [⟨1, 8⟩]), (4, [⟨6, 4⟩, ⟨7, 4⟩])]) ∧
    writeBinary [(8, [⟨1, 8⟩]), (4, [⟨7, 4⟩])] [(8, [⟨1, 8⟩]), (4, [⟨6, 4⟩, ⟨7, 4⟩])] = w := by
  decide +kernel

end Verif
