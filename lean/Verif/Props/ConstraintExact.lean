import Verif.Props.Constraint

/-! # C46: what a forward check does, exactly -/

namespace Verif
namespace Spec

variable {V I K : Type} [DecidableEq V] [DecidableEq I] [DecidableEq K]

/-- How many of its field values, each as often as it has it, a value would take over the
required count. -/
def tooOften (ignore : I → Bool) (field : I → List K) (exact : List (K × Int)) (vars : List V)
    (part : V → Option I) (x : I) : Nat :=
  if ignore x then 0
  else (field x).countP fun k => decide (required exact k < (occurrences ignore field vars part k : Int) + 1)

/-- No count is exceeded yet, and nothing is counted that the table does not have. -/
def WithinCounts (ignore : I → Bool) (field : I → List K) (exact : List (K × Int)) (vars : List V)
    (part : V → Option I) : Prop :=
  ∀ k, ((∀ p ∈ exact, p.1 ≠ k) → occurrences ignore field vars part k = 0) ∧
    ((∃ p ∈ exact, p.1 = k) → (occurrences ignore field vars part k : Int) ≤ required exact k)

end Spec
open Spec

variable {V I K : Type} [DecidableEq V] [DecidableEq I] [DecidableEq K]

theorem eq_filter_of_sublist {α : Type} (p : α → Bool) : ∀ (d d' : List α), d.Nodup → d'.Sublist d →
    (∀ x ∈ d, x ∈ d' ↔ p x = true) → d' = d.filter p := by
  intro d d' hn hs hm
  apply List.Sublist.eq_of_length_le
  · have h1 : d'.filter p = d' := by
      rw [List.filter_eq_self]
      exact fun x hx => (hm x (hs.subset hx)).1 hx
    rw [← h1]
    exact hs.filter p
  · have : d.filter p ⊆ d' := by
      intro x hx
      rw [List.mem_filter] at hx
      exact (hm x hx.1).2 hx.2
    exact (List.subperm_of_subset (hn.filter p) this).length_le

theorem exceeds_eq (f : CountField I K) (ex : List (K × Int)) (vs : List V) (part : V → Option I) :
    exceeds f ex vs part = fun k =>
      decide (required ex k < (occurrences f.ignore f.field vs part k : Int) + 1) := by
  funext k
  rw [required_eq]
  unfold exceeds
  rcases he : dictGet ex k with _ | e
  · simp
  · simp

theorem tooOften_eq (f : CountField I K) (ex : List (K × Int)) (vs : List V) (part : V → Option I) (x : I) :
    tooOften f.ignore f.field ex vs part x = if f.ignore x then 0 else (f.field x).countP (exceeds f ex vs part) := by
  rw [exceeds_eq]; rfl

theorem violates_iff (f : CountField I K) (ex : List (K × Int)) (vs : List V) (part : V → Option I) (x : I) :
    violates f ex vs part x = true ↔ tooOften f.ignore f.field ex vs part x ≠ 0 := by
  rw [tooOften_eq]
  unfold violates
  by_cases hi : f.ignore x = true
  · simp [hi]
  · simp only [hi, Bool.not_false, Bool.true_and, Bool.false_eq_true, if_false]
    rw [List.any_eq_true, ← Nat.pos_iff_ne_zero, List.countP_pos_iff]

/-- The values of a domain, hidden one by one. -/
theorem hideValues_exact (f : CountField I K) (ex : List (K × Int)) (vs : List V) (part : V → Option I) (d : List I)
    (hn : d.Nodup) :
    ((∃ x ∈ d, 2 ≤ tooOften f.ignore f.field ex vs part x) →
      hideValues f (sumFields f ex vs part).1 ex d d = .error .value) ∧
    ((∀ x ∈ d, tooOften f.ignore f.field ex vs part x ≤ 1) →
      hideValues f (sumFields f ex vs part).1 ex d d =
        .ok (d.filter fun x => decide (tooOften f.ignore f.field ex vs part x = 0))) := by
  obtain ⟨h1, h2, h3⟩ := hideValues_eq f ex vs part d d
  constructor
  · rintro ⟨x, hx, h⟩
    rw [tooOften_eq] at h
    split at h
    · omega
    · rename_i hi
      exact h3 x hx (by simpa using hi) h hn
  · intro h
    rcases h1 with h1 | ⟨d', h1, h4, h5, h6, h7⟩
    · refine absurd h1 (h2 ?_ hn fun x hx => hx)
      intro x hx hi
      have := h x hx
      rw [tooOften_eq, hi] at this
      simpa using this
    · rw [h1]
      congr 1
      apply eq_filter_of_sublist _ _ _ hn h7
      intro x hx
      rw [decide_eq_true_eq]
      constructor
      · intro hx'
        by_contra hc
        exact h5 hn x hx ((violates_iff f ex vs part x).2 hc) hx'
      · intro hz
        by_contra hc
        exact (violates_iff f ex vs part x).1 (h4 x hx hc) hz

/-- The three ends of the loop of a forward check over different variables. -/
theorem forwardCheck_three (f : CountField I K) (ex : List (K × Int)) (vs : List V) (part : V → Option I)
    (doms : V → List I) (hn : ∀ v, (doms v).Nodup) : ∀ (ws : List V) (cur : V → List I), ws.Nodup → (∀ w ∈ ws, cur w = doms w) →
    let over := tooOften f.ignore f.field ex vs part
    let kept := fun v => (doms v).filter fun x => decide (over x = 0)
    (∃ pre v post, ws = pre ++ v :: post ∧ part v = none ∧ (∃ x ∈ doms v, 2 ≤ over x) ∧
      (∀ u ∈ pre, part u = none → (∀ x ∈ doms u, over x ≤ 1) ∧ kept u ≠ []) ∧
      forwardCheck f (sumFields f ex vs part).1 ex part ws cur = .error .value) ∨
    (∃ pre v post, ws = pre ++ v :: post ∧ part v = none ∧ (∀ x ∈ doms v, over x = 1) ∧
      (∀ u ∈ pre, part u = none → (∀ x ∈ doms u, over x ≤ 1) ∧ kept u ≠ []) ∧
      forwardCheck f (sumFields f ex vs part).1 ex part ws cur =
        .ok (false, fun u => if (u ∈ pre ∨ u = v) ∧ part u = none then kept u else cur u)) ∨
    ((∀ v ∈ ws, part v = none → (∀ x ∈ doms v, over x ≤ 1) ∧ kept v ≠ []) ∧
      forwardCheck f (sumFields f ex vs part).1 ex part ws cur =
        .ok (true, fun u => if u ∈ ws ∧ part u = none then kept u else cur u)) := by
  intro ws
  induction ws with
  | nil => intro cur _ _; exact .inr (.inr ⟨by simp, by simp [forwardCheck]⟩)
  | cons w t ih =>
    intro cur hw hc over kept
    rw [List.nodup_cons] at hw
    simp only [forwardCheck]
    rcases hp : part w with _ | j
    · simp only [hc w (by simp)]
      by_cases hlost : ∃ x ∈ doms w, 2 ≤ over x
      · left
        refine ⟨[], w, t, rfl, hp, hlost, by simp, ?_⟩
        simp only [(hideValues_exact f ex vs part (doms w) (hn w)).1 hlost, bind, Except.bind]
      · have hle : ∀ x ∈ doms w, over x ≤ 1 := by
          intro x hx
          by_contra hcc
          exact hlost ⟨x, hx, by omega⟩
        simp only [(hideValues_exact f ex vs part (doms w) (hn w)).2 hle, bind, Except.bind]
        by_cases hk : kept w = []
        · right; left
          refine ⟨[], w, t, rfl, hp, ?_, by simp, ?_⟩
          · intro x hx
            have h1 := hle x hx
            have h2 : over x ≠ 0 := by
              intro h0
              have : x ∈ kept w := List.mem_filter.2 ⟨hx, by simp [h0]⟩
              rw [hk] at this
              simp at this
            omega
          · have hk' : (doms w).filter (fun x => decide (over x = 0)) = [] := hk
            rw [hk']
            simp only [List.isEmpty_nil, if_true]
            congr 2
            funext u
            by_cases hu : u = w
            · subst hu; simp [hp, hk]
            · simp [hu]
        · have he : ((doms w).filter fun x => decide (over x = 0)).isEmpty = false := by
            rw [List.isEmpty_eq_false_iff]; exact hk
          rw [if_neg (by rw [he]; simp)]
          have hc' : ∀ u ∈ t, (fun u => if u = w then kept w else cur u) u = doms u := by
            intro u hu
            have : u ≠ w := by rintro rfl; exact hw.1 hu
            simp [this, hc u (by simp [hu])]
          rcases ih (fun u => if u = w then kept w else cur u) hw.2 hc' with
            ⟨pre, v, post, h1, h2, h3, h4, h5⟩ | ⟨pre, v, post, h1, h2, h3, h4, h5⟩ | ⟨h4, h5⟩
          · left
            refine ⟨w :: pre, v, post, by rw [h1]; rfl, h2, h3, ?_, h5⟩
            intro u hu hpu
            rcases List.mem_cons.1 hu with rfl | hu
            · exact ⟨hle, hk⟩
            · exact h4 u hu hpu
          · right; left
            refine ⟨w :: pre, v, post, by rw [h1]; rfl, h2, h3, ?_, ?_⟩
            · intro u hu hpu
              rcases List.mem_cons.1 hu with rfl | hu
              · exact ⟨hle, hk⟩
              · exact h4 u hu hpu
            · refine h5.trans ?_
              congr 2
              funext u
              by_cases hu : u = w
              · subst hu
                have h6 : u ∉ pre ∧ u ≠ v := by
                  constructor
                  · intro h; exact hw.1 (by rw [h1]; simp [h])
                  · rintro rfl; exact hw.1 (by rw [h1]; simp)
                simp [hp, h6.1, h6.2]
              · simp [hu, kept, over]
          · right; right
            refine ⟨?_, ?_⟩
            · intro u hu hpu
              rcases List.mem_cons.1 hu with rfl | hu
              · exact ⟨hle, hk⟩
              · exact h4 u hu hpu
            · refine h5.trans ?_
              congr 2
              funext u
              by_cases hu : u = w
              · subst hu
                simp [hp, hw.1]
              · simp [hu, kept, over]
    · simp only
      rcases ih cur hw.2 (fun u hu => hc u (by simp [hu])) with
        ⟨pre, v, post, h1, h2, h3, h4, h5⟩ | ⟨pre, v, post, h1, h2, h3, h4, h5⟩ | ⟨h4, h5⟩
      · left
        refine ⟨w :: pre, v, post, by rw [h1]; rfl, h2, h3, ?_, h5⟩
        intro u hu hpu
        rcases List.mem_cons.1 hu with rfl | hu
        · rw [hp] at hpu; simp at hpu
        · exact h4 u hu hpu
      · right; left
        refine ⟨w :: pre, v, post, by rw [h1]; rfl, h2, h3, ?_, ?_⟩
        · intro u hu hpu
          rcases List.mem_cons.1 hu with rfl | hu
          · rw [hp] at hpu; simp at hpu
          · exact h4 u hu hpu
        · refine h5.trans ?_
          congr 2
          funext u
          by_cases hu : u = w
          · subst hu; simp [hp]
          · simp [hu, kept, over]
      · right; right
        refine ⟨?_, ?_⟩
        · intro u hu hpu
          rcases List.mem_cons.1 hu with rfl | hu
          · rw [hp] at hpu; simp at hpu
          · exact h4 u hu hpu
        · refine h5.trans ?_
          congr 2
          funext u
          by_cases hu : u = w
          · subst hu; simp [hp]
          · simp [hu, kept, over]

theorem within_overflows (f : CountField I K) (ex : List (K × Int)) (vs : List V) (part : V → Option I) :
    overflows ex (sumFields f ex vs part).1 = false ↔ WithinCounts f.ignore f.field ex vs part := by
  rw [overflows_false]
  apply forall_congr'
  intro k
  have hk : (∀ p ∈ ex, p.1 ≠ k) ↔ dictGet ex k = none := by
    rw [dictGet_eq_none, List.mem_map]
    push Not
    rfl
  have hk' : (∃ p ∈ ex, p.1 = k) ↔ dictGet ex k ≠ none := by
    rw [ne_eq, ← hk]; push Not; rfl
  rw [hk, hk', required_eq]
  rcases dictGet ex k with _ | e <;> simp

/-- **C46, exactly.**  A forward check on different variables whose domains have no repeated
values either is answered `False` at once because a count is exceeded; or nothing is
unassigned or no forward check is asked for, and no domain changes; or the unassigned
variables are taken in order, those that lie before the one that decides lose exactly the
values that exceed a count, and that one either has a value that exceeds two counts, which
raises `ValueError`, or keeps no value, which answers `False`; and if there is none that
decides, the answer is `True`. -/
theorem C46_exact (f : CountField I K) (ex : List (K × Int)) (vs : List V) (doms : V → List I)
    (part : V → Option I) (forward : Bool) (hn : ∀ v, (doms v).Nodup) (hv : vs.Nodup) :
    let over := tooOften f.ignore f.field ex vs part
    let kept := fun v => (doms v).filter fun x => decide (over x = 0)
    let call := constraintCall f ex vs doms part forward
    (¬ WithinCounts f.ignore f.field ex vs part → call = .ok (false, doms)) ∧
    (WithinCounts f.ignore f.field ex vs part → (∀ v ∈ vs, part v ≠ none) →
      ∃ b, call = .ok (b, doms) ∧ (b = true ↔ Satisfies f.ignore f.field ex vs part)) ∧
    (WithinCounts f.ignore f.field ex vs part → (∃ v ∈ vs, part v = none) → forward = false →
      call = .ok (true, doms)) ∧
    (WithinCounts f.ignore f.field ex vs part → (∃ v ∈ vs, part v = none) → forward = true →
      (∃ pre v post, vs = pre ++ v :: post ∧ part v = none ∧ (∃ x ∈ doms v, 2 ≤ over x) ∧
        (∀ u ∈ pre, part u = none → (∀ x ∈ doms u, over x ≤ 1) ∧ kept u ≠ []) ∧ call = .error .value) ∨
      (∃ pre v post, vs = pre ++ v :: post ∧ part v = none ∧ (∀ x ∈ doms v, over x = 1) ∧
        (∀ u ∈ pre, part u = none → (∀ x ∈ doms u, over x ≤ 1) ∧ kept u ≠ []) ∧
        call = .ok (false, fun u => if (u ∈ pre ∨ u = v) ∧ part u = none then kept u else doms u)) ∨
      ((∀ v ∈ vs, part v = none → (∀ x ∈ doms v, over x ≤ 1) ∧ kept v ≠ []) ∧
        call = .ok (true, fun u => if u ∈ vs ∧ part u = none then kept u else doms u))) := by
  intro over kept call
  refine ⟨?_, ?_, ?_, ?_⟩
  · intro hw
    rw [← within_overflows, Bool.not_eq_false] at hw
    simp only [call, constraintCall, hw, if_true]
  · intro hw hm
    rw [← within_overflows] at hw
    have hmm : (sumFields f ex vs part).2 = false := by
      rw [Bool.eq_false_iff]
      intro h
      obtain ⟨v, h1, h2⟩ := (sumFields_missing f ex vs part).1 h
      exact hm v h1 h2
    obtain ⟨b, h1, h2⟩ := finalCheck_complete f ex vs part hw
    refine ⟨b, ?_, h2⟩
    simp only [call, constraintCall, hw, hmm, Bool.and_false, Bool.false_eq_true, if_false, if_true, bind, Except.bind, h1]
  · intro hw hm hf
    rw [← within_overflows] at hw
    have hmm := (sumFields_missing f ex vs part).2 hm
    simp only [call, constraintCall, hw, hmm, hf, Bool.false_and, Bool.false_eq_true, if_false, if_true, bind, Except.bind,
      finalCheck_missing f ex vs part hw]
  · intro hw hm hf
    rw [← within_overflows] at hw
    have hmm := (sumFields_missing f ex vs part).2 hm
    have hcall : call = (do
        let r ← forwardCheck f (sumFields f ex vs part).1 ex part vs doms
        if r.1 then .ok (true, r.2) else .ok r) := by
      simp only [call, constraintCall, hw, hmm, hf, Bool.and_self, Bool.false_eq_true, if_false, if_true,
        finalCheck_missing f ex vs part hw]
      rfl
    rcases forwardCheck_three f ex vs part doms hn vs doms hv (fun _ _ => rfl) with
        ⟨pre, v, post, h1, h2, h3, h4, h5⟩ | ⟨pre, v, post, h1, h2, h3, h4, h5⟩ | ⟨h4, h5⟩
    · exact .inl ⟨pre, v, post, h1, h2, h3, h4, by rw [hcall, h5]; rfl⟩
    · exact .inr (.inl ⟨pre, v, post, h1, h2, h3, h4, by rw [hcall, h5]; rfl⟩)
    · exact .inr (.inr ⟨h4, by rw [hcall, h5]; rfl⟩)

theorem split_lt {α : Type} : ∀ {l pre pre' post post' : List α} {v v' : α}, l = pre ++ v :: post → l = pre' ++ v' :: post' →
    v ∈ pre' ∨ v' ∈ pre ∨ (pre = pre' ∧ v = v') := by
  intro l pre pre' post post' v v' h h'
  rw [h] at h'
  rcases List.append_eq_append_iff.1 h' with ⟨a, h1, h2⟩ | ⟨a, h1, h2⟩
  · cases a with
    | nil => simp at h1 h2; exact .inr (.inr ⟨h1.symm, h2.1⟩)
    | cons x a => left; simp at h2; rw [h1, h2.1]; simp
  · cases a with
    | nil => simp at h1 h2; exact .inr (.inr ⟨h1, h2.1.symm⟩)
    | cons x a => right; left; simp at h2; rw [h1, h2.1]; simp

/-- **C46, exactly when a forward check fails.**  It raises, and then `ValueError`, exactly
when no count is exceeded, a forward check is asked for, and some unassigned variable has a
value that exceeds two counts while every unassigned one before it has a value that
exceeds none. -/
theorem C46_raises_iff (f : CountField I K) (ex : List (K × Int)) (vs : List V) (doms : V → List I)
    (part : V → Option I) (forward : Bool) (hn : ∀ v, (doms v).Nodup) (hv : vs.Nodup) (e : Err) :
    constraintCall f ex vs doms part forward = .error e ↔
      e = .value ∧ forward = true ∧ WithinCounts f.ignore f.field ex vs part ∧
      ∃ pre v post, vs = pre ++ v :: post ∧ part v = none ∧
        (∃ x ∈ doms v, 2 ≤ tooOften f.ignore f.field ex vs part x) ∧
        ∀ u ∈ pre, part u = none → ∃ x ∈ doms u, tooOften f.ignore f.field ex vs part x = 0 := by
  obtain ⟨h1, h2, h3, h4⟩ := C46_exact f ex vs doms part forward hn hv
  have hkept : ∀ u, (doms u).filter (fun x => decide (tooOften f.ignore f.field ex vs part x = 0)) ≠ [] ↔
      ∃ x ∈ doms u, tooOften f.ignore f.field ex vs part x = 0 := by
    intro u
    rw [ne_eq, List.filter_eq_nil_iff]
    push Not
    simp
  simp only [hkept] at h4
  by_cases hw : WithinCounts f.ignore f.field ex vs part
  swap
  · rw [h1 hw]; simp [hw]
  by_cases hm : ∃ v ∈ vs, part v = none
  swap
  · push Not at hm
    obtain ⟨b, hb, _⟩ := h2 hw hm
    rw [hb]
    constructor
    · intro h; simp at h
    · rintro ⟨_, _, _, pre, v, post, h5, h6, _⟩
      exact absurd h6 (hm v (by rw [h5]; simp))
  cases forward with
  | false => rw [h3 hw hm rfl]; simp
  | true =>
    rcases h4 hw hm rfl with ⟨pre, v, post, g1, g2, g3, g4, g5⟩ | ⟨pre, v, post, g1, g2, g3, g4, g5⟩ | ⟨g4, g5⟩
    · rw [g5]
      constructor
      · intro h
        simp only [Except.error.injEq] at h
        exact ⟨h.symm, rfl, hw, pre, v, post, g1, g2, g3, fun u hu hpu => (g4 u hu hpu).2⟩
      · rintro ⟨rfl, _⟩; rfl
    · rw [g5]
      constructor
      · intro h; simp at h
      · rintro ⟨_, _, _, pre', v', post', k1, k2, ⟨x, k3, k4⟩, k5⟩
        exfalso
        rcases split_lt g1 k1 with h | h | ⟨_, h⟩
        · obtain ⟨y, hy, hy0⟩ := k5 v h g2
          have := g3 y hy
          omega
        · have := (g4 v' h k2).1 x k3
          omega
        · subst h
          have := g3 x k3
          omega
    · rw [g5]
      constructor
      · intro h; simp at h
      · rintro ⟨_, _, _, pre', v', post', k1, k2, ⟨x, k3, k4⟩, k5⟩
        exfalso
        have := (g4 v' (by rw [k1]; simp) k2).1 x k3
        omega

/-- The problem of `C46_refuted` meets the condition. -/
theorem C46_raises_case : constraintCall storageField [(1, 1), (2, 1)] [0, 4] exDomains
      (fun v => if v = 4 then some (usesInst 5 [1, 2]) else none) true = .error .value ∧
    ∃ x ∈ exDomains 0, tooOften storageField.ignore storageField.field [(1, 1), (2, 1)] [0, 4]
      (fun v => if v = 4 then some (usesInst 5 [1, 2]) else none) x = 2 := by
  refine ⟨?_, usesInst 2 [1, 2], by decide, by decide +kernel⟩
  rw [C46_raises_iff _ _ _ _ _ _ (by
    intro v
    unfold exDomains
    split
    · decide
    · split <;> decide) (by decide)]
  refine ⟨rfl, rfl, ?_, [], 0, [4], rfl, by decide, ⟨usesInst 2 [1, 2], by decide, by decide +kernel⟩, by simp⟩
  rw [← within_overflows]
  decide +kernel

end Verif
