import Verif.Model.Probability
import Verif.Proof.Basic
import Verif.Proof.Corruption
import Mathlib.Tactic.Ring
import Mathlib.Tactic.Linarith
import Mathlib.Algebra.BigOperators.Group.List.Basic

/-! # Properties C29, C30: combining independent events -/

namespace Verif

/-- The product of the negated probabilities on the stack. -/
def signed (ps : List Rat) (s : List Nat) : Rat := (s.map fun j => -(ps[j]?.getD 0)).prod

/-- The product of the complements from index `i` on. -/
def complements (ps : List Rat) (i : Nat) : Rat := ((ps.drop i).map fun p => 1 - p).prod

theorem stackProduct_ok (ps : List Rat) : ∀ (s : List Nat) (p : Rat), (∀ j ∈ s, j < ps.length) →
    stackProduct ps s p = .ok (p * (s.map fun j => ps[j]?.getD 0).prod) := by
  intro s
  induction s with
  | nil => intro p _; simp [stackProduct]
  | cons j s ih =>
    intro p h
    have hj := h j (by simp)
    simp only [stackProduct, pyGet_nat _ _ hj, bind, Except.bind]
    rw [ih _ fun x hx => h x (by simp [hx])]
    simp [List.getElem?_eq_getElem hj, mul_assoc]

theorem signed_eq (ps : List Rat) (s : List Nat) :
    signed ps s = if s.length % 2 = 1 then -(s.map fun j => ps[j]?.getD 0).prod
      else (s.map fun j => ps[j]?.getD 0).prod := by
  induction s with
  | nil => simp [signed]
  | cons j s ih =>
    unfold signed at *
    rw [List.map_cons, List.prod_cons, ih, List.map_cons, List.prod_cons, List.length_cons]
    by_cases h : s.length % 2 = 1
    · rw [if_pos h, if_neg (by omega)]; ring
    · rw [if_neg h, if_pos (by omega)]; ring

theorem signed_concat (ps : List Rat) (s : List Nat) (i : Nat) (h : i < ps.length) :
    signed ps (s ++ [i]) = -(signed ps s * ps[i]) := by
  simp [signed, List.getElem?_eq_getElem h]

theorem complements_step (ps : List Rat) (i : Nat) (h : i < ps.length) :
    complements ps i = (1 - ps[i]) * complements ps (i + 1) := by
  unfold complements
  rw [List.drop_eq_getElem_cons h, List.map_cons, List.prod_cons]

theorem complements_end (ps : List Rat) (i : Nat) (h : ps.length ≤ i) : complements ps i = 1 := by
  unfold complements
  rw [List.drop_eq_nil_of_le h]
  simp

/-- The stack after leaving a level. -/
def bump : List Nat → List Nat
  | [] => []
  | [a] => [a + 1]
  | a :: b :: s => a :: bump (b :: s)

theorem bump_concat (s : List Nat) (i : Nat) : bump (s ++ [i]) = s ++ [i + 1] := by
  induction s with
  | nil => rfl
  | cons a s ih =>
    cases s with
    | nil => rfl
    | cons b s =>
      have : bump (a :: (b :: s) ++ [i]) = a :: bump ((b :: s) ++ [i]) := rfl
      rw [this, ih]; rfl

theorem pyGet_concat (s : List Nat) (i : Nat) :
    pyGet (s ++ [i]) (((s ++ [i]).length : Int) - 1) = .ok i := by
  have : (((s ++ [i]).length : Int) - 1) = ((s.length : Nat) : Int) := by simp
  rw [this, pyGet_nat _ _ (by simp)]
  simp

/-- One turn on a stack `s ++ [i]`. -/
theorem unionTurn_spec (ps : List Rat) (r : Rat) (s : List Nat) (i : Nat)
    (hs : ∀ j ∈ s, j < ps.length) (hi : i < ps.length) :
    unionTurn ps ⟨r, s ++ [i]⟩ = .ok ⟨r + signed ps s * ps[i],
      if i + 1 < ps.length then s ++ [i] ++ [i + 1] else bump s⟩ := by
  have hall : ∀ j ∈ s ++ [i], j < ps.length := by
    intro j hj
    rcases List.mem_append.1 hj with hj | hj
    · exact hs j hj
    · rw [List.mem_singleton] at hj; omega
  have hres : (if (s ++ [i]).length % 2 = 1
        then r + 1 * ((s ++ [i]).map fun j => ps[j]?.getD 0).prod
        else r - 1 * ((s ++ [i]).map fun j => ps[j]?.getD 0).prod) = r + signed ps s * ps[i] := by
    have h1 := signed_concat ps s i hi
    rw [signed_eq] at h1
    split
    · rename_i h; rw [if_pos h] at h1; linarith
    · rename_i h; rw [if_neg h] at h1; linarith
  unfold unionTurn
  simp only [stackProduct_ok ps _ _ hall, bind, Except.bind, pyGet_concat, hres]
  split
  · rfl
  · rw [List.dropLast_concat]
    split
    · rename_i hne
      obtain ⟨t, a, rfl⟩ : ∃ t a, s = t ++ [a] := by
        rcases List.eq_nil_or_concat s with h | ⟨t, a, h⟩
        · exact absurd h hne
        · exact ⟨t, a, by rw [h]; simp⟩
      rw [pyGet_concat]
      have hk : (((t ++ [a]).length : Int) - 1) = ((t.length : Nat) : Int) := by simp
      simp only [hk]
      rw [pySet_nat _ _ _ (by simp), bump_concat]
      simp [pure, Except.pure]
    · rename_i hne
      have : s = [] := by simpa using hne
      subst this
      rfl

/-- The whole excursion below a stack. -/
theorem union_run (ps : List Rat) : ∀ (d i : Nat) (r : Rat) (s : List Nat), i + d + 1 = ps.length →
    (∀ j ∈ s, j < ps.length) → ∀ fuel,
    whileLoop (fun s => decide (s.e ≠ [])) (unionTurn ps) (fuel + (2 ^ (d + 1) - 1)) ⟨r, s ++ [i]⟩ =
    whileLoop (fun s => decide (s.e ≠ [])) (unionTurn ps) fuel
      ⟨r + signed ps s * (1 - complements ps i), bump s⟩ := by
  intro d
  induction d with
  | zero =>
    intro i r s hd hs fuel
    have hi : i < ps.length := by omega
    rw [show fuel + (2 ^ (0 + 1) - 1) = fuel + 1 from rfl, whileLoop]
    rw [if_pos (by simp), unionTurn_spec ps r s i hs hi, if_neg (by omega)]
    rw [complements_step ps i hi, complements_end ps (i + 1) (by omega)]
    dsimp only
    congr 2
    ring
  | succ d ih =>
    intro i r s hd hs fuel
    have hi : i < ps.length := by omega
    have hpow : fuel + (2 ^ (d + 1 + 1) - 1) =
        (fuel + (2 ^ (d + 1) - 1)) + (2 ^ (d + 1) - 1) + 1 := by
      have := Nat.two_pow_pos (d + 1)
      rw [Nat.pow_succ 2 (d + 1)]; omega
    rw [hpow, whileLoop]
    rw [if_pos (by simp), unionTurn_spec ps r s i hs hi, if_pos (by omega)]
    dsimp only
    rw [ih (i + 1) _ (s ++ [i]) (by omega) (by
      intro j hj
      rcases List.mem_append.1 hj with hj | hj
      · exact hs j hj
      · rw [List.mem_singleton] at hj; omega)]
    rw [bump_concat, ih (i + 1) _ s (by omega) hs]
    rw [signed_concat ps s i hi, complements_step ps i hi]
    congr 2
    ring

/-- **C29.**  The union of independent events is one minus the product of the
complements, for arbitrary numbers; the loop ends after `2 ^ n` tests; an empty
list is rejected. -/
theorem C29_union (ps : List Rat) :
    (ps ≠ [] → ∀ fuel, 2 ^ ps.length ≤ fuel →
      indepEventsUnion fuel ps = some (.ok (1 - (ps.map fun p => 1 - p).prod))) ∧
    (ps = [] → ∀ fuel, indepEventsUnion fuel ps = some (.error .runtime)) := by
  constructor
  · intro h fuel hf
    have hl : 0 < ps.length := List.length_pos_iff.2 h
    unfold indepEventsUnion
    rw [if_neg (by omega)]
    have hp := Nat.two_pow_pos ps.length
    have := union_run ps (ps.length - 1) 0 0 [] (by omega) (by simp) (fuel - (2 ^ ps.length - 1))
    rw [show ps.length - 1 + 1 = ps.length by omega,
      show fuel - (2 ^ ps.length - 1) + (2 ^ ps.length - 1) = fuel by omega, List.nil_append] at this
    rw [this]
    obtain ⟨f, hf'⟩ : ∃ f, fuel - (2 ^ ps.length - 1) = f + 1 :=
      ⟨fuel - (2 ^ ps.length - 1) - 1, by omega⟩
    rw [hf', whileLoop, if_neg (by simp [bump])]
    simp [signed, complements, Except.map]
  · rintro rfl fuel
    rfl

example : indepEventsUnion 8 [1 / 2, 1 / 3, 1 / 4] = some (.ok (3 / 4)) := by decide +kernel

theorem intersection_prod (ps : List Rat) : indepIntersection ps = ps.prod := by
  unfold indepIntersection
  have : ∀ a : Rat, ps.foldl (fun p r => p * r) a = a * ps.prod := by
    induction ps with
    | nil => intro a; simp
    | cons p ps ih => intro a; rw [List.foldl_cons, ih, List.prod_cons, mul_assoc]
  rw [this, one_mul]

theorem prod_unit (ps : List Rat) (h : ∀ p ∈ ps, 0 ≤ p ∧ p ≤ 1) :
    0 ≤ ps.prod ∧ ps.prod ≤ 1 ∧ ∀ p ∈ ps, ps.prod ≤ p := by
  induction ps with
  | nil => simp
  | cons p ps ih =>
    obtain ⟨h1, h2, h3⟩ := ih fun x hx => h x (by simp [hx])
    obtain ⟨h4, h5⟩ := h p (by simp)
    rw [List.prod_cons]
    refine ⟨mul_nonneg h4 h1, ?_, ?_⟩
    · calc p * ps.prod ≤ 1 * 1 := mul_le_mul h5 h2 h1 (by decide)
        _ = 1 := by ring
    · intro x hx
      rcases List.mem_cons.1 hx with rfl | hx
      · calc x * ps.prod ≤ x * 1 := mul_le_mul_of_nonneg_left h2 h4
          _ = x := by ring
      · calc p * ps.prod ≤ 1 * ps.prod := mul_le_mul_of_nonneg_right h5 h1
          _ = ps.prod := by ring
          _ ≤ x := h3 x hx

/-- **C30.**  For events with probability between 0 and 1: union and
intersection lie between 0 and 1, do not depend on the order, the union is at
least every event and the intersection at most every event. -/
theorem C30_probabilities (ps : List Rat) (hne : ps ≠ []) (h : ∀ p ∈ ps, 0 ≤ p ∧ p ≤ 1)
    (fuel : Nat) (hf : 2 ^ ps.length ≤ fuel) :
    ∃ u, indepEventsUnion fuel ps = some (.ok u) ∧
      (0 ≤ u ∧ u ≤ 1 ∧ ∀ p ∈ ps, p ≤ u) ∧
      (0 ≤ indepIntersection ps ∧ indepIntersection ps ≤ 1 ∧ ∀ p ∈ ps, indepIntersection ps ≤ p) ∧
      ∀ qs : List Rat, qs.Perm ps →
        indepEventsUnion fuel qs = some (.ok u) ∧ indepIntersection qs = indepIntersection ps := by
  obtain ⟨c1, c2, c3⟩ := prod_unit (ps.map fun p => 1 - p) (by
    intro x hx
    obtain ⟨p, hp, rfl⟩ := List.mem_map.1 hx
    have := h p hp
    constructor <;> linarith [this.1, this.2])
  refine ⟨_, (C29_union ps).1 hne fuel hf, ⟨by linarith, by linarith, ?_⟩, ?_, ?_⟩
  · intro p hp
    have := c3 (1 - p) (List.mem_map.2 ⟨p, hp, rfl⟩)
    linarith
  · rw [intersection_prod]
    exact prod_unit ps h
  · intro qs hq
    have hqne : qs ≠ [] := by
      rintro rfl
      exact hne (List.Perm.eq_nil hq.symm)
    rw [(C29_union qs).1 hqne fuel (by rw [hq.length_eq]; exact hf), intersection_prod,
      intersection_prod, hq.prod_eq, (hq.map _).prod_eq]
    exact ⟨rfl, rfl⟩

example : indepIntersection [1 / 2, 1 / 3] = 1 / 6 ∧
    indepEventsUnion 4 [1 / 2, 1 / 3] = some (.ok (2 / 3)) := by decide +kernel

end Verif
