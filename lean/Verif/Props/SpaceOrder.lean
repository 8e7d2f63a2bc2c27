import Verif.Props.SolutionQuality
import Verif.Props.RunExact

/-!
# C140: what the reported size and count say when candidates come or go
-/

namespace Verif

namespace Spec

/-- The same number of addresses, and at each of them at most as many candidates. -/
def NoMore {α β γ δ : Type} (few : List (α × List β)) (many : List (γ × List δ)) : Prop :=
  List.Forall₂ (fun p q => p.2.length ≤ q.2.length) few many

end Spec

open Spec

theorem prod_le_of {l l' : List Nat} (h : List.Forall₂ (· ≤ ·) l l') (hp : ∀ x ∈ l, 0 < x) :
    0 < l.prod ∧ l.prod ≤ l'.prod ∧ (l.prod = l'.prod ↔ l = l') := by
  induction h with
  | nil => simp
  | cons h1 h2 ih =>
    rename_i a b l l'
    obtain ⟨i1, i2, i3⟩ := ih fun x hx => hp x (by simp [hx])
    have ha := hp a (by simp)
    simp only [List.prod_cons]
    refine ⟨Nat.mul_pos ha i1, Nat.mul_le_mul h1 i2, ?_⟩
    constructor
    · intro he
      have hab : a = b := by
        by_contra hne
        have hlt : a < b := lt_of_le_of_ne h1 hne
        have := Nat.mul_lt_mul_of_lt_of_le hlt i2 (lt_of_lt_of_le i1 i2)
        omega
      subst hab
      have := i3.1 (Nat.eq_of_mul_eq_mul_left ha he)
      rw [this]
    · intro he
      rw [List.cons.injEq] at he
      rw [he.1, he.2]

theorem noMore_lengths {few many : List (Nat × List SInst)} (h : NoMore few many) :
    List.Forall₂ (· ≤ ·) (few.map (·.2.length)) (many.map (·.2.length)) := by
  rw [List.forall₂_map_left_iff, List.forall₂_map_right_iff]
  exact h

theorem noMore_ne {few many : List (Nat × List SInst)} (h : NoMore few many) (hne : ∀ p ∈ few, p.2 ≠ []) :
    ∀ p ∈ many, p.2 ≠ [] := by
  induction h with
  | nil => simp
  | cons h1 _ ih =>
    rename_i a b l l' _
    intro p hp
    rcases List.mem_cons.1 hp with rfl | hp
    · have := List.length_pos_iff.2 (hne a (by simp))
      exact List.length_pos_iff.1 (by omega)
    · exact ih (fun p hp => hne p (by simp [hp])) p hp

/-- **C140.**  With at most as many candidates at each address the reported size is at
most as large, and it is the same only if no address has fewer. -/
theorem C140_size_partial (few many : List (Nat × List SInst)) (original original' : List (Nat × SInst))
    (h : NoMore few many) (hne : ∀ p ∈ few, p.2 ≠ []) :
    ∃ a b q q', solutionSize (fun k => Real.logb 2 (k : ℝ)) (newQuality ℝ few original) = .ok (some a, q) ∧
      solutionSize (fun k => Real.logb 2 (k : ℝ)) (newQuality ℝ many original') = .ok (some b, q') ∧ a ≤ b ∧
      (a = b ↔ few.map (·.2.length) = many.map (·.2.length)) := by
  obtain ⟨q, hq⟩ := C50_size_real few original hne
  obtain ⟨q', hq'⟩ := C50_size_real many original' (noMore_ne h hne)
  obtain ⟨p1, p2, p3⟩ := prod_le_of (noMore_lengths h) (by
    intro x hx
    obtain ⟨p, hp, rfl⟩ := List.mem_map.1 hx
    exact List.length_pos_iff.2 (hne p hp))
  refine ⟨_, _, q, q', hq, hq', ?_, ?_⟩
  · rw [combos_eq, combos_eq]
    exact Real.logb_le_logb_of_le (by norm_num) (by exact_mod_cast p1) (by exact_mod_cast p2)
  · rw [combos_eq, combos_eq, ← p3]
    constructor
    · intro he
      have := Real.logb_injOn_pos (b := 2) (by norm_num) (Set.mem_Ioi.2 (by exact_mod_cast p1))
        (Set.mem_Ioi.2 (by exact_mod_cast (lt_of_lt_of_le p1 p2))) he
      exact_mod_cast this
    · intro he
      rw [he]

/-- **C140.**  The reported size is zero exactly when every address has one candidate,
and never negative. -/
theorem C140_zero (program : List (Nat × List SInst)) (original : List (Nat × SInst)) (hne : ∀ p ∈ program, p.2 ≠ []) :
    ∃ a q, solutionSize (fun k => Real.logb 2 (k : ℝ)) (newQuality ℝ program original) = .ok (some a, q) ∧ 0 ≤ a ∧
      (a = 0 ↔ ∀ p ∈ program, p.2.length = 1) := by
  obtain ⟨q, hq⟩ := C50_size_real program original hne
  have hle : List.Forall₂ (· ≤ ·) (List.replicate program.length 1) (program.map (·.2.length)) := by
    clear hq q
    induction program with
    | nil => exact .nil
    | cons p program ih =>
      rw [List.length_cons, List.replicate_succ, List.map_cons]
      exact .cons (List.length_pos_iff.2 (hne p (by simp))) (ih fun p hp => hne p (by simp [hp]))
  obtain ⟨-, p2, p3⟩ := prod_le_of hle (by intro x hx; rw [List.eq_of_mem_replicate hx]; exact Nat.one_pos)
  rw [List.prod_replicate, one_pow] at p2 p3
  refine ⟨_, q, hq, ?_, ?_⟩
  · rw [combos_eq]
    exact Real.logb_nonneg (by norm_num) (by exact_mod_cast p2)
  · rw [combos_eq]
    have h1 : (Real.logb 2 (((program.map (·.2.length)).prod : Nat) : ℝ) = 0 ↔ (program.map (·.2.length)).prod = 1) := by
      constructor
      · intro he
        have := Real.logb_injOn_pos (b := 2) (by norm_num)
          (Set.mem_Ioi.2 (by exact_mod_cast (lt_of_lt_of_le Nat.one_pos p2)))
          (Set.mem_Ioi.2 one_pos) (he.trans (Real.logb_one).symm)
        exact_mod_cast this
      · intro he
        rw [he]
        simp
    rw [h1, eq_comm, p3, eq_comm, List.eq_replicate_iff]
    simp only [List.length_map, List.mem_map, true_and]
    constructor
    · intro h p hp
      exact h _ ⟨p, hp, rfl⟩
    · rintro h b ⟨p, hp, rfl⟩
      exact h p hp

/-- **C140 is false of the count**: with one more candidate at one address the reported
count falls from eight to seven, while the size rises. -/
theorem C140_refuted :
    ∃ few many : List (Nat × List SInst), NoMore few many ∧ (∀ p ∈ few, p.2 ≠ []) ∧
      (solutionCount (fun k => (k : Rat)) (newQuality Rat few [])).1 = some 8 ∧
      (solutionCount (fun k => (k : Rat)) (newQuality Rat many [])).1 = some 7 ∧ combos few = 8 ∧ combos many = 12 := by
  refine ⟨[(0, [⟨1, 0, false, 1⟩, ⟨2, 1, false, 1⟩]), (4, [⟨1, 0, false, 1⟩, ⟨2, 1, false, 1⟩]),
      (8, [⟨1, 0, false, 1⟩, ⟨2, 1, false, 1⟩])],
    [(0, [⟨1, 0, false, 1⟩, ⟨2, 1, false, 1⟩]), (4, [⟨1, 0, false, 1⟩, ⟨2, 1, false, 1⟩]),
      (8, [⟨1, 0, false, 1⟩, ⟨2, 1, false, 1⟩, ⟨3, 2, false, 1⟩])], ?_, by decide, by decide +kernel, by decide +kernel,
    by decide +kernel, by decide +kernel⟩
  exact .cons (by decide) (.cons (by decide) (.cons (by decide) .nil))

/-- A program under recovery as the measures see it: `look` gives what they ask a
candidate for. -/
def measured (look : RInst Scored → SInst) (addrs : List Nat) (prog : List (List (RInst Scored))) :
    List (Nat × List SInst) := addrs.zip (prog.map (List.map look))

theorem measured_noMore (look look' : RInst Scored → SInst) {prog' prog : List (List (RInst Scored))}
    (h : CameFrom prog' prog) : ∀ addrs : List Nat, NoMore (measured look addrs prog') (measured look' addrs prog) := by
  induction h with
  | nil => intro addrs; cases addrs <;> exact .nil
  | cons h1 _ ih =>
    intro addrs
    cases addrs with
    | nil => exact .nil
    | cons a addrs => exact .cons (by simpa using h1.1) (ih addrs)

theorem measured_lengths (look : RInst Scored → SInst) (prog : List (List (RInst Scored))) :
    ∀ addrs : List Nat, addrs.length = prog.length →
      (measured look addrs prog).map (·.2.length) = prog.map List.length := by
  induction prog with
  | nil => intro addrs _; simp [measured]
  | cons v prog ih =>
    intro addrs h
    cases addrs with
    | nil => simp at h
    | cons a addrs =>
      have := ih addrs (by simpa using h)
      simp only [measured, List.map_cons, List.zip_cons_cons, List.length_map, List.cons.injEq, true_and] at this ⊢
      exact this

/-- **C140.**  A finished recovery never reports a larger size than before it, reports
the same size only if no address lost a candidate, and never reports size zero. -/
theorem C140_recovery (os : List Cand) (fns : Fns) (addrs : List Int) (prog : List (List (RInst Scored)))
    (hw : Whole fns addrs prog) (hs : List.Forall₂ Safe os prog) (orig : List (RInst Scored))
    (hlen : orig.length = prog.length) (fuel : Nat) (hf : (prog.map List.length).sum + 2 ≤ fuel)
    (s : Nat × List (List (RInst Scored)) × Bool)
    (h : recoveryLoop (fun _ p => recuperate (collectMeta {} (os.map (·.m))) fns addrs p) orig fuel prog = some (.ok s))
    (look look' : RInst Scored → SInst) (places : List Nat) (hp : places.length = prog.length)
    (original original' : List (Nat × SInst)) :
    ∃ a b q q', solutionSize (fun k => Real.logb 2 (k : ℝ)) (newQuality ℝ (measured look places s.2.1) original) =
        .ok (some a, q) ∧
      solutionSize (fun k => Real.logb 2 (k : ℝ)) (newQuality ℝ (measured look' places prog) original') = .ok (some b, q') ∧
      0 < a ∧ a ≤ b ∧ (a = b ↔ s.2.1.map List.length = prog.map List.length) := by
  have hc : CameFrom s.2.1 prog := loop_seen fuel (1, prog, true) s hw.length hlen h
  have hl : places.length = s.2.1.length := by rw [hp]; exact hc.length_eq.symm
  have hne : ∀ p ∈ measured look places s.2.1, p.2 ≠ [] := by
    intro p hpm
    obtain ⟨v, hv, he⟩ := List.mem_map.1 (List.of_mem_zip hpm).2
    rcases C42_original_kept_partial os fns addrs prog hw hs orig hlen fuel _ h with h1 | ⟨t, h1, h2⟩
    · cases h1
    · cases h1
      obtain ⟨o, _, x, hx, _⟩ := C38_evidence.forall₂_mem_right h2 hv
      rw [← he]
      simp only [ne_eq, List.map_eq_nil_iff]
      exact List.ne_nil_of_mem hx
  obtain ⟨a, b, q, q', h1, h2, h3, h4⟩ := C140_size_partial _ (measured look' places prog) original original'
    (measured_noMore look look' hc places) hne
  rw [measured_lengths _ _ _ hl, measured_lengths _ _ _ hp] at h4
  refine ⟨a, b, q, q', h1, h2, ?_, h3, h4⟩
  obtain ⟨a', q'', g1, g2, g3⟩ := C140_zero _ original hne
  rw [h1] at g1
  simp only [Except.ok.injEq, Prod.mk.injEq, Option.some.injEq] at g1
  rw [← g1.1] at g2 g3
  refine lt_of_le_of_ne g2 fun he => ?_
  have hall := g3.1 he.symm
  obtain ⟨v, hv, hv2⟩ := C41_complete_recovery_crashes _ orig
    (by rw [hlen, ← hw.length]; exact recuperate_keeps _ fns addrs) prog hlen fuel hf s h
  have : v.length ∈ (measured look places s.2.1).map (·.2.length) := by
    rw [measured_lengths _ _ _ hl]
    exact List.mem_map_of_mem hv
  obtain ⟨p, hpm, hpe⟩ := List.mem_map.1 this
  have := hall p hpm
  omega

/-- Two addresses with two candidates each before a recovery that removes one of them. -/
theorem C140_case :
    (recoveryLoop (fun _ p => recuperate (collectMeta {} (okOrig.map (·.m))) [(0, (0, 4))] [0, 4] p)
      (okOrig.map fun c => fresh c) 10 okProg).bind (fun r => r.toOption.map fun s => s.2.1.map List.length) =
      some [1, 2] ∧ okProg.map List.length = [2, 2] := by decide +kernel

end Verif
