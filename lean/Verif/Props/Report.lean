import Verif.Model.Report
import Verif.Props.Blaum

/-! # C69, C70: progress bar and mock quality function -/

namespace Verif

/-! ### C69 -/

/-- The final line has been printed. -/
def Bar.Ended (b : Bar) : Prop := b.prev.isSome ∧ b.iteration = b.total

/-- What holds of a bar between calls. -/
structure BarOk (b : Bar) : Prop where
  it : 0 ≤ b.iteration ∨ b.Ended
  dist : 0 ≤ b.dist
  len : 0 ≤ b.barLength
  prev : ¬ b.Ended → ∀ q, b.prev = some q → q * b.total ≤ 100 * b.iteration

theorem pyRound_between {q : Rat} {n : Int} (h0 : 0 ≤ q) (h1 : q ≤ n) : 0 ≤ pyRound q ∧ pyRound q ≤ n := by
  have h := abs_le.1 (pyRound_spec q)
  constructor
  · by_contra hc
    have : pyRound q ≤ -1 := by omega
    have : ((pyRound q : Int) : Rat) ≤ -1 := by exact_mod_cast this
    linarith
  · by_contra hc
    have : n + 1 ≤ pyRound q := by omega
    have : (n : Rat) + 1 ≤ ((pyRound q : Int) : Rat) := by exact_mod_cast this
    linarith

/-- A printed bar has exactly its length, and the percentage is below 100. -/
def BarOut.Fits (len : Int) : BarOut → Prop
  | .last => True
  | .line full empty p => 0 ≤ full ∧ 0 ≤ empty ∧ full + empty = len ∧ 0 ≤ p ∧ p < 100

/-- One call. -/
theorem progress_step (b : Bar) (h : BarOk b) :
    ∃ b' o, b.progress = .ok (b', o) ∧ BarOk b' ∧ b'.total = b.total ∧ b'.barLength = b.barLength ∧
      (∀ x ∈ o, x.Fits b.barLength) ∧
      (b.Ended ∧ o = [] ∧ b'.Ended ∨
        ¬ b.Ended ∧ o.count .last = 1 ∧ b'.Ended ∨
        ¬ b.Ended ∧ o.count .last = 0 ∧ ¬ b'.Ended ∧ b'.iteration = b.iteration + 1 ∧
          b'.iteration < b.total) := by
  obtain ⟨it, tot, len, dist, prev⟩ := b
  obtain ⟨h1, h2, h3, h4⟩ := h
  simp only at h1 h2 h3
  unfold Bar.progress
  simp only
  by_cases c1 : prev.isSome ∧ it = tot
  · rw [if_pos c1]
    exact ⟨_, _, rfl, ⟨h1, h2, h3, h4⟩, rfl, rfl, by simp, Or.inl ⟨c1, rfl, c1⟩⟩
  rw [if_neg c1]
  have ne : ¬ (Bar.mk it tot len dist prev).Ended := c1
  replace h1 := h1.resolve_right ne
  replace h4 := h4 ne
  simp only at h4
  by_cases c2 : it + dist ≥ tot
  · rw [if_pos c2]
    exact ⟨_, _, rfl, ⟨Or.inr ⟨rfl, rfl⟩, h2, h3, fun hn => (hn ⟨rfl, rfl⟩).elim⟩, rfl, rfl, by simp [Bar.goToEnd, BarOut.Fits],
      Or.inr (Or.inl ⟨ne, by decide, rfl, rfl⟩)⟩
  rw [if_neg c2, if_neg (by omega)]
  have htot : 0 < tot := by omega
  have htr : (0 : Rat) < tot := by exact_mod_cast htot
  have hir : (0 : Rat) ≤ it := by exact_mod_cast h1
  have hlr : (0 : Rat) ≤ len := by exact_mod_cast h3
  have hit : ((it + 1 : Int) : Rat) ≤ tot := by exact_mod_cast (by omega : it + 1 ≤ tot)
  have hne : it + 1 < tot → ∀ q, ¬ (Bar.mk (it + 1) tot len dist q).Ended := by
    rintro hlt q ⟨_, e⟩
    simp only at e
    omega
  by_cases c3 : prev.any (fun q => decide (100 * ((it : Rat) / tot) - q < dist)) = true
  · rw [if_pos c3]
    have hlt : it + 1 < tot := by
      rw [Option.any_eq_true] at c3
      obtain ⟨q, hq, hlt⟩ := c3
      have h5 := h4 q hq
      rw [decide_eq_true_eq] at hlt
      have : q ≤ 100 * ((it : Rat) / tot) := by
        rw [← mul_div_assoc, le_div_iff₀ htr]; exact h5
      have : (0 : Rat) < dist := by linarith
      have : 0 < dist := by exact_mod_cast this
      omega
    refine ⟨_, _, rfl, ⟨Or.inl (by simp only; omega), h2, h3, ?_⟩, rfl, rfl, by simp,
      Or.inr (Or.inr ⟨ne, rfl, hne hlt _, rfl, hlt⟩)⟩
    intro _ q hq
    have := h4 q hq
    simp only
    push_cast
    linarith
  rw [if_neg c3]
  have hq0 : 0 ≤ (len : Rat) * ((it + 1 : Int) : Rat) / tot := by
    apply div_nonneg (mul_nonneg hlr _) htr.le
    push_cast; linarith
  have hq1 : (len : Rat) * ((it + 1 : Int) : Rat) / tot ≤ len := by
    rw [div_le_iff₀ htr]
    exact mul_le_mul_of_nonneg_left hit hlr
  obtain ⟨r0, r1⟩ := pyRound_between hq0 hq1
  have hp0 : 0 ≤ 100 * ((it : Rat) / tot) := mul_nonneg (by norm_num) (div_nonneg hir htr.le)
  have hp1 : 100 * ((it : Rat) / tot) < 100 := by
    have : (it : Rat) / tot < 1 := by
      rw [div_lt_one htr]
      push_cast at hit
      linarith
    linarith
  have hfits : (BarOut.line (pyRound ((len : Rat) * ((it + 1 : Int) : Rat) / tot))
      (len - pyRound ((len : Rat) * ((it + 1 : Int) : Rat) / tot)) (100 * ((it : Rat) / tot))).Fits len :=
    ⟨r0, by omega, by omega, hp0, hp1⟩
  by_cases c4 : it + 1 + dist ≥ tot
  · rw [if_pos c4]
    refine ⟨_, _, rfl, ⟨Or.inr ⟨rfl, rfl⟩, h2, h3, fun hn => (hn ⟨rfl, rfl⟩).elim⟩, rfl, rfl, ?_, Or.inr (Or.inl ⟨ne, ?_, rfl, rfl⟩)⟩
    · intro x hx
      rcases List.mem_cons.1 hx with rfl | hx
      · exact hfits
      · rw [Bar.goToEnd, List.mem_singleton] at hx
        subst hx; trivial
    · simp [Bar.goToEnd, List.count_cons]
  · rw [if_neg c4]
    have hlt : it + 1 < tot := by omega
    refine ⟨_, _, rfl, ⟨Or.inl (by simp only; omega), h2, h3, ?_⟩, rfl, rfl, ?_,
      Or.inr (Or.inr ⟨ne, ?_, hne hlt _, rfl, hlt⟩)⟩
    · intro _ q hq
      simp only [Option.some.injEq] at hq
      subst hq
      have : (it : Rat) / tot * tot = it := div_mul_cancel₀ _ htr.ne'
      simp only
      push_cast
      nlinarith
    · intro x hx
      rw [List.mem_singleton] at hx
      subst hx
      exact hfits
    · simp [List.count_cons]

/-- Any number of calls. -/
theorem progress_run (n : Nat) : ∀ (b : Bar), BarOk b →
    ∃ b' o, Bar.run n b = .ok (b', o) ∧ BarOk b' ∧ b'.total = b.total ∧ b'.barLength = b.barLength ∧
      (∀ x ∈ o, x.Fits b.barLength) ∧
      (b.Ended ∧ o = [] ∧ b'.Ended ∨
        ¬ b.Ended ∧ o.count .last = 1 ∧ b'.Ended ∨
        ¬ b.Ended ∧ o.count .last = 0 ∧ ¬ b'.Ended ∧ b'.iteration = b.iteration + n ∧
          (n = 0 ∨ b'.iteration < b.total)) := by
  induction n with
  | zero =>
    intro b h
    by_cases hE : b.Ended
    · exact ⟨b, [], rfl, h, rfl, rfl, by simp, Or.inl ⟨hE, rfl, hE⟩⟩
    · exact ⟨b, [], rfl, h, rfl, rfl, by simp, Or.inr (Or.inr ⟨hE, rfl, hE, by simp, Or.inl rfl⟩)⟩
  | succ n ih =>
    intro b h
    obtain ⟨b1, o1, e1, k1, t1, l1, f1, c1⟩ := progress_step b h
    obtain ⟨b2, o2, e2, k2, t2, l2, f2, c2⟩ := ih b1 k1
    refine ⟨b2, o1 ++ o2, ?_, k2, t2.trans t1, l2.trans l1, ?_, ?_⟩
    · simp only [Bar.run, e1, bind, Except.bind, e2, pure, Except.pure]
    · intro x hx
      rcases List.mem_append.1 hx with hx | hx
      · exact f1 x hx
      · rw [l1] at f2; exact f2 x hx
    · rcases c1 with ⟨a1, a2, a3⟩ | ⟨a1, a2, a3⟩ | ⟨a1, a2, a3, a4, a5⟩ <;>
        rcases c2 with ⟨d1, d2, d3⟩ | ⟨d1, d2, d3⟩ | ⟨d1, d2, d3, d4, d5⟩ <;>
        first
        | (exfalso; first | exact d1 a3 | exact a3 d1)
        | skip
      · exact Or.inl ⟨a1, by rw [a2, d2]; rfl, d3⟩
      · exact Or.inr (Or.inl ⟨a1, by rw [List.count_append, a2, d2]; rfl, d3⟩)
      · exact Or.inr (Or.inl ⟨a1, by rw [List.count_append, a2, d2], d3⟩)
      · refine Or.inr (Or.inr ⟨a1, by rw [List.count_append, a2, d2], d3, ?_, Or.inr ?_⟩)
        · rw [d4, a4]; push_cast; ring
        · rcases d5 with rfl | d5
          · rw [d4]; simpa using a5
          · rw [t1] at d5; exact d5

/-- **C69**: whatever the total, any number of calls on a new bar succeeds (in
particular never divides by zero), never leaves the iteration past the total
(unless no call was made), and prints the final line at most once; every other
line is a bar of exactly the wanted length and a percentage in [0,100). -/
theorem C69_progress (n : Nat) (start total len dist : Int) (hs : 0 ≤ start) (hl : 0 ≤ len) (hd : 0 ≤ dist) :
    ∃ b o, Bar.run n ⟨start, total, len, dist, none⟩ = .ok (b, o) ∧
      (n = 0 ∨ b.iteration ≤ total) ∧ o.count .last ≤ 1 ∧
      ∀ full empty p, BarOut.line full empty p ∈ o →
        0 ≤ full ∧ 0 ≤ empty ∧ full + empty = len ∧ 0 ≤ p ∧ p < 100 := by
  obtain ⟨b, o, e, k, t, l, f, c⟩ := progress_run n ⟨start, total, len, dist, none⟩
    ⟨Or.inl hs, hd, hl, by simp⟩
  refine ⟨b, o, e, ?_, ?_, fun full empty p h => f _ h⟩
  · rcases c with ⟨c, _⟩ | ⟨_, _, c⟩ | ⟨_, _, _, _, c⟩
    · simp [Bar.Ended] at c
    · right; rw [c.2, t]
    · rcases c with c | c
      · exact Or.inl c
      · exact Or.inr c.le
  · rcases c with ⟨c, _⟩ | ⟨_, c, _⟩ | ⟨_, c, _⟩
    · simp [Bar.Ended] at c
    · omega
    · omega

/-- **C69**: once there have been more calls than steps to the total, the final
line has been printed exactly once. -/
theorem C69_final (n : Nat) (start total len dist : Int) (hs : 0 ≤ start) (hl : 0 ≤ len) (hd : 0 ≤ dist)
    (hn : total - start < n) (hn0 : 0 < n) :
    ∃ b o, Bar.run n ⟨start, total, len, dist, none⟩ = .ok (b, o) ∧ o.count .last = 1 ∧
      b.iteration = total := by
  obtain ⟨b, o, e, k, t, l, f, c⟩ := progress_run n ⟨start, total, len, dist, none⟩
    ⟨Or.inl hs, hd, hl, by simp⟩
  refine ⟨b, o, e, ?_⟩
  rcases c with ⟨c, _⟩ | ⟨_, c, d⟩ | ⟨_, _, _, c, d⟩
  · simp [Bar.Ended] at c
  · exact ⟨c, by rw [d.2, t]⟩
  · exfalso
    simp only at c d
    omega

/-- A total of zero, and a total of forty: a first line, some more, a last one. -/
example : Bar.run 3 ⟨0, 0, 100, 10, none⟩ = .ok (⟨0, 0, 100, 10, some 100⟩, [.last]) ∧
    (Bar.run 41 ⟨0, 40, 50, 10, none⟩).map (fun r => (r.1.iteration, r.2.length, r.2.count .last))
      = .ok (40, 9, 1) := by
  decide +kernel

/-- The hypothesis on the distance is needed. -/
example : Bar.run 1 ⟨0, 0, 100, -1, none⟩ = .error .zeroDiv := by decide +kernel

/-! ### C70 -/

theorem qosCounter_eq (n : Nat) : qosCounter n = n % 3 := by
  induction n with
  | zero => rfl
  | succ n ih =>
    rw [qosCounter, ih, qosRun]
    split
    · show 0 = _; omega
    · show n % 3 + 1 = _; omega

/-- **C70**: counting calls from 1, the answer is true exactly when the number of
the call is a multiple of three. -/
theorem C70_period (n : Nat) : qosAnswer n = true ↔ 3 ∣ n + 1 := by
  unfold qosAnswer
  rw [qosCounter_eq, qosRun]
  split
  · simp; omega
  · simp; omega

/-- The first six answers. -/
example : (List.range 6).map qosAnswer = [false, false, true, false, false, true] := by decide

end Verif
