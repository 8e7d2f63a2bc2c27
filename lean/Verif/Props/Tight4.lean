import Verif.Props.SolutionQuality
import Verif.Props.Corruption
import Verif.Props.RunRecovery

/-!
# When the depth raises, which addresses are corrupted and in which order candidates are left
-/

namespace Verif

/-- An original that cannot be measured: it is not ignored and its address has no candidates. -/
def unmeasured (program : List (Nat × List SInst)) (o : Nat × SInst) : Bool :=
  !o.2.ignore && ((dictGet program o.1).getD []).isEmpty

theorem quality_errors (program : List (Nat × List SInst)) : ∀ (original : List (Nat × SInst)) (s : DepthSt),
    (∀ a, (dictGet s.program a).map List.length = (dictGet program a).map List.length) → ∀ e,
    (original.foldlM qualityTurn s = .error e ↔ ∃ o, original.find? (unmeasured program) = some o ∧
      e = if dictGet program o.1 = none then .key else .zeroDiv) := by
  intro original
  induction original with
  | nil => intro s _ e; simp [pure, Except.pure]
  | cons o original ih =>
    intro s hs e
    rw [List.foldlM_cons]
    have ho := hs o.1
    by_cases hi : o.2.ignore = true
    · have h1 : qualityTurn s o = .ok s := by unfold qualityTurn; rw [if_pos hi]
      rw [h1, List.find?_cons_of_neg (by simp [unmeasured, hi])]
      exact ih s hs e
    · cases hp : dictGet program o.1 with
      | none =>
        rw [hp] at ho
        have h1 : qualityTurn s o = .error .key := by
          unfold qualityTurn
          rw [if_neg hi, Option.map_eq_none_iff.1 ho]
        rw [h1, List.find?_cons_of_pos (by simp [unmeasured, hi, hp])]
        constructor
        · intro h; cases h; exact ⟨o, rfl, by rw [if_pos hp]⟩
        · rintro ⟨o', h, rfl⟩; cases h; rw [if_pos hp]; rfl
      | some v =>
        rw [hp] at ho
        obtain ⟨v', hv', hlen⟩ := Option.map_eq_some_iff.1 ho
        have hsort : (depthSort v').length = v.length := by
          rw [← hlen]; exact (List.perm_insertionSort _ _).length_eq
        by_cases hv : v = []
        · have h1 : qualityTurn s o = .error .zeroDiv := by
            unfold qualityTurn
            rw [if_neg hi, hv']
            dsimp only
            rw [if_pos (by rw [hsort, hv]; rfl)]
          rw [h1, List.find?_cons_of_pos (by simp [unmeasured, hi, hp, hv])]
          constructor
          · intro h; cases h; exact ⟨o, rfl, by rw [if_neg (by simp [hp])]⟩
          · rintro ⟨o', h, rfl⟩; cases h; rw [if_neg (by simp [hp])]; rfl
        · rw [List.find?_cons_of_neg (by simp [unmeasured, hp, hv])]
          obtain ⟨s', h1, h2⟩ : ∃ s', qualityTurn s o = .ok s' ∧ s'.program = dictSet s.program o.1 (depthSort v') := by
            unfold qualityTurn
            rw [if_neg hi, hv']
            dsimp only
            rw [if_neg (by rw [hsort]; simpa using hv)]
            exact ⟨_, rfl, rfl⟩
          rw [h1]
          refine ih s' (fun a => ?_) e
          rw [h2, dictGet_dictSet]
          split
          · next h => subst h; rw [hp, Option.map_some, hsort]; rfl
          · exact hs a

/-- C78, the errors: the depth of a program is not given exactly if some defined original
has no candidates.  The first such decides the exception: a `KeyError` if its address is not
in the program and a `ZeroDivisionError` if the address is empty. -/
theorem C78_errors {R : Type} [Semiring R] (lg : Nat → R) (program : List (Nat × List SInst)) (original : List (Nat × SInst)) (e : Err) :
    highestDepth lg (newQuality R program original) = .error e ↔
      ∃ o, original.find? (unmeasured program) = some o ∧ e = if dictGet program o.1 = none then .key else .zeroDiv := by
  rw [← quality_errors program original ⟨program, 0, []⟩ (fun _ => rfl) e]
  show (do
      let q ← (do
        let s ← original.foldlM qualityTurn ⟨program, 0, []⟩
        Except.ok { countSolutions lg (newQuality R program original) with
          count := none, program := s.program, depth := some s.depth, depthBins := s.bins })
      Except.ok (q.depth, q)) = _ ↔ _
  cases original.foldlM qualityTurn ⟨program, 0, []⟩ with
  | error e' => simp [bind, Except.bind]
  | ok s => simp [bind, Except.bind]

/-- Both exceptions: an address that is missing, and one that is empty. -/
theorem C78_errors_case (lg : Nat → Rat) : highestDepth lg (newQuality Rat [] [(0, ⟨1, 0, true, 0⟩), (4, ⟨1, 0, false, 0⟩)]) = .error .key ∧
    highestDepth lg (newQuality Rat [(4, [])] [(4, ⟨1, 0, false, 0⟩)]) = .error .zeroDiv := by
  rw [C78_errors, C78_errors]
  exact ⟨⟨(4, ⟨1, 0, false, 0⟩), by decide +kernel, by decide +kernel⟩, ⟨(4, ⟨1, 0, false, 0⟩), by decide +kernel, by decide +kernel⟩⟩

/-! ### The addresses that can be corrupted -/

theorem cpLoop_hit {maxA len mn : Nat} {prog : Program} : ∀ (fuel n : Nat) (cur : Program) (ds : Draws) (r : Program × Draws),
    (∀ a, dictGet cur a ≠ dictGet prog a → ∃ k ≤ len, a = mn + 4 * k) →
    cpLoop maxA len mn fuel n cur ds = some (.ok r) → ∀ a, dictGet r.1 a ≠ dictGet prog a → ∃ k ≤ len, a = mn + 4 * k := by
  intro fuel
  induction fuel with
  | zero =>
    intro n cur ds r hI h
    cases n with
    | zero =>
      unfold cpLoop at h
      rw [rnd_pure_ok] at h
      subst h
      exact hI
    | succ n => unfold cpLoop at h; simp at h
  | succ fuel ih =>
    intro n cur ds r hI h
    cases n with
    | zero =>
      unfold cpLoop at h
      rw [rnd_pure_ok] at h
      subst h
      exact hI
    | succ n =>
      unfold cpLoop at h
      rw [rnd_bind_ok] at h
      obtain ⟨x, ds1, hx, h⟩ := h
      rcases hc : dictGet cur (x * 4 + mn) with _ | (_ | ⟨c, _ | ⟨_, _⟩⟩)
      · rw [hc] at h; exact ih (n + 1) cur ds1 r hI h
      · rw [hc] at h; exact ih (n + 1) cur ds1 r hI h
      · rw [hc] at h
        dsimp only at h
        rw [rnd_bind_ok] at h
        obtain ⟨a, ds2, _, h⟩ := h
        rw [rnd_bind_ok] at h
        obtain ⟨rs, ds3, _, h⟩ := h
        refine ih n _ ds3 r (fun a ha => ?_) h
        rw [dictGet_dictSet] at ha
        split at ha
        · next e =>
          obtain ⟨_, h2, _⟩ := randint_ok hx
          exact ⟨x, h2, by omega⟩
        · exact hI a ha
      · rw [hc] at h; exact ih (n + 1) cur ds1 r hI h

theorem minAddr_fold : ∀ (prog : Program) (m0 : Nat),
    let m := prog.foldl (fun m (p : Nat × List CInst) => if m > p.1 then p.1 else m) m0
    m ≤ m0 ∧ (∀ p ∈ prog, m ≤ p.1) ∧ (m = m0 ∨ m ∈ prog.map (·.1)) := by
  intro prog
  induction prog with
  | nil => intro m0; simp
  | cons q prog ih =>
    intro m0
    rw [List.foldl_cons]
    obtain ⟨h1, h2, h3⟩ := ih (if m0 > q.1 then q.1 else m0)
    refine ⟨?_, ?_, ?_⟩
    · refine le_trans h1 ?_
      split <;> omega
    · intro p hp
      rcases List.mem_cons.1 hp with rfl | hp
      · refine le_trans h1 ?_
        split <;> omega
      · exact h2 p hp
    · rcases h3 with h3 | h3
      · rw [h3]
        split
        · exact .inr (by simp)
        · exact .inl rfl
      · exact .inr (by rw [List.map_cons]; exact List.mem_cons_of_mem _ h3)

/-- C22, the addresses: only the addresses at a multiple of four after the lowest, and no
more of them than instructions, are corrupted.  The lowest is counted as `2⁶³ - 1` if all are
higher. -/
theorem C22_addresses (prog : Program) (percent prod : Rat) (maxAmount : Int) (ds : Draws) (prog' : Program) (ds' : Draws)
    (h : corruptProgram prog percent prod maxAmount ds = some (.ok (prog', ds'))) :
    ∃ low, low ≤ 2 ^ 63 - 1 ∧ (∀ p ∈ prog, low ≤ p.1) ∧ (low = 2 ^ 63 - 1 ∨ low ∈ prog.map (·.1)) ∧
      ∀ a, dictGet prog' a ≠ dictGet prog a → ∃ k ≤ prog.length, a = low + 4 * k := by
  unfold corruptProgram at h
  split at h
  · simp at h
  · obtain ⟨h1, h2, h3⟩ := minAddr_fold prog (2 ^ 63 - 1)
    exact ⟨minAddr prog, h1, h2, h3, cpLoop_hit _ _ _ _ _ (fun a ha => absurd rfl ha) h⟩

/-- The hypothesis is met by a program above `2⁶³`: the address hit is a multiple of four
after `2⁶³ - 1`. -/
theorem C22_addresses_case : ∃ prog prog' ds ds', corruptProgram prog 50 (1 / 2) 1 ds = some (.ok (prog', ds')) ∧
    (∀ p ∈ prog, 2 ^ 63 - 1 < p.1) ∧ dictGet prog' (2 ^ 63 + 3) ≠ dictGet prog (2 ^ 63 + 3) :=
  ⟨[(2 ^ 63 + 3, [⟨7, 2 ^ 63 + 3⟩])], [(2 ^ 63 + 3, [⟨7, 2 ^ 63 + 3⟩, ⟨6, 2 ^ 63 + 3⟩])], [1, 1, 0], [], by decide +kernel, by decide +kernel,
    by decide +kernel⟩

/-! ### The order in which candidates are left -/

/-- What a report does with an address. -/
theorem reportLoop_sorts {α : Type} : ∀ (os : List (RInst α)) (iss : List (List (RInst α))) (r r' : Report) (iss' : List (List (RInst α))),
    reportLoop r os iss = .ok (r', iss') → ∀ (j : Nat) (v : List (RInst α)), j < os.length → iss'[j]? = some v → 1 < v.length →
      v.Pairwise fun a b => b.score ≤ a.score := by
  intro os
  induction os with
  | nil => intro iss r r' iss' _ j v hj; simp at hj
  | cons o os ih =>
    intro iss r r' iss' h j v hj hv hl
    cases iss with
    | nil => simp [reportLoop] at h
    | cons i iss =>
      rw [reportLoop] at h
      cases h1 : reportAddr r o i with
      | error e => simp [bind, Except.bind, h1] at h
      | ok q1 =>
        cases h2 : reportLoop q1.1 os iss with
        | error e => simp [bind, Except.bind, h1, h2] at h
        | ok q =>
          simp only [bind, Except.bind, h1, h2, pure, Except.pure, Except.ok.injEq, Prod.mk.injEq] at h
          obtain ⟨rfl, rfl⟩ := h
          cases j with
          | zero =>
            simp only [List.getElem?_cons_zero, Option.some.injEq] at hv
            subst hv
            unfold reportAddr at h1
            split at h1
            · split at h1
              · next c1 c2 rest hs =>
                cases h1
                show (c1 :: c2 :: rest).Pairwise _
                rw [← hs]
                unfold sortScore
                have t1 : Std.Total fun a b : RInst α => b.score ≤ a.score := ⟨fun a b => le_total _ _⟩
                have t2 : IsTrans (RInst α) fun a b => b.score ≤ a.score := ⟨fun a b c h h' => le_trans h' h⟩
                exact List.pairwise_insertionSort _ _
              · cases h1
            · cases h1
              simp only at hl
              omega
          | succ j =>
            exact ih iss q1.1 q.1 q.2 h2 j v (by simpa using hj) (by simpa using hv) hl

theorem printReport_sorts {α : Type} {os : List (RInst α)} {iss iss' : List (List (RInst α))} {r : Report}
    (h : printReport os iss = .ok (r, iss')) (j : Nat) (v : List (RInst α)) (hj : j < os.length) (hv : iss'[j]? = some v)
    (hl : 1 < v.length) : v.Pairwise fun a b => b.score ≤ a.score := by
  unfold printReport at h
  cases h1 : reportLoop {} os iss with
  | error e => rw [h1] at h; simp [bind, Except.bind] at h
  | ok q =>
    rw [h1] at h
    simp only [bind, Except.bind, pure, Except.pure] at h
    split at h
    · simp at h
    · simp only [Except.ok.injEq, Prod.mk.injEq] at h
      obtain ⟨rfl, rfl⟩ := h
      exact reportLoop_sorts os iss {} q.1 q.2 h1 j v hj hv hl

theorem mapM_get {α β : Type} (f : α → Py β) : ∀ (l : List α) (l' : List β), l.mapM f = .ok l' → ∀ (j : Nat) (y : β),
    l'[j]? = some y → ∃ x, l[j]? = some x ∧ f x = .ok y := by
  intro l
  induction l with
  | nil => intro l' h j y hy; cases h; simp at hy
  | cons x l ih =>
    intro l' h j y hy
    rw [List.mapM_cons] at h
    cases h1 : f x with
    | error e => rw [h1] at h; simp [bind, Except.bind] at h
    | ok z =>
      cases h2 : l.mapM f with
      | error e => rw [h1, h2] at h; simp [bind, Except.bind] at h
      | ok zs =>
        rw [h1, h2] at h
        simp only [bind, Except.bind, pure, Except.pure, Except.ok.injEq] at h
        subst h
        cases j with
        | zero => cases hy; exact ⟨x, rfl, h1⟩
        | succ j => exact ih zs h2 j y hy

theorem forall₂_get {α β : Type} {R : α → β → Prop} {l : List α} {l' : List β} (h : List.Forall₂ R l l') : ∀ (j : Nat) (x : α),
    l[j]? = some x → ∃ y, l'[j]? = some y ∧ R x y := by
  induction h with
  | nil => intro j x hx; simp at hx
  | cons h _ ih =>
    intro j x hx
    cases j with
    | zero => cases hx; exact ⟨_, rfl, h⟩
    | succ j => exact ih j x hx

/-- The likelihood of a candidate has been worked out, and nothing else changed. -/
theorem continuous_scores {v v' : List (RInst Scored)} (h : continuous v = .ok v') :
    v'.length = v.length ∧ ∀ x ∈ v', ∃ y ∈ v, (x.enc = y.enc ∧ x.str = y.str ∧ x.data = y.data) ∧
      (1 < v.length → probRules x.data.scores x.data.c = .ok x.score) := by
  have hlen := congrArg List.length (continuous_keeps h)
  rw [List.length_map, List.length_map] at hlen
  refine ⟨hlen, fun x hx => ?_⟩
  unfold continuous at h
  split at h
  · obtain ⟨j, hj⟩ := List.mem_iff_getElem?.1 hx
    obtain ⟨y, hy, e⟩ := mapM_get _ _ _ h j x hj
    cases hp : probRules y.data.scores y.data.c with
    | error e' => rw [hp] at e; simp [bind, Except.bind] at e
    | ok q =>
      rw [hp] at e
      simp only [bind, Except.bind, pure, Except.pure, Except.ok.injEq] at e
      subst e
      exact ⟨y, List.mem_iff_getElem?.2 ⟨j, hy⟩, ⟨rfl, rfl, rfl⟩, fun _ => hp⟩
  · next hl =>
    cases h
    exact ⟨x, hx, ⟨rfl, rfl, rfl⟩, fun h => absurd h hl⟩

theorem leftOf_length (dec : Nat → Nat → Answers) (a : Nat) : ∀ (v : List (RInst Scored)) (fs : List FInst),
    (leftOf dec a v fs).length ≤ v.length := by
  intro v
  induction v with
  | nil => intro fs; simp [leftOf]
  | cons x v ih =>
    intro fs
    cases fs with
    | nil => simp [leftOf]
    | cons f fs =>
      rw [leftOf]
      split
      · simpa using ih fs
      · exact le_trans (ih _) (by simp)

/-- C114: a recovery that runs to the end leaves the candidates of every address in the order
of their likelihood, the most likely first: where several are left, the score of each is the
product of its evidence and the scores fall.  They are the candidates there were, with the
evidence there was. -/
theorem C114_ordered (dec : Nat → Nat → Answers) (orig : List CInst) (addrs : List Nat)
    (prog prog' : List (List (RInst Scored))) (hl : addrs.length = prog.length)
    (h : finishRun dec orig addrs prog = some (.ok prog')) (j : Nat) (v' : List (RInst Scored)) (hj : j < orig.length) (hv : prog'[j]? = some v') :
    ∃ v, prog[j]? = some v ∧ (∀ x ∈ v', ∃ y ∈ v, x.enc = y.enc ∧ x.str = y.str ∧ x.data = y.data) ∧
      (1 < v'.length → (v'.Pairwise fun a b => b.score ≤ a.score) ∧ ∀ x ∈ v', probRules x.data.scores x.data.c = .ok x.score) := by
  unfold finishRun at h
  dsimp only at h
  cases h1 : prog.mapM continuous with
  | error e => rw [h1] at h; simp [bind, Except.bind] at h
  | ok prog1 =>
    have w1 : Within prog1 prog := by
      apply within_of_eq
      exact mapM_map continuous _ _ (fun x y hxy => continuous_keeps hxy) _ _ h1
    rw [h1] at h
    cases h2 : printReport (orig.map fun i => decoded dec i.address i.encoding) prog1 with
    | error e => simp [bind, Except.bind, h2] at h
    | ok r =>
      obtain ⟨r, prog2⟩ := r
      obtain ⟨_, p2, _⟩ := printReport_perm h2
      simp only [bind, Except.bind, h2, pure, Except.pure] at h
      split at h
      · simp at h
      · simp at h
      · rename_i s _
        simp only [Option.some.injEq] at h
        split at h
        · simp at h
        · rename_i r3 h3
          simp only [Except.ok.injEq] at h
          obtain ⟨r3, prog3⟩ := r3
          simp only at h
          subst h
          obtain ⟨_, p3, m3⟩ := printReport_perm h3
          have hl2 : addrs.length = prog2.length := by
            rw [hl, p2.length_eq, w1.length_eq]
          obtain ⟨v3, hv3, e3⟩ := forall₂_get p3 j v' hv
          rw [List.getElem?_map] at hv3
          obtain ⟨q, hq, rfl⟩ := Option.map_eq_some_iff.1 hv3
          have hq2 := List.getElem?_zip_eq_some.1 hq
          obtain ⟨v1, hv1, e2⟩ := forall₂_get p2 j q.2 hq2.2
          obtain ⟨v, hv0, hc⟩ := mapM_get _ _ _ h1 j v1 hv1
          obtain ⟨c1, c2⟩ := continuous_scores hc
          have hin : ∀ x ∈ v', x ∈ v1 := fun x hx => e2.mem_iff.1 (leftOf_sub dec q.1 q.2 _ x (e3.mem_iff.1 hx))
          refine ⟨v, hv0, fun x hx => ?_, fun hlt => ⟨?_, fun x hx => ?_⟩⟩
          · obtain ⟨y, hy, e, _⟩ := c2 x (hin x hx)
            exact ⟨y, hy, e⟩
          · exact printReport_sorts h3 j v' (by simpa using hj) hv hlt
          · obtain ⟨y, hy, _, e⟩ := c2 x (hin x hx)
            refine e ?_
            have := leftOf_length dec q.1 q.2 ((dictGet s.program q.1).getD [])
            rw [← e3.length_eq, e2.length_eq, c1] at this
            omega

/-- Two candidates of the first address, the less likely first, and one of the second. -/
def unordered : List (List (RInst Scored)) :=
  [[⟨11, 11, 1, ⟨(exDec 0 11).cand, [(.pc, 1 / 4), (.pr, 1)], true⟩⟩, ⟨10, 10, 1, ⟨(exDec 0 10).cand, [(.pc, 1 / 2), (.pr, 1)], true⟩⟩],
   [⟨20, 20, 1, ⟨(exDec 0 20).cand, [], true⟩⟩]]

/-- The hypotheses are met: the run ends and the more likely candidate is first. -/
theorem C114_case : (finishRun exDec [⟨10, 0⟩, ⟨20, 4⟩] [0, 4] unordered).map (fun r => r.toOption.map fun l =>
    l.map fun v : List (RInst Scored) => v.map fun x => (x.enc, x.score)) = some (some [[(10, 1 / 2), (11, 1 / 4)], [(20, 1)]]) := by decide +kernel

end Verif
