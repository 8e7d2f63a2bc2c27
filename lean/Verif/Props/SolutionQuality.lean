import Verif.Proof.SolutionQuality
import Mathlib.Analysis.SpecialFunctions.Log.Base

/-! # C50, C78: the measures of a candidate program -/

namespace Verif
open Spec

variable {R : Type} [AddCommMonoid R]

/-- A fresh object, with the attributes the constructor sets. -/
def newQuality (R : Type) (program : List (Nat × List SInst)) (original : List (Nat × SInst)) :
    Quality R :=
  { program := program, original := original }

/-- The number of combinations of candidates. -/
def combos (program : List (Nat × List SInst)) : Nat := (choices (program.map (·.2))).length

theorem combos_eq (program : List (Nat × List SInst)) :
    combos program = (program.map (·.2.length)).prod := by
  unfold combos
  rw [length_choices, List.map_map]
  rfl

theorem count_nonneg (bins : List (Nat × Nat)) : ∀ a : Int, 0 ≤ a →
    0 ≤ bins.foldl (fun amount b => amount + (b.1 : Int) ^ b.2) a := by
  induction bins with
  | nil => intro a h; simpa using h
  | cons b l ih =>
    intro a h
    rw [List.foldl_cons]
    exact ih _ (Int.add_nonneg h (Int.pow_nonneg (by omega)))

theorem count_pos (bins : List (Nat × Nat)) (h : ∀ b ∈ bins, 0 < b.1) : ∀ a : Int, 0 ≤ a →
    (bins ≠ [] ∨ 0 < a) → 0 < bins.foldl (fun amount b => amount + (b.1 : Int) ^ b.2) a := by
  induction bins with
  | nil => intro a _ h; simpa using h
  | cons b l ih =>
    intro a ha _
    rw [List.foldl_cons]
    have hb : (0 : Int) < (b.1 : Int) ^ b.2 :=
      Int.pow_pos (by have := h b List.mem_cons_self; omega)
    exact ih (fun x hx => h x (List.mem_cons_of_mem _ hx)) _ (by omega) (Or.inr (by omega))

theorem solutionSize_new (lg : Nat → R) (program : List (Nat × List SInst))
    (original : List (Nat × SInst)) :
    solutionSize lg (newQuality R program original) =
      if (countSolutions lg (newQuality R program original)).count = some 0 then
        .ok (some 0, countSolutions lg (newQuality R program original))
      else .ok ((countSolutions lg (newQuality R program original)).size,
        countSolutions lg (newQuality R program original)) := rfl

/-- **C50 (size)**: for every program with no empty address the size is the
logarithm of the number of combinations, for anything that behaves like a
logarithm on positive numbers. -/
theorem C50_size (lg : Nat → R) (h1 : lg 1 = 0)
    (hm : ∀ a b, 0 < a → 0 < b → lg (a * b) = lg a + lg b)
    (program : List (Nat × List SInst)) (original : List (Nat × SInst))
    (hne : ∀ p ∈ program, p.2 ≠ []) :
    ∃ q, solutionSize lg (newQuality R program original) = .ok (some (lg (combos program)), q) := by
  have hpos : ∀ x ∈ program.map (·.2.length), 0 < x := by
    intro x hx
    obtain ⟨p, hp, rfl⟩ := List.mem_map.1 hx
    exact List.length_pos_iff.2 (hne p hp)
  have hlg := (lg_prod lg h1 hm _ hpos).1
  have hsz : (countSolutions lg (newQuality R program original)).size
      = some (lg (combos program)) := by
    unfold countSolutions newQuality
    dsimp only
    rw [foldl_size, lengthBins_eq, sum_incKeys (fun k => if k > 1 then lg k else 0)]
    rw [hlg, combos_eq]
    simp
  rw [solutionSize_new]
  split
  · rename_i h0
    cases program with
    | nil => exact ⟨_, by rw [show lg (combos []) = 0 from h1]⟩
    | cons p program =>
      exfalso
      have := count_pos (lengthBins (p :: program)) ?_ 0 (by omega) (Or.inl ?_)
      · have h0' : (lengthBins (p :: program)).foldl (fun amount b => amount + (b.1 : Int) ^ b.2) 0
            = 0 := Option.some.inj h0
        omega
      · intro b hb
        rw [lengthBins_eq] at hb
        have hk := (dictGet_isSome (incKeys [] ((p :: program).map (·.2.length))) b.1).2
          (List.mem_map.2 ⟨b, hb, rfl⟩)
        rw [dictGet_incKeys, dictGet_nil] at hk
        have hc : 0 < ((p :: program).map (·.2.length)).count b.1 := by
          by_contra hz
          rw [show ((p :: program).map (·.2.length)).count b.1 = 0 by omega] at hk
          simp [plus] at hk
        exact hpos _ (List.count_pos_iff.1 hc)
      · intro e
        rw [lengthBins_eq] at e
        have := dictGet_incKeys ((p :: program).map (·.2.length)) [] p.2.length
        rw [e] at this
        simp [plus, dictGet_nil] at this
  · exact ⟨_, by rw [hsz]⟩

/-- C50 (size) for the logarithm itself, on exact real numbers. -/
theorem C50_size_real (program : List (Nat × List SInst)) (original : List (Nat × SInst))
    (hne : ∀ p ∈ program, p.2 ≠ []) :
    ∃ q, solutionSize (fun k => Real.logb 2 (k : ℝ)) (newQuality ℝ program original)
      = .ok (some (Real.logb 2 (combos program : ℝ)), q) := by
  apply C50_size (fun k => Real.logb 2 (k : ℝ)) _ _ program original hne
  · simp
  · intro a b ha hb
    push_cast
    exact Real.logb_mul (by exact_mod_cast ha.ne') (by exact_mod_cast hb.ne')

/-- Two addresses, with two and three candidates. -/
def twoThree : List (Nat × List SInst) :=
  [(0, [⟨1, 0, false, 1⟩, ⟨2, 1, false, 1⟩]),
   (4, [⟨1, 0, false, 1⟩, ⟨2, 1, false, 1⟩, ⟨3, 2, false, 1⟩])]

/-- The hypotheses of `C50_size` hold of a program that has choices. -/
example : (∀ p ∈ twoThree, p.2 ≠ []) ∧ combos twoThree = 6 := by decide

/-- **C50 (count) is false**: the contributions of the bins are added, so two
addresses with two and three candidates are reported as five solutions. -/
theorem C50_count_refuted :
    ∃ program : List (Nat × List SInst), (∀ p ∈ program, p.2 ≠ []) ∧
      ∀ lg : Nat → Rat, (solutionCount lg (newQuality Rat program [])).1 = some 5
        ∧ combos program = 6 :=
  ⟨twoThree, by decide, fun _ => ⟨rfl, by decide⟩⟩

theorem incKeys_replicate (n : Nat) : ∀ m c : Nat,
    incKeys [(n, c)] (List.replicate m n) = [(n, c + m)]
  | 0, c => rfl
  | m + 1, c => by
    rw [List.replicate_succ]
    show incKeys (incKey [(n, c)] n) (List.replicate m n) = _
    rw [show incKey [(n, c)] n = [(n, c + 1)] by simp [incKey, dictGet_cons, dictSet],
      incKeys_replicate n m (c + 1)]
    simp [Nat.add_comm, Nat.add_left_comm]

/-- C50 (count), the part that holds: when every address has the same number
`n` of candidates. Missing: programs with different numbers of candidates, for
which the claim is false (`C50_count_refuted`). -/
theorem C50_count_partial (lg : Nat → R) (program : List (Nat × List SInst))
    (original : List (Nat × SInst)) (n : Nat) (hp : program ≠ [])
    (hn : ∀ p ∈ program, p.2.length = n) :
    (solutionCount lg (newQuality R program original)).1 = some (combos program : Int) := by
  have hl : program.map (·.2.length) = List.replicate program.length n := by
    rw [List.eq_replicate_iff]
    exact ⟨by simp, fun b hb => by obtain ⟨p, hp, rfl⟩ := List.mem_map.1 hb; exact hn p hp⟩
  have hb : lengthBins program = [(n, program.length)] := by
    rw [lengthBins_eq, hl]
    obtain ⟨m, hm⟩ : ∃ m, program.length = m + 1 :=
      ⟨program.length - 1, by have := List.length_pos_iff.2 hp; omega⟩
    rw [hm, List.replicate_succ]
    show incKeys (incKey [] n) _ = _
    rw [show incKey [] n = [(n, 1)] by simp [incKey, dictGet_nil, dictSet], incKeys_replicate,
      Nat.add_comm]
  show some ((lengthBins program).foldl (fun amount b => amount + (b.1 : Int) ^ b.2) 0) = _
  rw [hb, combos_eq, hl]
  simp

/-- Several addresses with two candidates each meet the hypotheses. -/
example : ∃ program : List (Nat × List SInst), program ≠ [] ∧ (∀ p ∈ program, p.2.length = 2)
    ∧ combos program = 4 :=
  ⟨[(0, [⟨1, 0, false, 1⟩, ⟨2, 1, false, 1⟩]), (4, [⟨1, 0, false, 1⟩, ⟨3, 1, false, 1⟩])],
    by decide, by decide, by decide⟩

/-- The count can also be too high: an address with one candidate adds one
although it adds no choice. -/
theorem C50_count_overshoots :
    ∃ program : List (Nat × List SInst), (∀ p ∈ program, p.2 ≠ []) ∧
      ∀ lg : Nat → Rat, (solutionCount lg (newQuality Rat program [])).1 = some 3
        ∧ combos program = 2 :=
  ⟨[(0, [⟨1, 0, false, 1⟩]), (4, [⟨1, 0, false, 1⟩, ⟨3, 1, false, 1⟩])],
    by decide, fun _ => ⟨rfl, by decide⟩⟩

/-- Asking for the depth destroys the other two measures: the count becomes
`None` and the size raises `TypeError`. -/
theorem C50_after_depth (lg : Nat → R) (q q' : Quality R) (d : Option Rat) (hq : q.depth = none)
    (h : highestDepth lg q = .ok (d, q')) :
    (solutionCount lg q').1 = none ∧ solutionSize lg q' = .error .type := by
  unfold highestDepth at h
  rw [hq] at h
  dsimp only at h
  unfold evaluateQ at h
  simp only [bind, Except.bind] at h
  rcases hs : List.foldlM qualityTurn
    ⟨(countSolutions lg q).program, 0, []⟩ (countSolutions lg q).original with e | s
  · rw [hs] at h; cases h
  · rw [hs] at h
    dsimp only at h
    cases h
    exact ⟨rfl, rfl⟩

theorem highestDepth_new (lg : Nat → R) {program : List (Nat × List SInst)}
    {original : List (Nat × SInst)} {s' : DepthSt}
    (e : original.foldlM qualityTurn ⟨program, 0, []⟩ = .ok s') :
    ∃ q, highestDepth lg (newQuality R program original) = .ok (some s'.depth, q) := by
  refine ⟨{ countSolutions lg (newQuality R program original) with
        count := none, program := s'.program, depth := some s'.depth, depthBins := s'.bins }, ?_⟩
  show (do
      let q ← (do
        let s ← original.foldlM qualityTurn ⟨program, 0, []⟩
        Except.ok { countSolutions lg (newQuality R program original) with
          count := none, program := s.program, depth := some s.depth, depthBins := s.bins })
      Except.ok (q.depth, q)) = _
  rw [e]
  rfl

/-- **C78 (asked again)**: a depth that was given is given again, and nothing of the
program or the measures changes. -/
theorem C78_again (lg : Nat → R) (q q' : Quality R) (d : Option Rat) (h : highestDepth lg q = .ok (d, q')) :
    highestDepth lg q' = .ok (d, q') := by
  have key : ∀ (q : Quality R) (d : Rat), q.depth = some d → highestDepth lg q = .ok (some d, q) := by
    intro q d hq
    unfold highestDepth
    rw [hq]
  unfold highestDepth at h
  split at h
  · next d' hq =>
    cases h
    exact key q d' hq
  · simp only [bind, Except.bind] at h
    split at h
    · cases h
    next q1 h1 =>
    cases h
    unfold evaluateQ at h1
    simp only [bind, Except.bind] at h1
    split at h1
    · cases h1
    cases h1
    exact key _ _ rfl

/-- **C78**: the highest depth is the largest relative rank of an original
instruction. Every defined original has exactly one candidate printed like it.
Missing from the full claim: addresses with a candidate whose encoding is zero
or with scores closer than `10⁻⁹`, for which it is false (`C78_refuted`). -/
theorem C78_depth_partial (lg : Nat → R) (program : List (Nat × List SInst))
    (original : List (Nat × SInst)) (pick : Nat → SInst)
    (hd : (original.map (·.1)).Nodup)
    (h : ∀ o ∈ original, o.2.ignore = false → ∃ v, dictGet program o.1 = some v ∧ Separated v
      ∧ pick o.1 ∈ v ∧ ∀ x ∈ v, x.str = o.2.str ↔ x = pick o.1) :
    ∃ q, highestDepth lg (newQuality R program original) =
      .ok (some (((original.filter fun o => !o.2.ignore).map fun o =>
        relRank (·.score) (·.enc) ((dictGet program o.1).getD []) (pick o.1)).foldl max 0), q) := by
  have key : ∀ (original : List (Nat × SInst)) (s : DepthSt), (original.map (·.1)).Nodup →
      (∀ o ∈ original, dictGet s.program o.1 = dictGet program o.1) →
      (∀ o ∈ original, o.2.ignore = false → ∃ v, dictGet program o.1 = some v ∧ Separated v
        ∧ pick o.1 ∈ v ∧ ∀ x ∈ v, x.str = o.2.str ↔ x = pick o.1) →
      ∃ s', original.foldlM qualityTurn s = .ok s' ∧
        s'.depth = ((original.filter fun o => !o.2.ignore).map fun o =>
          relRank (·.score) (·.enc) ((dictGet program o.1).getD []) (pick o.1)).foldl max s.depth := by
    intro original
    induction original with
    | nil => intro s _ _ _; exact ⟨s, rfl, rfl⟩
    | cons o original ih =>
      intro s hd hs h
      rw [List.map_cons, List.nodup_cons] at hd
      rw [List.foldlM_cons]
      cases ho : o.2.ignore with
      | true =>
        rw [show qualityTurn s o = .ok s by unfold qualityTurn; rw [if_pos ho]]
        rw [List.filter_cons_of_neg (by simp [ho])]
        exact ih s hd.2 (fun o' ho' => hs o' (List.mem_cons_of_mem _ ho'))
          fun o' ho' => h o' (List.mem_cons_of_mem _ ho')
      | false =>
        obtain ⟨v, hv, hsep, hc, hu⟩ := h o List.mem_cons_self ho
        obtain ⟨s', e, hp, hdep⟩ := depthTurn_ok ho
          ((hs o List.mem_cons_self).trans hv) hsep hc hu
        rw [e]
        rw [List.filter_cons_of_pos (by simp [ho]), List.map_cons, List.foldl_cons, hv,
          Option.getD_some, ← hdep]
        refine ih s' hd.2 ?_ fun o' ho' => h o' (List.mem_cons_of_mem _ ho')
        intro o' ho'
        rw [hp, dictGet_dictSet, if_neg ?_]
        · exact hs o' (List.mem_cons_of_mem _ ho')
        · intro e; exact hd.1 (List.mem_map.2 ⟨o', ho', e.symm⟩)
  obtain ⟨s', e, hdep⟩ := key original ⟨program, 0, []⟩ hd (fun _ _ => rfl) h
  obtain ⟨q, hh⟩ := highestDepth_new lg e
  rw [hdep] at hh
  exact ⟨_, hh⟩

/-- The hypotheses of `C78_depth_partial` hold of two addresses whose originals
rank second and last. -/
example :
    let program : List (Nat × List SInst) :=
      [(0, [⟨5, 0, false, 1⟩, ⟨7, 1, false, 1⟩]),
       (4, [⟨9, 0, false, 1/2⟩, ⟨2, 1, false, 0⟩, ⟨3, 2, false, 1⟩])]
    (∀ p ∈ program, Separated p.2) ∧
      relRank (·.score) (·.enc) (program[0].2) ⟨7, 1, false, 1⟩ = 1 ∧
      relRank (·.score) (·.enc) (program[1].2) ⟨9, 0, false, 1/2⟩ = 2 / 3 := by
  unfold Separated relRank
  decide +kernel

/-- **C78 is false in general**: when a candidate has encoding zero the scores
are ignored, and an original with the best score is reported last. -/
theorem C78_refuted :
    ∃ (v : List SInst) (o c : SInst), c ∈ v ∧ (∀ x ∈ v, x.str = o.str ↔ x = c) ∧
      relRank (·.score) (·.enc) v c = 1 / 2 ∧
      ∀ lg : Nat → Rat, ∃ q, highestDepth lg (newQuality Rat [(0, v)] [(0, o)])
        = .ok (some 1, q) := by
  refine ⟨[⟨0, 0, false, 0⟩, ⟨7, 1, false, 1⟩], ⟨7, 1, false, 1⟩, ⟨7, 1, false, 1⟩,
    by decide, by decide, by decide +kernel, fun lg => ?_⟩
  have h2 : qualityTurn ⟨[(0, [⟨0, 0, false, 0⟩, ⟨7, 1, false, 1⟩])], 0, []⟩ (0, ⟨7, 1, false, 1⟩)
      = .ok ⟨[(0, [⟨0, 0, false, 0⟩, ⟨7, 1, false, 1⟩])], 1, [(2, 1)]⟩ := by
    simp [qualityTurn, dictGet_cons, depthSort, minEncoding, depthKey, dictSet, dictGet_nil,
      List.insertionSort, List.orderedInsert, List.findIdx_cons]
  exact highestDepth_new lg (s' := ⟨_, 1, _⟩) (by
    rw [List.foldlM_cons, h2]
    rfl)

end Verif
