import Verif.Model.QualityReport
import Verif.Props.Tight5

/-! # C126: the worst place that is printed, and what the report of a solution prints -/

namespace Verif
open Spec (trialKey LeastEncoding TriedIn depthIn)

/-- The first of a list where `f` is largest. -/
def Spec.FirstLargest {α : Type} (f : α → Rat) (l : List α) (x : α) : Prop :=
  ∃ l₁ l₂, l = l₁ ++ x :: l₂ ∧ (∀ y ∈ l₁, f y < f x) ∧ ∀ y ∈ l₂, f y ≤ f x

open Spec (FirstLargest)

theorem first_largest {α β : Type} (f : α → Rat) (k : α → β) : ∀ (l : List α) (m : Rat) (a : β),
    let r := l.foldl (fun (s : Rat × β) o => if f o > s.1 then (f o, k o) else s) (m, a)
    (r = (m, a) ∧ ∀ o ∈ l, f o ≤ m) ∨ ∃ x, FirstLargest f l x ∧ r = (f x, k x) ∧ m < f x := by
  intro l
  induction l with
  | nil => intro m a; exact Or.inl ⟨rfl, by simp⟩
  | cons o l ih =>
    intro m a
    dsimp only
    rw [List.foldl_cons]
    by_cases h : f o > m
    · rw [if_pos h]
      rcases ih (f o) (k o) with ⟨h1, h2⟩ | ⟨x, ⟨l₁, l₂, h1, h2, h3⟩, h4, h5⟩
      · exact Or.inr ⟨o, ⟨[], l, rfl, by simp, h2⟩, h1, h⟩
      · refine Or.inr ⟨x, ⟨o :: l₁, l₂, by rw [h1]; rfl, ?_, h3⟩, h4, lt_trans h h5⟩
        intro y hy
        rcases List.mem_cons.1 hy with rfl | hy
        · exact h5
        · exact h2 y hy
    · rw [if_neg h]
      rcases ih m a with ⟨h1, h2⟩ | ⟨x, ⟨l₁, l₂, h1, h2, h3⟩, h4, h5⟩
      · refine Or.inl ⟨h1, ?_⟩
        intro y hy
        rcases List.mem_cons.1 hy with rfl | hy
        · exact not_lt.1 h
        · exact h2 y hy
      · refine Or.inr ⟨x, ⟨o :: l₁, l₂, by rw [h1]; rfl, ?_, h3⟩, h4, h5⟩
        intro y hy
        rcases List.mem_cons.1 hy with rfl | hy
        · exact lt_of_le_of_lt (not_lt.1 h) h5
        · exact h2 y hy

/-- Printing changes nothing else. -/
theorem worstTurn_st (s : WorstSt) (o : Nat × SInst) : (worstTurn s o).map (·.st) = qualityTurn s.st o := by
  unfold worstTurn qualityTurn
  split
  · rfl
  · cases dictGet s.st.program o.1 with
    | none => rfl
    | some v =>
      dsimp only
      split <;> rfl

theorem worst_st : ∀ (original : List (Nat × SInst)) (s : WorstSt),
    (original.foldlM worstTurn s).map (·.st) = original.foldlM qualityTurn s.st
  | [], _ => rfl
  | o :: original, s => by
      rw [List.foldlM_cons, List.foldlM_cons, ← worstTurn_st s o]
      cases worstTurn s o with
      | error e => rfl
      | ok t => exact worst_st original t

theorem worstTurn_eq {s : WorstSt} {o : Nat × SInst} {v : List SInst} (hi : ¬ o.2.ignore = true)
    (hv : dictGet s.st.program o.1 = some v) (hne : v ≠ []) :
    worstTurn s o = .ok ⟨⟨dictSet s.st.program o.1 (depthSort v),
          (if depthIn (looksLike o) (depthSort v) > s.st.depth then depthIn (looksLike o) (depthSort v) else s.st.depth),
          dictSet s.st.bins (depthSort v).length
            (if depthIn (looksLike o) (depthSort v) > (dictGet s.st.bins (depthSort v).length).getD 0
              then depthIn (looksLike o) (depthSort v) else (dictGet s.st.bins (depthSort v).length).getD 0)⟩,
        (if depthIn (looksLike o) (depthSort v) > s.st.depth then o.1 else s.addr),
        (if depthIn (looksLike o) (depthSort v) > (dictGet s.st.bins (depthSort v).length).getD 0
          then dictSet s.binAddrs (depthSort v).length o.1 else s.binAddrs)⟩ := by
  have hlen : (depthSort v).length = v.length := (List.perm_insertionSort _ _).length_eq
  have hpos : (depthSort v).length ≠ 0 := by rw [hlen]; simpa using hne
  have hr : (((depthSort v).findIdx (fun c => c.str = o.2.str) + 1 : Nat) : Rat) / ((depthSort v).length : Rat)
      = depthIn (looksLike o) (depthSort v) := by
    rw [findIdx_takeWhile]
    unfold depthIn looksLike
    push_cast
    rfl
  unfold worstTurn
  rw [if_neg hi, hv]
  dsimp only
  rw [if_neg hpos, hr]

/-- What the loop of the depth leaves to be printed. -/
theorem worst_fold (program : List (Nat × List SInst)) : ∀ (original : List (Nat × SInst)) (s s' : WorstSt),
    (original.map (·.1)).Nodup → (∀ o ∈ original, dictGet s.st.program o.1 = dictGet program o.1) →
    original.foldlM worstTurn s = .ok s' →
    let defined := original.filter fun o => !o.2.ignore
    let order := fun a => depthSort ((dictGet program a).getD [])
    let depth := fun o : Nat × SInst => depthIn (looksLike o) (order o.1)
    (s'.st.depth, s'.addr) = defined.foldl (fun (t : Rat × Nat) o => if depth o > t.1 then (depth o, o.1) else t)
      (s.st.depth, s.addr) ∧
    ∀ n, ((dictGet s'.st.bins n).getD 0, dictGet s'.binAddrs n) = (defined.filter fun o => (order o.1).length == n).foldl
      (fun (t : Rat × Option Nat) o => if depth o > t.1 then (depth o, some o.1) else t)
      ((dictGet s.st.bins n).getD 0, dictGet s.binAddrs n) := by
  intro original
  induction original with
  | nil =>
    intro s s' _ _ h
    cases h
    exact ⟨rfl, fun _ => rfl⟩
  | cons o original ih =>
    intro s s' hd hs h
    rw [List.map_cons, List.nodup_cons] at hd
    rw [List.foldlM_cons] at h
    have hs' : ∀ o' ∈ original, dictGet s.st.program o'.1 = dictGet program o'.1 := fun o' ho' => hs o' (List.mem_cons_of_mem _ ho')
    by_cases hi : o.2.ignore = true
    · rw [show worstTurn s o = .ok s by unfold worstTurn; rw [if_pos hi]] at h
      have := ih s s' hd.2 hs' h
      rw [List.filter_cons_of_neg (by simp [hi])]
      exact this
    · obtain ⟨v, hv, hne⟩ : ∃ v, dictGet s.st.program o.1 = some v ∧ v ≠ [] := by
        cases hv : dictGet s.st.program o.1 with
        | none =>
          rw [show worstTurn s o = .error .key by unfold worstTurn; rw [if_neg hi, hv]] at h
          cases h
        | some v =>
          refine ⟨v, rfl, ?_⟩
          rintro rfl
          rw [show worstTurn s o = .error .zeroDiv by unfold worstTurn; rw [if_neg hi, hv]; rfl] at h
          cases h
      rw [worstTurn_eq hi hv hne] at h
      have hpv : dictGet program o.1 = some v := by rw [← hs o List.mem_cons_self]; exact hv
      have hs2 : ∀ o' ∈ original, dictGet (dictSet s.st.program o.1 (depthSort v)) o'.1 = dictGet program o'.1 := by
        intro o' ho'
        rw [dictGet_dictSet, if_neg fun e => hd.1 (List.mem_map.2 ⟨o', ho', e.symm⟩)]
        exact hs' o' ho'
      obtain ⟨g1, g2⟩ := ih _ s' hd.2 hs2 h
      obtain rfl : v = (dictGet program o.1).getD [] := by rw [hpv]; rfl
      dsimp only at g1 g2 ⊢
      rw [List.filter_cons_of_pos (by simp [hi])]
      refine ⟨?_, fun n => ?_⟩
      · rw [g1, List.foldl_cons]
        congr 1
        split <;> rfl
      · rw [g2 n, dictGet_dictSet]
        by_cases hn : (depthSort ((dictGet program o.1).getD [])).length = n
        · subst hn
          rw [if_pos rfl, Option.getD_some, List.filter_cons_of_pos (by simp), List.foldl_cons]
          congr 1
          split
          · rw [dictGet_dictSet, if_pos rfl]
          · rfl
        · rw [if_neg hn, List.filter_cons_of_neg (by simpa using hn)]
          congr 2
          split
          · rw [dictGet_dictSet, if_neg hn]
          · rfl

theorem depthIn_pos (o : Nat × SInst) {v : List SInst} (hv : v ≠ []) : 0 < depthIn (looksLike o) v := by
  unfold depthIn
  have : (0 : Rat) < v.length := by exact_mod_cast List.length_pos_iff.2 hv
  positivity

/-- **C126.**  The lines of an evaluation are printed exactly when the depth is given.  The address
printed is that of the first defined original whose depth is the highest, or 0 if no original is
defined; and for every number of candidates the address printed is that of the first defined original
with so many whose depth is the highest among these.  The depths printed for the numbers of
candidates are those kept. -/
theorem C126_where {R : Type} [Semiring R] (lg : Nat → R) (program : List (Nat × List SInst)) (original : List (Nat × SInst))
    (hd : (original.map (·.1)).Nodup) :
    (∀ e, evaluateLines program original = .error e ↔ highestDepth lg (newQuality R program original) = .error e) ∧
    ∀ lines, evaluateLines program original = .ok lines →
      ∃ (order : Nat → List SInst) (d : Rat) (q : Quality R), let defined := original.filter fun o => !o.2.ignore
        let depth := fun o : Nat × SInst => depthIn (fun c => c.str = o.2.str) (order o.1)
        highestDepth lg (newQuality R program original) = .ok (some d, q) ∧ lines.bins = q.depthBins ∧
        (∀ o ∈ defined, ∃ v, dictGet program o.1 = some v ∧ v ≠ [] ∧ TriedIn (·.score) (·.enc) v (order o.1)) ∧
        (defined = [] ∧ lines.addr = 0 ∧ d = 0 ∨ ∃ o, FirstLargest depth defined o ∧ lines.addr = o.1 ∧ d = depth o) ∧
        ∀ n, (defined.filter fun o => (order o.1).length == n) = [] ∧ dictGet lines.binAddrs n = none ∧ dictGet lines.bins n = none ∨
          ∃ o, FirstLargest depth (defined.filter fun o => (order o.1).length == n) o ∧
            dictGet lines.binAddrs n = some o.1 ∧ dictGet lines.bins n = some (depth o) := by
  have hst := worst_st original { st := ⟨program, 0, []⟩ }
  constructor
  · intro e
    have hq : highestDepth lg (newQuality R program original) = (original.foldlM qualityTurn ⟨program, 0, []⟩).bind fun s =>
        .ok (some s.depth, { countSolutions lg (newQuality R program original) with
          count := none, program := s.program, depth := some s.depth, depthBins := s.bins }) := by
      cases hf : original.foldlM qualityTurn ⟨program, 0, []⟩ with
      | ok s => rw [highestDepth_fold lg hf]; rfl
      | error e =>
        show (do
          let q ← (do
            let s ← original.foldlM qualityTurn ⟨program, 0, []⟩
            Except.ok { countSolutions lg (newQuality R program original) with
              count := none, program := s.program, depth := some s.depth, depthBins := s.bins })
          Except.ok (q.depth, q) : Py (Option Rat × Quality R)) = _
        rw [hf]
        rfl
    rw [hq, ← hst]
    unfold evaluateLines
    cases original.foldlM worstTurn { st := ⟨program, 0, []⟩ } with
    | error e' => simp [bind, Except.bind, Except.map]
    | ok s => simp [bind, Except.bind, Except.map]
  · intro lines h
    unfold evaluateLines at h
    cases hf : original.foldlM worstTurn { st := ⟨program, 0, []⟩ } with
    | error e => rw [hf] at h; cases h
    | ok s =>
      rw [hf] at h hst
      cases h
      have hq := highestDepth_fold lg hst.symm
      obtain ⟨k1, _, k3, _⟩ := quality_fold program original _ s.st hd (fun _ _ => rfl) hst.symm
      obtain ⟨g1, g2⟩ := worst_fold program original _ s hd (fun _ _ => rfl) hf
      have hpos : ∀ o ∈ original.filter fun o => !o.2.ignore,
          0 < depthIn (looksLike o) (depthSort ((dictGet program o.1).getD [])) := by
        intro o ho
        obtain ⟨v, hv, hne⟩ := k1 o ho
        refine depthIn_pos o ?_
        rw [hv, Option.getD_some]
        intro e
        have hl : (depthSort v).length = v.length := (List.perm_insertionSort _ _).length_eq
        rw [e] at hl
        exact hne (List.length_eq_zero_iff.1 hl.symm)
      refine ⟨fun a => depthSort ((dictGet program a).getD []), s.st.depth, _, hq, rfl, ?_, ?_, ?_⟩
      · intro o ho
        obtain ⟨v, hv, hne⟩ := k1 o ho
        refine ⟨v, hv, hne, ?_⟩
        show TriedIn _ _ v (depthSort ((dictGet program o.1).getD []))
        rw [hv]
        exact depthSort_tried v
      · rcases first_largest (fun o : Nat × SInst => depthIn (looksLike o) (depthSort ((dictGet program o.1).getD []))) (·.1)
          (original.filter fun o => !o.2.ignore) 0 0 with ⟨h1, h2⟩ | ⟨o, h1, h2, _⟩
        · have h3 := g1.trans h1
          refine Or.inl ⟨?_, congrArg Prod.snd h3, congrArg Prod.fst h3⟩
          refine List.eq_nil_iff_forall_not_mem.2 fun o ho => ?_
          exact absurd (h2 o ho) (not_le.2 (hpos o ho))
        · have h3 := g1.trans h2
          exact Or.inr ⟨o, h1, congrArg Prod.snd h3, congrArg Prod.fst h3⟩
      · intro n
        rcases first_largest (fun o : Nat × SInst => depthIn (looksLike o) (depthSort ((dictGet program o.1).getD [])))
          (fun o : Nat × SInst => some o.1)
          ((original.filter fun o => !o.2.ignore).filter fun o => (depthSort ((dictGet program o.1).getD [])).length == n) 0 none
          with ⟨h1, h2⟩ | ⟨o, h1, h2, _⟩
        · have h3 := (g2 n).trans h1
          have hnil : ((original.filter fun o => !o.2.ignore).filter
              fun o => (depthSort ((dictGet program o.1).getD [])).length == n) = [] :=
            List.eq_nil_iff_forall_not_mem.2 fun o ho => absurd (h2 o ho) (not_le.2 (hpos o (List.mem_filter.1 ho).1))
          refine Or.inl ⟨hnil, congrArg Prod.snd h3, ?_⟩
          refine (k3 n).trans (if_neg fun ha => ?_)
          obtain ⟨o, ho, hb⟩ := List.any_eq_true.1 ha
          exact List.ne_nil_of_mem (List.mem_filter.2 ⟨ho, hb⟩) hnil
        · have h3 := (g2 n).trans h2
          refine Or.inr ⟨o, h1, congrArg Prod.snd h3, ?_⟩
          have hm : o ∈ (original.filter fun o => !o.2.ignore).filter
              fun o => (depthSort ((dictGet program o.1).getD [])).length == n := by
            obtain ⟨l₁, l₂, e, _⟩ := h1
            rw [e]; simp
          have h4 := k3 n
          rw [if_pos (List.any_eq_true.2 ⟨o, List.mem_filter.1 hm⟩)] at h4
          have h5 := congrArg Prod.fst h3
          dsimp only at h5
          show dictGet s.st.bins n = _
          rw [h4] at h5 ⊢
          exact congrArg some h5

theorem quality_empty : ∀ (original : List (Nat × SInst)) (s s' : DepthSt), s.program = [] →
    original.foldlM qualityTurn s = .ok s' → s'.program = []
  | [], s, s', h, hf => by
      cases hf
      exact h
  | o :: original, s, s', h, hf => by
      rw [List.foldlM_cons] at hf
      by_cases hi : o.2.ignore = true
      · rw [show qualityTurn s o = .ok s by unfold qualityTurn; rw [if_pos hi]] at hf
        exact quality_empty original s s' h hf
      · rw [show qualityTurn s o = .error .key by unfold qualityTurn; rw [if_neg hi, h]; rfl] at hf
        cases hf

/-- **C126**, the report: of a new object it prints how many addresses have so many candidates, the size
and the count, as the object answers when asked for one of them, and does not raise; after the depth
has been asked for it prints the same numbers of addresses and raises `TypeError`, unless the program
is empty. -/
theorem C126_report {R : Type} [Semiring R] (lg : Nat → R) (program : List (Nat × List SInst)) (original : List (Nat × SInst)) :
    ∃ bins, (∀ n, dictGet bins n = if ∃ p ∈ program, p.2.length = n then some ((program.filter fun p => p.2.length = n).length)
        else none) ∧
      (∃ size q₁ q, solutionSize lg (newQuality R program original) = .ok (size, q₁) ∧
        reportQ lg (newQuality R program original) = ([.bins (some bins), .size size,
          .count (solutionCount lg (newQuality R program original)).1], .ok q)) ∧
      ∀ d q, highestDepth lg (newQuality R program original) = .ok (d, q) →
        (program ≠ [] → reportQ lg q = ([.bins (some bins)], .error .type)) ∧
        (program = [] → ∃ q', reportQ lg q = ([.bins (some []), .size (some 0), .count (some 0)], .ok q')) := by
  refine ⟨lengthBins program, fun n => ?_, ?_, ?_⟩
  · rw [lengthBins_eq, dictGet_incKeys]
    have hcount : (program.map (·.2.length)).count n = (program.filter fun p => p.2.length = n).length := by
      rw [List.count_eq_countP, List.countP_map, List.countP_eq_length_filter]
      congr 1
    unfold plus
    rw [hcount]
    by_cases hex : ∃ p ∈ program, p.2.length = n
    · obtain ⟨p, hp, hpn⟩ := hex
      have : (program.filter fun p => p.2.length = n).length ≠ 0 :=
        Nat.pos_iff_ne_zero.1 (List.length_pos_of_mem (List.mem_filter.2 ⟨hp, by simpa using hpn⟩))
      rw [if_neg this, if_pos ⟨p, hp, hpn⟩]
      simp [dictGet]
    · rw [if_neg hex, if_pos]
      · simp [dictGet]
      · rw [List.length_eq_zero_iff, List.filter_eq_nil_iff]
        intro p hp hpn
        exact hex ⟨p, hp, by simpa using hpn⟩
  · have hc : ∀ m, (countSolutions lg (newQuality R program original)).count = some m → 0 ≤ m := by
      intro m h
      have := count_nonneg (lengthBins program) 0 le_rfl
      have h' : List.foldl (fun (amount : Int) (b : Nat × Nat) => amount + (b.1 : Int) ^ b.2) 0 (lengthBins program) = m :=
        Option.some.inj h
      omega
    obtain ⟨m, hm⟩ : ∃ m, (countSolutions lg (newQuality R program original)).count = some m := ⟨_, rfl⟩
    have h0 := hc m hm
    have hs : ∀ q : Quality R, q = newQuality R program original ∨ q = countSolutions lg (newQuality R program original) →
        solutionSize lg q = .ok (if m = 0 then some 0 else (countSolutions lg (newQuality R program original)).size,
          countSolutions lg (newQuality R program original)) := by
      rintro q (rfl | rfl)
      · rw [solutionSize_new, hm]
        by_cases h : m = 0
        · simp [h]
        · rw [if_neg (by simpa using h), if_neg h]
      · unfold solutionSize
        rw [hm]
        dsimp only
        have hneg : ¬ m ≤ -1 := by omega
        simp only [if_neg hneg, hm]
        by_cases h : m = 0
        · simp [h]
        · rw [if_neg (by simpa using h), if_neg h]
    have hcnt : solutionCount lg (countSolutions lg (newQuality R program original)) =
        (some m, countSolutions lg (newQuality R program original)) := by
      unfold solutionCount
      rw [hm, if_neg (by simp; omega)]
      simp only [hm]
    refine ⟨_, _, countSolutions lg (newQuality R program original), hs _ (Or.inl rfl), ?_⟩
    have hb : solutionBins lg (newQuality R program original) =
        (some (lengthBins program), countSolutions lg (newQuality R program original)) := rfl
    unfold reportQ
    simp only [hb, hs _ (Or.inr rfl), hcnt]
    have : (solutionCount lg (newQuality R program original)).1 = some m := hm
    rw [this]
  · intro d q h
    have h' : (do
        let q ← (do
          let s ← original.foldlM qualityTurn ⟨program, 0, []⟩
          Except.ok { countSolutions lg (newQuality R program original) with
            count := none, program := s.program, depth := some s.depth, depthBins := s.bins })
        Except.ok (q.depth, q) : Py (Option Rat × Quality R)) = .ok (d, q) := h
    cases hf : original.foldlM qualityTurn ⟨program, 0, []⟩ with
    | error e => rw [hf] at h'; cases h'
    | ok s =>
      rw [hf] at h'
      cases h'
      refine ⟨fun hne => ?_, ?_⟩
      · have hbins : lengthBins program ≠ [] := by
          intro hnil
          obtain ⟨p, hp⟩ := List.exists_mem_of_ne_nil _ hne
          have h1 := dictGet_incKeys (program.map (·.2.length)) [] p.2.length
          rw [← lengthBins_eq, hnil] at h1
          have h2 : (program.map (·.2.length)).count p.2.length ≠ 0 :=
            Nat.pos_iff_ne_zero.1 (List.count_pos_iff.2 (List.mem_map.2 ⟨p, hp, rfl⟩))
          unfold plus at h1
          rw [if_neg h2] at h1
          simp [dictGet] at h1
        obtain ⟨b, bs, hb⟩ := List.exists_cons_of_ne_nil hbins
        have : (countSolutions lg (newQuality R program original)).bins = some (b :: bs) := congrArg some hb
        unfold reportQ solutionBins
        simp only [this]
        rw [hb]
        rfl
      · rintro rfl
        have hp := quality_empty original ⟨[], 0, []⟩ s rfl hf
        obtain ⟨p, depth, bins⟩ := s
        dsimp only at hp
        subst hp
        exact ⟨countSolutions lg { countSolutions lg (newQuality R [] original) with
          count := none, program := [], depth := some depth, depthBins := bins }, rfl⟩

/-- Two addresses with two candidates and one with one: the original of the last is missing there; the
originals of the first two are both second, and the first of them is named. -/
theorem C126_case :
    ((evaluateLines [(0, [⟨5, 1, false, 1⟩, ⟨7, 2, false, 0⟩]), (4, [⟨5, 1, false, 1⟩, ⟨7, 2, false, 0⟩]), (8, [⟨3, 3, false, 1⟩])]
      [(0, ⟨7, 2, false, 0⟩), (4, ⟨7, 2, false, 0⟩), (8, ⟨3, 4, false, 1⟩)]).map
        fun l => (l.addr, l.binAddrs, l.bins)) = .ok (8, [(2, 0), (1, 8)], [(2, 1), (1, 2)]) ∧
    (reportQ (fun k => (k : Rat)) (newQuality Rat [(0, [⟨5, 1, false, 1⟩, ⟨7, 2, false, 0⟩]), (4, [⟨5, 1, false, 1⟩])] [])).1 =
      [.bins (some [(2, 1), (1, 1)]), .size (some 2), .count (some 3)] := by
  decide +kernel

end Verif
