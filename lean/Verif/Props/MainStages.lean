import Verif.Props.RunStages
import Verif.Props.MainProgram

/-! # C96: exactly which runs of the main program keep the originals -/

namespace Verif
open Spec

theorem sum_le_1024 {l : Program} (h : ∀ q ∈ l, q.2.length ≤ 1024) : (l.map fun q => q.2.length).sum ≤ 1024 * l.length := by
  induction l with
  | nil => simp
  | cons q l ih =>
    have a := h q (by simp)
    have b := ih fun x hx => h x (by simp [hx])
    simp only [List.map_cons, List.sum_cons, List.length_cons]
    omega

/-- **C96, exactly which runs of the main program complete.**  On a listing of at least 97
instructions whose originals are clear among the candidates of the corrupted program: if
applying the rule of a pass over and over never loses an original, the initial solution is
written and can be read, and the run either stops with the division by zero of a report or
writes the final solution and keeps every original.  And a run that completes shows that no
stage loses an original. -/
theorem C96_main_exact (lg : Rat → Int) (hlg : LogOk lg) (functions : List (List CInst)) (h : FunctionListing functions)
    (hbig : 97 ≤ functions.flatten.length) (fuel : Nat) (hf : 1024 * functions.flatten.length + 2 ≤ fuel) :
    ∃ corrupted, Recoverable functions corrupted ∧ (∀ q ∈ corrupted, q.2.length ≤ 1024) ∧
      (∃ q ∈ corrupted, 1 < q.2.length) ∧
      ∀ (dec : Nat → Nat → Answers) (_ : ∀ a e, (dec a e).cand.m.encoding = e)
        (_ : ∀ q ∈ corrupted, ∀ c ∈ functions.flatten, c.address = q.1 → Clear dec c q.2)
        (path : List Char) (disk : Disk),
      ((∀ k, HasOriginals (originalsOf dec functions)
          (afterPasses (originalsOf dec functions) (candidatesOf dec corrupted) k)) →
        ∃ files res, mainProgram dec lg fuel path functions disk = some (disk, files, res) ∧
          (∃ f, files.initial = some f ∧ SolutionFor functions corrupted f) ∧
          ((files.final = none ∧ res = .error .zeroDiv) ∨
           (∃ f left, files.final = some f ∧ SolutionFor functions corrupted f ∧ res = .ok left ∧
            ∀ c ∈ functions.flatten, ∃ l ∈ left, l.1 = c.address ∧ c ∈ l.2))) ∧
      ∀ disk' files left, mainProgram dec lg fuel path functions disk = some (disk', files, .ok left) →
        disk' = disk ∧ ∀ k, HasOriginals (originalsOf dec functions)
          (afterPasses (originalsOf dec functions) (candidatesOf dec corrupted) k) := by
  obtain ⟨corrupted, h1, h2, h3⟩ := main_corrupted lg hlg functions h hbig fuel hf
  have hrec : Recoverable functions corrupted := C96_packets functions h lg fuel _ 2 _ (by omega) [] [3] corrupted h1
    fun q hq => by have := h2 q hq; omega
  refine ⟨corrupted, hrec, h2, h3, fun dec henc hu path disk => ?_⟩
  have hlen : corrupted.length = functions.flatten.length := by
    have := congrArg List.length hrec.same
    rw [List.length_map, (keys_programOf functions).length_eq, List.length_map] at this
    exact this
  have hsum : (corrupted.map fun q => q.2.length).sum + 2 ≤ fuel := by
    have := sum_le_1024 h2
    rw [hlen] at this
    omega
  have hmain : mainProgram dec lg fuel path functions disk =
      (runRecovery dec (fun _ => .ok corrupted) fuel functions).map fun o => (disk, o) := by
    unfold mainProgram
    dsimp only
    rw [programOf_eq functions h.distinct, C95_path_set_later_refuted, sum_length_flatten, h1]
    rfl
  obtain ⟨hA, hB⟩ := C94_exact dec henc (fun _ => .ok corrupted) functions corrupted rfl hrec hu fuel hsum
  rw [hmain]
  constructor
  · intro hst
    obtain ⟨files, res, hr, hcase⟩ := hA hst
    refine ⟨files, res, by rw [hr]; rfl, ?_⟩
    rcases hcase with ⟨hall, _⟩ | ⟨_, h5, h6⟩
    · obtain ⟨q, hq, hlt⟩ := h3
      have := hall q hq
      omega
    · exact ⟨h5, h6⟩
  · intro disk' files left hl
    cases hr : runRecovery dec (fun _ => .ok corrupted) fuel functions with
    | none => rw [hr] at hl; cases hl
    | some o =>
      rw [hr] at hl
      simp only [Option.map_some, Option.some.injEq, Prod.mk.injEq] at hl
      obtain ⟨e1, e2⟩ := hl
      refine ⟨e1.symm, hB files left ?_⟩
      rw [hr, e2]

/-- Where all candidates and all originals agree on their features a pass discards nothing. -/
theorem plain_pass {orig : List (Int × MInst)} {prog : List (Int × List Cand)} (hne : orig ≠ [])
    (hlen : prog.length ≤ orig.length)
    (ho : ∀ q ∈ orig, q.2.ignore = false ∧ q.2.cond = 14 ∧ q.2.opcode = 1 ∧ q.2.used = [1])
    (hp : ∀ t ∈ prog, ∀ x ∈ t.2, x.m.ignore = false ∧ x.m.cond = 14 ∧ x.m.opcode = 1 ∧ x.m.used = [1]) :
    afterPass orig prog = prog := by
  have hall : ∀ f : MInst → Bool, (∀ q ∈ orig, f q.2 = true) → originalsWith orig f = orig.length := by
    intro f hf
    unfold originalsWith
    rw [List.filter_eq_self.2]
    intro q hq
    simp [(ho q hq).1, hf q hq]
  have hpos : 0 < orig.length := List.length_pos_iff.2 hne
  unfold afterPass
  conv_rhs => rw [← List.map_id prog]
  refine List.map_congr_left fun t ht => ?_
  have : (t.2.filter fun x => decide (LeftOver orig prog t.2 x)) = t.2 := by
    rw [List.filter_eq_self]
    intro x hx
    obtain ⟨h1, h2, h3, h4⟩ := hp t ht x hx
    have hc := hall (fun i => decide (i.cond = x.m.cond)) fun q hq => by simp [(ho q hq).2.1, h2]
    have hop := hall (fun i => decide (i.opcode = x.m.opcode)) fun q hq => by simp [(ho q hq).2.2.1, h3]
    have hr := hall (fun i => decide (1 ∈ i.used)) fun q hq => by simp [(ho q hq).2.2.2]
    refine decide_eq_true (Or.inl ⟨h1, ?_, Or.inl ?_⟩)
    · rintro (h | h | ⟨_, r, hr', h⟩)
      · rw [hc] at h; omega
      · rw [hop] at h; omega
      · rw [h4, List.mem_singleton] at hr'
        subst hr'
        rw [hr] at h; omega
    · unfold Forced
      rw [hc]
      exact (List.length_filter_le _ _).trans hlen
  rw [this]; rfl

/-- The decoder `plainDec` meets the assumptions of `C96_main_exact` on every program that can
be recovered, so on the one made from `longListing`. -/
theorem plainDec_stages (functions : List (List CInst)) (corrupted : Program) (h : Recoverable functions corrupted) :
    (∀ q ∈ corrupted, ∀ c ∈ functions.flatten, c.address = q.1 → Clear plainDec c q.2) ∧
    ∀ k, HasOriginals (originalsOf plainDec functions)
      (afterPasses (originalsOf plainDec functions) (candidatesOf plainDec corrupted) k) := by
  refine ⟨fun q _ c _ _ => ⟨(plainDec_meets c q.2).defined, (plainDec_meets c q.2).nodup, (plainDec_meets c q.2).regs,
    (plainDec_meets c q.2).printed⟩, ?_⟩
  have hlen : corrupted.length = functions.flatten.length := by
    have := congrArg List.length h.same
    rw [List.length_map, (keys_programOf functions).length_eq, List.length_map] at this
    exact this
  have h0 : HasOriginals (originalsOf plainDec functions) (candidatesOf plainDec corrupted) := by
    intro q hq
    obtain ⟨c, hc, rfl⟩ := List.mem_map.1 hq
    rw [List.mem_insertionSort] at hc
    have hk : c.address ∈ corrupted.map (·.1) := by
      rw [h.same]
      exact (keys_programOf functions).mem_iff.2 (List.mem_map.2 ⟨c, hc, rfl⟩)
    obtain ⟨q, hq', hqa⟩ := List.mem_map.1 hk
    obtain ⟨i, hi, hie⟩ := h.present q hq' c hc hqa.symm
    refine ⟨q.2.map fun i => (plainDec q.1 i.encoding).cand, ?_, (plainDec q.1 i.encoding).cand,
      List.mem_map.2 ⟨i, hi, rfl⟩, ?_⟩
    · rw [← hqa]
      exact List.mem_map.2 ⟨q, hq', rfl⟩
    · rw [hie]; rfl
  have hst : ∀ k, afterPasses (originalsOf plainDec functions) (candidatesOf plainDec corrupted) k =
      candidatesOf plainDec corrupted := by
    intro k
    induction k with
    | zero => rfl
    | succ k ih =>
      rw [afterPasses, ih]
      refine plain_pass ?_ ?_ ?_ ?_
      · intro he
        have := congrArg List.length he
        simp only [originalsOf, List.length_map, List.length_insertionSort, List.length_nil] at this
        obtain ⟨f, hf⟩ := List.exists_mem_of_ne_nil _ h.some
        have hf' := h.filled f hf
        obtain ⟨c, hc⟩ := List.exists_mem_of_ne_nil _ hf'
        have : c ∈ functions.flatten := List.mem_flatten.2 ⟨f, hf, hc⟩
        have hlt := List.length_pos_of_mem this
        omega
      · simp only [originalsOf, candidatesOf, List.length_map, List.length_insertionSort]
        omega
      · intro q hq
        obtain ⟨c, _, rfl⟩ := List.mem_map.1 hq
        exact ⟨rfl, rfl, rfl, rfl⟩
      · intro t ht x hx
        obtain ⟨q, _, rfl⟩ := List.mem_map.1 ht
        obtain ⟨i, _, rfl⟩ := List.mem_map.1 hx
        exact ⟨rfl, rfl, rfl, rfl⟩
  intro k
  rw [hst]
  exact h0

end Verif
