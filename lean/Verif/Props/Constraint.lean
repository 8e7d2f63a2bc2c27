import Verif.Proof.Constraint
import Verif.Props.Metadata

/-! # Properties C44–C47: the count constraint and the built problem -/

namespace Verif
open Spec

variable {V I K : Type} [DecidableEq V] [DecidableEq I] [DecidableEq K]

/-- C44. On an assignment of all variables the constraint raises nothing,
leaves the domains alone and answers whether every count is exactly right. -/
theorem C44_exact (f : CountField I K) (ex : List (K × Int)) (vs : List V) (doms : V → List I)
    (a : V → Option I) (forward : Bool) (hc : ∀ v ∈ vs, a v ≠ none) :
    ∃ b, constraintCall f ex vs doms a forward = .ok (b, doms) ∧
      (b = true ↔ Satisfies f.ignore f.field ex vs a) := by
  have hm : (sumFields f ex vs a).2 = false := by
    rw [← Bool.not_eq_true, sumFields_missing]
    rintro ⟨v, hv, h⟩
    exact hc v hv h
  unfold constraintCall
  simp only [hm, Bool.and_false, Bool.false_eq_true, if_false, bind, Except.bind, if_true]
  by_cases ho : overflows ex (sumFields f ex vs a).1 = true
  · refine ⟨false, by simp [ho], ?_⟩
    constructor
    · simp
    · intro h; rw [overflows_not f ex vs a h] at ho; exact ho
  · simp only [ho, Bool.false_eq_true, if_false]
    obtain ⟨b, h1, h2⟩ := finalCheck_complete f ex vs a (by simpa using ho)
    exact ⟨b, by rw [h1], h2⟩

/-- C45. A rejected partial assignment has no satisfying completion within the
domains, whether or not the call checks forward. -/
theorem C45_sound (f : CountField I K) (ex : List (K × Int)) (vs : List V) (doms doms' : V → List I)
    (part : V → Option I) (forward : Bool) (hn : ∀ v, (doms v).Nodup)
    (h : constraintCall f ex vs doms part forward = .ok (false, doms'))
    (full : V → Option I) (hf : Completes vs doms part full) :
    ¬ Satisfies f.ignore f.field ex vs full := by
  unfold constraintCall at h
  simp only at h
  by_cases ho : overflows ex (sumFields f ex vs part).1 = true
  · exact overflow_hopeless hf ho
  · simp only [ho, Bool.false_eq_true, if_false, bind, Except.bind] at h
    simp only [Bool.not_eq_true] at ho
    by_cases hb : (forward && (sumFields f ex vs part).2) = true
    · simp only [hb, if_true] at h
      rcases forwardCheck_eq f ex vs part vs doms hn with g | ⟨b, d, g, _, _, _, g5, g6, _⟩
      · rw [g] at h; simp at h
      · rw [g] at h
        simp only at h
        by_cases hbb : b = true
        · simp only [Bool.and_eq_true] at hb
          rw [hb.2, finalCheck_missing f ex vs part ho] at h
          simp [hbb] at h
        · obtain ⟨w, hw, hp, he⟩ := g6 (by simpa using hbb)
          obtain ⟨i, hi, h1⟩ := hf w hw
          rw [hp] at h1
          exact violates_hopeless hf hw hp hi (g5 w i h1 (by rw [he]; simp))
    · simp only [hb, Bool.false_eq_true, if_false, if_true] at h
      rcases hmm : (sumFields f ex vs part).2 with _ | _
      · rw [hmm] at h
        obtain ⟨b, h1, h2⟩ := finalCheck_complete f ex vs part ho
        rw [h1] at h
        simp only [Except.ok.injEq, Prod.mk.injEq] at h
        intro hs
        have hs' : Satisfies f.ignore f.field ex vs part := by
          intro k
          rw [← hs k, occurrences_eq, occurrences_eq]
          congr 2
          apply List.map_congr_left
          intro v hv
          obtain ⟨i, hi, h3⟩ := hf v hv
          rcases hp : part v with _ | j
          · have := (sumFields_missing f ex vs part).2 ⟨v, hv, hp⟩
            rw [hmm] at this; simp at this
          · rw [hp] at h3; simp only at h3; rw [hi, h3]
        rw [h2.2 hs'] at h
        simp at h
      · rw [hmm, finalCheck_missing f ex vs part ho] at h
        simp at h

/-- C46, the part that holds for every call that does not raise: a forward
check only takes values away, only from unassigned variables, and only values
that no satisfying completion uses; when it accepts, each remaining value of an
unassigned variable is one that does not exceed any count by itself. -/
theorem C46_hides_hopeless_partial (f : CountField I K) (ex : List (K × Int)) (vs : List V)
    (doms doms' : V → List I) (part : V → Option I) (forward b : Bool) (hn : ∀ v, (doms v).Nodup)
    (h : constraintCall f ex vs doms part forward = .ok (b, doms')) :
    (∀ v, (doms' v).Sublist (doms v)) ∧
    (∀ v, doms' v ≠ doms v → v ∈ vs ∧ part v = none) ∧
    (∀ v, ∀ x ∈ doms v, x ∉ doms' v → ∀ full, Completes vs doms part full → full v = some x →
      ¬ Satisfies f.ignore f.field ex vs full) ∧
    (forward = true → b = true → ∀ v ∈ vs, part v = none → doms' v ≠ [] ∧
      ∀ x ∈ doms' v, f.ignore x = false → ∀ k ∈ f.field x,
        (occurrences f.ignore f.field vs part k : Int) + 1 ≤ required ex k) := by
  unfold constraintCall at h
  simp only at h
  by_cases ho : overflows ex (sumFields f ex vs part).1 = true
  · simp only [ho, if_true, Except.ok.injEq, Prod.mk.injEq] at h
    obtain ⟨rfl, rfl⟩ := h
    exact ⟨fun v => List.Sublist.refl _, by simp, fun v x h1 h2 => absurd h1 h2, by simp⟩
  · simp only [ho, Bool.false_eq_true, if_false, bind, Except.bind] at h
    simp only [Bool.not_eq_true] at ho
    by_cases hb : (forward && (sumFields f ex vs part).2) = true
    · simp only [hb, if_true] at h
      rcases forwardCheck_eq f ex vs part vs doms hn with g | ⟨b', d, g, g2, g3, _, g5, g6, g7⟩
      · rw [g] at h; simp at h
      · have hd : d = doms' ∧ (b = true → b' = true) := by
          rw [g] at h
          simp only at h
          by_cases hbb : b' = true
          · simp only [Bool.and_eq_true] at hb
            rw [hb.2, finalCheck_missing f ex vs part ho] at h
            simp only [hbb, if_true, Except.ok.injEq, Prod.mk.injEq] at h
            exact ⟨h.2, fun _ => hbb⟩
          · simp only [hbb, Bool.false_eq_true, if_false, Except.ok.injEq, Prod.mk.injEq] at h
            exact ⟨h.2, fun hb => absurd (h.1.trans hb) (by simp)⟩
        obtain ⟨rfl, hbb⟩ := hd
        have hw : ∀ v, d v ≠ doms v → v ∈ vs ∧ part v = none := by
          intro v hv
          rcases g2 v with h1 | h1
          · exact absurd h1 hv
          · exact h1
        refine ⟨g3, hw, ?_, ?_⟩
        · intro v x hx hx' full hf hfx
          have hne : d v ≠ doms v := fun h => hx' (h ▸ hx)
          exact violates_hopeless hf (hw v hne).1 (hw v hne).2 hfx (g5 v x hx hx')
        · intro _ hbt v hv hp
          obtain ⟨h1, h2⟩ := g7 (hbb hbt) v hv hp
          refine ⟨h1, fun x hx hi k hk => ?_⟩
          have h3 := h2 x hx
          simp only [violates, hi, Bool.not_false, Bool.true_and, List.any_eq_false] at h3
          have h4 := h3 k hk
          unfold exceeds at h4
          rw [required_eq]
          rcases he : dictGet ex k with _ | e <;> rw [he] at h4 <;> simp at h4 ⊢
          omega
    · simp only [hb, Bool.false_eq_true, if_false, if_true] at h
      have hd : doms = doms' := by
        rcases hx : finalCheck ex (sumFields f ex vs part).1 (sumFields f ex vs part).2 with e | bb
        · rw [hx] at h; simp at h
        · rw [hx] at h; simp only [Except.ok.injEq, Prod.mk.injEq] at h; exact h.2
      subst hd
      refine ⟨fun v => List.Sublist.refl _, by simp, fun v x h1 h2 => absurd h1 h2, ?_⟩
      intro hfw _ v hv hp
      have := (sumFields_missing f ex vs part).2 ⟨v, hv, hp⟩
      rw [hfw, this] at hb; simp at hb

/-- C46, the part about failing: the call raises nothing when no value exceeds
more than one count. -/
theorem C46_no_failure_partial (f : CountField I K) (ex : List (K × Int)) (vs : List V)
    (doms : V → List I) (part : V → Option I) (forward : Bool) (hn : ∀ v, (doms v).Nodup)
    (h1 : ∀ v, ∀ x ∈ doms v, f.ignore x = false →
      (f.field x).countP (fun k =>
        decide (required ex k < (occurrences f.ignore f.field vs part k : Int) + 1)) ≤ 1) :
    ∃ r, constraintCall f ex vs doms part forward = .ok r := by
  unfold constraintCall
  simp only
  by_cases ho : overflows ex (sumFields f ex vs part).1 = true
  · simp [ho]
  · simp only [ho, Bool.false_eq_true, if_false, bind, Except.bind]
    simp only [Bool.not_eq_true] at ho
    have hex : ∀ k, exceeds f ex vs part k =
        decide (required ex k < (occurrences f.ignore f.field vs part k : Int) + 1) := by
      intro k
      rw [required_eq]
      unfold exceeds
      rcases he : dictGet ex k with _ | e
      · simp
      · simp
    have hfin : ∀ m, (m = true → (sumFields f ex vs part).2 = true) →
        ∃ bb, finalCheck ex (sumFields f ex vs part).1 m = .ok bb := by
      intro m _
      cases m with
      | true => exact ⟨_, finalCheck_missing f ex vs part ho⟩
      | false =>
        obtain ⟨bb, h2, _⟩ := finalCheck_complete f ex vs part ho
        exact ⟨bb, h2⟩
    obtain ⟨bb, hbb⟩ := hfin (sumFields f ex vs part).2 id
    by_cases hb : (forward && (sumFields f ex vs part).2) = true
    · simp only [hb, if_true]
      rcases forwardCheck_eq f ex vs part vs doms hn with g | ⟨b', d, g, _⟩
      · refine absurd g (forwardCheck_ok f ex vs part vs doms hn ?_)
        intro w x hx hi
        have := h1 w x hx hi
        rwa [show (fun k => decide (required ex k < (occurrences f.ignore f.field vs part k : Int) + 1))
          = exceeds f ex vs part from (funext hex).symm] at this
      · rw [g]
        simp only [hbb]
        split <;> simp
    · simp only [hb, Bool.false_eq_true, if_false, if_true, hbb]
      simp

/-- The constraints on conditions and on opcodes, which count one field value
per instruction, never raise. -/
theorem C46_single_field (f : CountField I K) (ex : List (K × Int)) (vs : List V)
    (doms : V → List I) (part : V → Option I) (forward : Bool) (hn : ∀ v, (doms v).Nodup)
    (h1 : ∀ x, (f.field x).length ≤ 1) :
    ∃ r, constraintCall f ex vs doms part forward = .ok r :=
  C46_no_failure_partial f ex vs doms part forward hn fun _ x _ _ =>
    le_trans List.countP_le_length (h1 x)

/-! ### A concrete problem: two addresses, storages 1 and 2 each to be used once -/

/-- An instruction using the given storages. -/
def usesInst (e : Nat) (l : List Nat) : MInst := ⟨false, e, 14, 7, l, [], []⟩

def exDomains : Nat → List MInst := fun v =>
  if v = 0 then [usesInst 0 [1], usesInst 1 [2], usesInst 2 [1, 2]]
  else if v = 4 then [usesInst 3 [2], usesInst 4 [1]] else []

/-- C44: the assignment of storages 1 and 2 is accepted, 1 and 1 is not. -/
example : (constraintCall storageField [(1, 1), (2, 1)] [0, 4] exDomains
      (fun v => if v = 0 then some (usesInst 0 [1]) else some (usesInst 3 [2])) true).map (·.1)
    = .ok true ∧
    (constraintCall storageField [(1, 1), (2, 1)] [0, 4] exDomains
      (fun v => if v = 0 then some (usesInst 0 [1]) else some (usesInst 4 [1])) true).map (·.1)
    = .ok false := by decide

/-- C45, C46: choosing storage 1 at address 0 hides storage 1 at address 4. -/
example : (constraintCall storageField [(1, 1), (2, 1)] [0, 4] exDomains
      (fun v => if v = 0 then some (usesInst 0 [1]) else none) true).map (fun r => (r.1, r.2 4))
    = .ok (true, [usesInst 3 [2]]) := by decide

/-- C45: with both storages used up at address 0 nothing is left for address 4
and the assignment is rejected. -/
example : (constraintCall storageField [(1, 1), (2, 1)] [0, 4] exDomains
      (fun v => if v = 0 then some (usesInst 2 [1, 2]) else none) true).map (fun r => (r.1, r.2 4))
    = .ok (false, []) := by decide

/-- The hypotheses of C45 and C46 hold of this problem. -/
example : (∀ v, (exDomains v).Nodup) ∧
    Completes [0, 4] exDomains (fun v => if v = 0 then some (usesInst 2 [1, 2]) else none)
      (fun v => if v = 0 then some (usesInst 2 [1, 2]) else some (usesInst 3 [2])) := by
  constructor
  · intro v
    unfold exDomains
    split
    · decide
    · split <;> decide
  · intro v hv
    simp only [List.mem_cons, List.not_mem_nil, or_false] at hv
    rcases hv with rfl | rfl
    · exact ⟨_, rfl, rfl⟩
    · exact ⟨_, rfl, show usesInst 3 [2] ∈ exDomains 4 by decide⟩

/-- C46 fails: when the value of an unassigned variable exceeds two counts at
once it is hidden twice, and the second time raises `ValueError`.  Here
address 4 holds storage 1 and 2, and the candidate at address 0 uses both. -/
theorem C46_refuted :
    (constraintCall storageField [(1, 1), (2, 1)] [0, 4] exDomains
      (fun v => if v = 4 then some (usesInst 5 [1, 2]) else none) true).map (·.1)
    = .error .value := by decide

/-- In general: a value of the first unassigned variable that exceeds two
counts makes the forward check raise. -/
theorem C46_fails_in_general (f : CountField I K) (ex : List (K × Int)) (v : V) (vs : List V)
    (doms : V → List I) (part : V → Option I) (hp : part v = none) (hn : (doms v).Nodup)
    (ho : ∀ k, match dictGet ex k with
      | none => occurrences f.ignore f.field (v :: vs) part k = 0
      | some e => (occurrences f.ignore f.field (v :: vs) part k : Int) ≤ e)
    (x : I) (hx : x ∈ doms v) (hi : f.ignore x = false)
    (h2 : 2 ≤ (f.field x).countP fun k =>
      decide (required ex k < (occurrences f.ignore f.field (v :: vs) part k : Int) + 1)) :
    constraintCall f ex (v :: vs) doms part true = .error .value := by
  have ho := (overflows_false f ex (v :: vs) part).2 ho
  have hm := (sumFields_missing f ex (v :: vs) part).2 ⟨v, by simp, hp⟩
  have hex : exceeds f ex (v :: vs) part = fun k =>
      decide (required ex k < (occurrences f.ignore f.field (v :: vs) part k : Int) + 1) := by
    funext k
    rw [required_eq]
    unfold exceeds
    rcases he : dictGet ex k with _ | e
    · simp
    · simp
  have hh := (hideValues_eq f ex (v :: vs) part (doms v) (doms v)).2.2 x hx hi (by rw [hex]; exact h2) hn
  have hf : forwardCheck f (sumFields f ex (v :: vs) part).1 ex part (v :: vs) doms = .error .value := by
    simp only [forwardCheck, hp, hh, bind, Except.bind]
  unfold constraintCall
  simp only [ho, Bool.false_eq_true, if_false, hm, Bool.and_self, if_true, hf, bind, Except.bind]

/-! ### C47 -/

theorem dictGet_asInt (d : List (K × Nat)) (k : K) :
    dictGet (asInt d) k = (dictGet d k).map fun n => (n : Int) := by
  induction d with
  | nil => simp [asInt, dictGet_nil]
  | cons p t ih =>
    simp only [asInt, List.map_cons, dictGet_cons] at ih ⊢
    split
    · rfl
    · exact ih

/-- An assignment by a dictionary counts like the list of the values. -/
theorem occurrences_dict (ig : MInst → Bool) (field : MInst → List K) (orig : List (Nat × MInst))
    (hn : (orig.map (·.1)).Nodup) (vs : List Nat) (hp : vs.Perm (orig.map (·.1))) (k : K) :
    occurrences ig field vs (dictGet orig) k =
      ((orig.map (·.2)).map fun i => if ig i then 0 else (field i).count k).sum := by
  unfold occurrences
  rw [List.Perm.sum_eq (hp.map _), List.map_map, List.map_map]
  congr 1
  apply List.map_congr_left
  intro p hpm
  simp only [Function.comp]
  rw [dictGet_of_mem hn (show (p.1, p.2) ∈ orig from hpm)]

theorem sum_defined (orig : List MInst) (g : MInst → Nat) :
    (orig.map fun i => if i.ignore then 0 else g i).sum = ((defined orig).map g).sum := by
  induction orig with
  | nil => rfl
  | cons x t ih =>
    unfold defined at *
    by_cases h : x.ignore = true
    · simp [h, ih]
    · simp [h, ih]

theorem countP_sum (l : List MInst) (p : MInst → Bool) :
    (l.map fun i => if p i then 1 else 0).sum = l.countP p := by
  induction l with
  | nil => rfl
  | cons x t ih =>
    simp only [List.map_cons, List.sum_cons, List.countP_cons, ih]
    omega

/-- C47. Let `orig` be the original program, each instruction with its
address, and let the candidates at each of these addresses contain the original
instruction. Then choosing the original everywhere is accepted by all three
constraints of the problem built from the collected metadata. -/
theorem C47_original_is_solution (orig : List (Nat × MInst)) (hn : (orig.map (·.1)).Nodup)
    (program : List (Nat × List MInst)) (hk : (program.map (·.1)).Perm (orig.map (·.1)))
    (hc : ∀ a cands, (a, cands) ∈ program → ∀ i, (a, i) ∈ orig → i ∈ cands) :
    (buildProblem program (collectMeta {} (orig.map (·.2)))).vars = program ∧
    (∀ a i, dictGet orig a = some i →
      ∃ cands, dictGet (buildProblem program (collectMeta {} (orig.map (·.2)))).vars a = some cands ∧
        i ∈ cands) ∧
    problemAnswers (buildProblem program (collectMeta {} (orig.map (·.2)))) (dictGet orig)
      = [.ok true, .ok true, .ok true] := by
  have hvars : (buildProblem program (collectMeta {} (orig.map (·.2)))).vars = program := by
    unfold buildProblem
    rw [List.filter_eq_self]
    intro p hp
    obtain ⟨q, hq, he⟩ := List.mem_map.1 (hk.subset (List.mem_map_of_mem (f := (·.1)) hp))
    have := hc p.1 p.2 hp q.2 (by rw [← he]; exact hq)
    simpa using List.length_pos_of_mem this
  have hnp : (program.map (·.1)).Nodup := hk.nodup_iff.2 hn
  refine ⟨hvars, ?_, ?_⟩
  · intro a i ha
    rw [hvars]
    have hm := dictGet_mem ha
    obtain ⟨p, hp, he⟩ := List.mem_map.1 (hk.symm.subset (List.mem_map_of_mem (f := (·.1)) hm))
    refine ⟨p.2, dictGet_of_mem hnp (by rw [← show p.1 = a from he]; exact hp), ?_⟩
    exact hc p.1 p.2 hp i (by rw [show p.1 = a from he]; exact hm)
  · unfold problemAnswers
    simp only [hvars]
    obtain ⟨c1, c2, c3, _, _⟩ := C35_counts (orig.map (·.2))
    have hall : ∀ v ∈ program.map (·.1), dictGet orig v ≠ none := by
      intro v hv h
      exact (dictGet_eq_none _ _).1 h (hk.subset hv)
    have key : ∀ {L : Type} [DecidableEq L] (f : CountField MInst L) (d : List (L × Nat)) (doms),
        f.ignore = MInst.ignore →
        (∀ k, (((defined (orig.map (·.2))).map fun i => (f.field i).count k).sum : Int) =
          (((dictGet d k).getD 0 : Nat) : Int)) →
        (constraintCall f (asInt d) (program.map (·.1)) doms (dictGet orig) false).map (·.1) =
          .ok true := by
      intro L _ f d doms hi hd
      obtain ⟨b, h1, h2⟩ := C44_exact f (asInt d) (program.map (·.1)) doms (dictGet orig) false hall
      have : b = true := by
        rw [h2]
        intro k
        rw [occurrences_dict _ _ orig hn _ hk, hi, sum_defined, required_eq, dictGet_asInt]
        have := hd k
        rw [this]
        rcases dictGet d k with _ | n <;> rfl
      rw [h1, this]; rfl
    have one : ∀ {L : Type} [DecidableEq L] (g : MInst → L) (k : L),
        ((defined (orig.map (·.2))).map fun i => [g i].count k).sum =
          (defined (orig.map (·.2))).countP fun x => decide (g x = k) := by
      intro L _ g k
      rw [← countP_sum]
      congr 1
      apply List.map_congr_left
      intro i _
      simp [List.count_singleton]
    have e1 := key condField (collectMeta {} (orig.map (·.2))).conditionCnt
      (fun a => (dictGet program a).getD []) rfl (by
        intro k
        show (((defined (orig.map (·.2))).map fun i => [i.cond].count k).sum : Int) = _
        rw [one, c1 k]
        split
        · next h => rw [h]; rfl
        · rfl)
    have e2 := key opcodeField (collectMeta {} (orig.map (·.2))).instructionCnt
      (fun a => (dictGet program a).getD []) rfl (by
        intro k
        show (((defined (orig.map (·.2))).map fun i => [i.opcode].count k).sum : Int) = _
        rw [one, c2 k]
        split
        · next h => rw [h]; rfl
        · rfl)
    have e3 := key storageField (collectMeta {} (orig.map (·.2))).storageCnt
      (fun a => (dictGet program a).getD []) rfl (by
        intro k
        show ((((defined (orig.map (·.2))).map fun i => i.used.count k).sum : Nat) : Int) = _
        rw [c3 k]
        split
        · next h => rw [h]; rfl
        · rfl)
    simp only [List.cons.injEq, and_true]
    exact ⟨e1, e2, e3⟩

/-- A program of two instructions with two candidates each meets the
hypotheses of C47, and the constraints do reject another choice. -/
example :
    let orig := [(0, usesInst 0 [1]), (4, usesInst 3 [2])]
    let program := [(0, [usesInst 1 [2], usesInst 0 [1]]), (4, [usesInst 3 [2], usesInst 4 [1]])]
    problemAnswers (buildProblem program (collectMeta {} (orig.map (·.2)))) (dictGet orig)
      = [.ok true, .ok true, .ok true] ∧
    problemAnswers (buildProblem program (collectMeta {} (orig.map (·.2))))
        (fun a => if a = 0 then some (usesInst 1 [2]) else some (usesInst 3 [2]))
      = [.ok true, .ok true, .ok false] := by decide +kernel

end Verif
