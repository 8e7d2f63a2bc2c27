import Verif.Props.Recuperator
import Verif.Props.Evidence

/-!
# C138: better evidence never gives a lower score
-/

namespace Verif

namespace Spec

/-- All evidence of the first is at most that of the second: both have evidence of the
same kinds, and each piece of the first is at most the piece of that kind of the
second. -/
def Dominated (s t : List (Evid × Rat)) : Prop :=
  (∀ k p, (k, p) ∈ s → ∃ q, (k, q) ∈ t ∧ p ≤ q) ∧ (∀ k q, (k, q) ∈ t → ∃ p, (k, p) ∈ s ∧ p ≤ q)

/-- Evidence as a candidate keeps it: one probability for each kind. -/
def Evidence (s : List (Evid × Rat)) : Prop :=
  (s.map (·.1)).Nodup ∧ ∀ p ∈ s, 0 ≤ p.2 ∧ p.2 ≤ 1

/-- Candidates judged by the same rules. -/
def SameKind (x y : Cand) : Prop :=
  x.isBranch = y.isBranch ∧ (x.isPush || x.isPop) = (y.isPush || y.isPop)

end Spec

open Spec

theorem evid_mono {s t : List (Evid × Rat)} (hs : Evidence s) (ht : Evidence t) (h : Dominated s t) (k : Evid) (d : Rat) :
    evid s k d ≤ evid t k d := by
  have look : ∀ {u : List (Evid × Rat)} (_ : Evidence u) {p : Rat}, (k, p) ∈ u → dictGet u k = some p :=
    fun hu _ hp => dictGet_of_mem hu.1 hp
  unfold evid
  cases h1 : dictGet s k with
  | some p =>
    obtain ⟨q, hq, hpq⟩ := h.1 k p (dictGet_mem h1)
    rw [look ht hq]
    exact hpq
  | none =>
    cases h2 : dictGet t k with
    | none => exact le_refl _
    | some q =>
      obtain ⟨p, hp, -⟩ := h.2 k q (dictGet_mem h2)
      rw [look hs hp] at h1
      simp at h1

theorem evid_range {s : List (Evid × Rat)} (hs : Evidence s) (k : Evid) (d : Rat) (hd : In01 d) : In01 (evid s k d) := by
  unfold evid
  cases h : dictGet s k with
  | none => exact hd
  | some p => exact hs.2 _ (dictGet_mem h)

theorem last_mono {s t : List (Evid × Rat)} (hs : Evidence s) (ht : Evidence t) (h : Dominated s t) {x y : Cand}
    (hk : SameKind x y) (d : Rat) (hd : In01 d) :
    lastFactor x s d ≤ lastFactor y t d ∧ In01 (lastFactor x s d) ∧ In01 (lastFactor y t d) := by
  have one : In01 1 := by constructor <;> norm_num
  have r := fun k => evid_range hs k
  have r' := fun k => evid_range ht k
  have mul : ∀ k, evid s .pr d * evid s k 1 ≤ evid t .pr d * evid t k 1 := fun k =>
    mul_le_mul (evid_mono hs ht h .pr d) (evid_mono hs ht h k 1) (r k 1 one).1 (r' .pr d hd).1
  unfold lastFactor Cand.isPushPop
  rw [hk.1, hk.2]
  split
  · exact ⟨evid_mono hs ht h .pbd 1, r .pbd 1 one, r' .pbd 1 one⟩
  · split
    · exact ⟨mul .pupo, in01_mul (r _ _ hd) (r _ _ one), in01_mul (r' _ _ hd) (r' _ _ one)⟩
    · exact ⟨mul .prd, in01_mul (r _ _ hd) (r _ _ one), in01_mul (r' _ _ hd) (r' _ _ one)⟩

theorem product_mono {s t : List (Evid × Rat)} (hs : Evidence s) (ht : Evidence t) (h : Dominated s t) {x y : Cand}
    (hk : SameKind x y) (d : Rat) (hd : In01 d) :
    evid s .pc 1 * evid s .po 1 * evid s .pcfg 1 * lastFactor x s d ≤
      evid t .pc 1 * evid t .po 1 * evid t .pcfg 1 * lastFactor y t d ∧
    In01 (evid s .pc 1 * evid s .po 1 * evid s .pcfg 1 * lastFactor x s d) ∧
    In01 (evid t .pc 1 * evid t .po 1 * evid t .pcfg 1 * lastFactor y t d) := by
  have one : In01 1 := by constructor <;> norm_num
  have r := fun k => evid_range hs k 1 one
  have r' := fun k => evid_range ht k 1 one
  have mo := fun k => evid_mono hs ht h k 1
  obtain ⟨l1, l2, l3⟩ := last_mono hs ht h hk d hd
  refine ⟨?_, in01_mul (in01_mul (in01_mul (r _) (r _)) (r _)) l2, in01_mul (in01_mul (in01_mul (r' _) (r' _)) (r' _)) l3⟩
  exact mul_le_mul (mul_le_mul (mul_le_mul (mo _) (mo _) (r _).1 (r' _).1) (mo _) (r _).1 (in01_mul (r' _) (r' _)).1)
    l1 l2.1 (in01_mul (in01_mul (r' _) (r' _)) (r' _)).1

/-- **C138.**  The final score of a candidate is at most that of a candidate of the
same kind that has at least as good evidence. -/
theorem C138_final (s t : List (Evid × Rat)) (x y : Cand) (hs : Evidence s) (ht : Evidence t) (h : Dominated s t)
    (hk : SameKind x y) : ∃ a b, probRules s x = .ok a ∧ probRules t y = .ok b ∧ a ≤ b := by
  obtain ⟨h1, h2, h3⟩ := product_mono hs ht h hk 1 (by constructor <;> norm_num)
  exact ⟨_, _, checkScore_ok h2, checkScore_ok h3, h1⟩

/-- **C138.**  The score that decides which candidates are removed is at most that of
a defined candidate of the same kind that has at least as good evidence. -/
theorem C138_removal (s t : List (Evid × Rat)) (x y : Cand) (hs : Evidence s) (ht : Evidence t) (h : Dominated s t)
    (hk : SameKind x y) (hy : y.m.ignore = false) :
    ∃ a b, removeStep s x = .ok a ∧ removeStep t y = .ok b ∧ a ≤ b := by
  have zero : In01 0 := by constructor <;> norm_num
  have one : In01 1 := by constructor <;> norm_num
  obtain ⟨h1, h2, h3⟩ := product_mono hs ht h hk 0 zero
  have lo : ∀ {u : List (Evid × Rat)}, Evidence u → (u.foldl (fun lo p => if p.2 < lo then p.2 else lo) 2 = 0 ↔ ∃ p ∈ u, p.2 = 0) :=
    fun hu => lo_fold _ 2 (by norm_num) (fun p hp => (hu.2 p hp).1)
  have hzero : (∃ p ∈ t, p.2 = 0) → ∃ p ∈ s, p.2 = 0 := by
    rintro ⟨⟨k, q⟩, hq, rfl⟩
    obtain ⟨p, hp, hle⟩ := h.2 k _ hq
    exact ⟨(k, p), hp, le_antisymm hle (hs.2 _ hp).1⟩
  have hhi : max (max (evid s .pc 1) (evid s .po 1)) (evid s .pr 0) = 1 →
      max (max (evid t .pc 1) (evid t .po 1)) (evid t .pr 0) = 1 := by
    intro he
    apply le_antisymm
    · exact max_le (max_le (evid_range ht _ _ one).2 (evid_range ht _ _ one).2) (evid_range ht _ _ zero).2
    · have := max_le_max (max_le_max (evid_mono hs ht h .pc 1) (evid_mono hs ht h .po 1)) (evid_mono hs ht h .pr 0)
      rw [he] at this
      exact this
  unfold removeStep
  simp only [hy, lo hs, lo ht, ne_eq, Bool.false_eq_true, or_false]
  by_cases z : ∃ p ∈ s, p.2 = 0
  · rw [if_neg (fun hc => hc.2 z), if_pos (.inl z), checkScore_ok zero]
    split
    · exact ⟨_, _, rfl, checkScore_ok one, by norm_num⟩
    · split
      · exact ⟨_, _, rfl, checkScore_ok zero, le_refl _⟩
      · exact ⟨_, _, rfl, checkScore_ok h3, h3.1⟩
  · have z' : ¬ ∃ p ∈ t, p.2 = 0 := fun hc => z (hzero hc)
    by_cases hi : max (max (evid t .pc 1) (evid t .po 1)) (evid t .pr 0) = 1
    · rw [if_pos (show _ ∧ _ from ⟨hi, z'⟩), checkScore_ok one]
      split
      · exact ⟨_, _, checkScore_ok one, rfl, le_refl _⟩
      · split
        · exact ⟨_, _, checkScore_ok zero, rfl, by norm_num⟩
        · exact ⟨_, _, checkScore_ok h2, rfl, h2.2⟩
    · have hi' := fun hc => hi (hhi hc)
      have ht' : ¬ (max (max (evid t .pc 1) (evid t .po 1)) (evid t .pr 0) = 1 ∧ ¬ ∃ p ∈ t, p.2 = 0) :=
        fun hc => hi hc.1
      rw [if_neg (fun hc => hi' hc.1), if_neg z', if_neg ht', checkScore_ok h3]
      split
      · exact ⟨_, _, checkScore_ok zero, rfl, h3.1⟩
      · exact ⟨_, _, checkScore_ok h2, rfl, h1⟩

/-- **C138.**  In a scored program no candidate has a higher score than a defined
candidate of the same kind, at whatever address, that has at least as good evidence;
so pruning never removes the better and keeps the worse for its score. -/
theorem C138_scored (orig : List (Int × MInst)) (fns : Fns) (addrs : List Int)
    (prog r : List (List (RInst Scored))) (hw : Whole fns addrs prog) (hc : Covers orig (bare addrs prog))
    (hu : ∀ q ∈ orig, q.2.ignore = false → q.2.used.Nodup)
    (hr : recuperate (collectMeta {} (orig.map (·.2))) fns addrs prog = .ok r)
    (x y : RInst Scored) (hx : ∃ v ∈ r, x ∈ v) (hy : ∃ v ∈ r, y ∈ v) (hk : SameKind x.data.c y.data.c)
    (hi' : y.data.c.m.ignore = false)
    (hd : Dominated x.data.scores y.data.scores) : x.score ≤ y.score := by
  obtain ⟨r', h1, h2⟩ := recuperate_ok hw hc hu
  rw [hr] at h1
  simp only [Except.ok.injEq] at h1
  subst h1
  have get : ∀ z : RInst Scored, (∃ v ∈ r, z ∈ v) → ∃ z0, ScoredTo orig (bare addrs prog) z0 z := by
    rintro z ⟨v, hv, hz⟩
    obtain ⟨w, _, hwv⟩ := C38_evidence.forall₂_mem_right h2 hv
    obtain ⟨z0, _, hz0⟩ := C38_evidence.forall₂_mem_right hwv hz
    exact ⟨z0, hz0⟩
  have val : ∀ z z0 : RInst Scored, ScoredTo orig (bare addrs prog) z0 z → z.data.c.m.ignore = false →
      Evidence z.data.scores ∧ removeStep z.data.scores z.data.c = .ok z.score := by
    intro z z0 hz hiz
    rw [hz.c] at hiz ⊢
    obtain ⟨e, hv⟩ := hz.after hiz
    exact ⟨⟨e.ok.nodup, e.ok.range⟩, by rw [hv]; exact (removeStep_eq e.ok).1⟩
  obtain ⟨x0, hx0⟩ := get x hx
  obtain ⟨y0, hy0⟩ := get y hy
  cases hi : x.data.c.m.ignore with
  | true =>
    rw [hx0.c] at hi
    rw [hx0.ignored hi]
    exact hy0.range.1
  | false =>
  obtain ⟨e1, s1⟩ := val x x0 hx0 hi
  obtain ⟨e2, s2⟩ := val y y0 hy0 hi'
  obtain ⟨a, b, ha, hb, hab⟩ := C138_removal _ _ _ _ e1 e2 hd hk hi'
  rw [s1] at ha
  rw [s2] at hb
  simp only [Except.ok.injEq] at ha hb
  rw [ha, hb]
  exact hab

/-- The evidence of a candidate. -/
def lowEvidence : List (Evid × Rat) := [(.pc, 1 / 2), (.po, 1 / 2), (.pr, 1 / 2), (.pcfg, 13 / 40)]
/-- Evidence at least as good, and better for condition and registers. -/
def highEvidence : List (Evid × Rat) := [(.pc, 2 / 3), (.po, 1 / 2), (.pr, 3 / 4), (.pcfg, 13 / 40)]

theorem evidence_case : Evidence lowEvidence ∧ Evidence highEvidence ∧ Dominated lowEvidence highEvidence ∧
    ¬ Dominated highEvidence lowEvidence := by
  refine ⟨⟨by decide, ?_⟩, ⟨by decide, ?_⟩, ⟨?_, ?_⟩, ?_⟩
  · decide +kernel
  · decide +kernel
  · intro k p h
    simp only [lowEvidence, highEvidence, List.mem_cons, Prod.mk.injEq, List.not_mem_nil, or_false] at h ⊢
    rcases h with ⟨rfl, rfl⟩ | ⟨rfl, rfl⟩ | ⟨rfl, rfl⟩ | ⟨rfl, rfl⟩
    · exact ⟨2 / 3, by simp, by norm_num⟩
    · exact ⟨1 / 2, by simp, by norm_num⟩
    · exact ⟨3 / 4, by simp, by norm_num⟩
    · exact ⟨13 / 40, by simp, by norm_num⟩
  · intro k p h
    simp only [lowEvidence, highEvidence, List.mem_cons, Prod.mk.injEq, List.not_mem_nil, or_false] at h ⊢
    rcases h with ⟨rfl, rfl⟩ | ⟨rfl, rfl⟩ | ⟨rfl, rfl⟩ | ⟨rfl, rfl⟩
    · exact ⟨1 / 2, by simp, by norm_num⟩
    · exact ⟨1 / 2, by simp, by norm_num⟩
    · exact ⟨1 / 2, by simp, by norm_num⟩
    · exact ⟨13 / 40, by simp, by norm_num⟩
  · intro h
    obtain ⟨q, hq, hle⟩ := h.1 .pr (3 / 4) (by simp [highEvidence])
    simp only [lowEvidence, List.mem_cons, Prod.mk.injEq, List.not_mem_nil, or_false] at hq
    rcases hq with ⟨h, _⟩ | ⟨h, _⟩ | ⟨_, rfl⟩ | ⟨h, _⟩
    · cases h
    · cases h
    · norm_num at hle
    · cases h

/-- The hypotheses are met with scores that differ; with the better evidence the
score is strictly higher.  A push with the evidence of an ordinary instruction that
it may not have is of another kind, and its score is zero whatever its evidence. -/
theorem C138_case :
    removeStep lowEvidence (ordinary 1 14 2 [1]) = .ok (13 / 320) ∧
    removeStep highEvidence (ordinary 2 14 2 [1]) = .ok (13 / 160) ∧
    probRules lowEvidence (ordinary 1 14 2 [1]) = .ok (13 / 320) ∧
    probRules highEvidence (ordinary 2 14 2 [1]) = .ok (13 / 160) ∧
    SameKind (ordinary 1 14 2 [1]) (ordinary 2 14 2 [1]) ∧ ¬ SameKind (ordinary 1 14 2 [1]) (pushCand 2 14 [13]) ∧
    removeStep (highEvidence.filter fun p => decide (p.1 ≠ .pr)) (pushCand 2 14 [13]) = .ok 0 := by
  refine ⟨by decide +kernel, by decide +kernel, by decide +kernel, by decide +kernel, by unfold SameKind; decide,
    by unfold SameKind; decide, by decide +kernel⟩

/-- The theorem applies to a recovery in which the two scores differ. -/
theorem C138_scored_case :
    (recuperate (collectMeta {} (pushOrig.map (·.2))) [(0, (0, 8))] [0, 4, 8] pushProg).toOption.map
      (List.map (List.map fun y => (y.score, y.data.scores.map (·.2)))) =
    some [[(0, [2 / 3, 1 / 2, 1 / 2]), (1 / 8, [1 / 2, 1 / 2, 1 / 2])],
      [(13 / 240000, [2 / 3, 1 / 2, 1 / 2, 1 / 1000, 13 / 40]), (0, [2 / 3, 1 / 2, 1 / 2, 13 / 40])],
      [(1, [1 / 2, 1, 1, 1 / 1000, 1 / 1000]), (1, [2 / 3, 1, 1, 1 / 1000, 13 / 20])]] := by decide +kernel

end Verif
