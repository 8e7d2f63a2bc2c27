import Verif.Spec.PassRule
import Verif.Props.Evidence

/-!
# C42: exactly which candidates one pass of the recovery discards
-/

namespace Verif
open Spec

theorem originalsWith_eq (orig : List (Int × MInst)) (f : MInst → Bool) : originalsWith orig f = origWith orig f := by
  unfold originalsWith origWith defined
  rw [List.countP_filter, List.countP_map, List.countP_eq_length_filter]
  congr 1
  apply List.filter_congr
  intro q _
  exact Bool.and_comm _ _

theorem placesWith_eq (prog : CProg) (f : MInst → Bool) : placesWith prog f = addressesWith (views prog) f := by
  unfold placesWith addressesWith views
  rw [List.countP_map, List.countP_eq_length_filter]
  congr 1
  apply List.filter_congr
  intro q _
  simp [List.any_map, Function.comp_def]

theorem isPushPop_false {x : Cand} : (x.isBranch || x.isPushPop) = false ↔ Ordinary x := by
  unfold Ordinary Cand.isPushPop
  simp

theorem evid_none {s : List (Evid × Rat)} {k : Evid} {d : Rat} (h : dictGet s k = none) : evid s k d = d := by
  unfold evid; rw [h]; rfl

/-- A share is one exactly if the feature is forced. -/
theorem share_one {orig : List (Int × MInst)} {prog : CProg} (hc : Covers orig prog) (f : MInst → Bool)
    (hp : 0 < addressesWith (views prog) f) :
    ((origWith orig f : Nat) : Rat) / ((addressesWith (views prog) f : Nat) : Rat) = 1 ↔ Forced orig prog f := by
  have hp' : (0 : Rat) < (addressesWith (views prog) f : Nat) := by exact_mod_cast hp
  have hle := (cover_count hc f).1
  rw [div_eq_one_iff_eq hp'.ne']
  unfold Forced
  rw [placesWith_eq, originalsWith_eq]
  constructor
  · intro h
    have : origWith orig f = addressesWith (views prog) f := by exact_mod_cast h
    omega
  · intro h
    have : origWith orig f = addressesWith (views prog) f := le_antisymm hle h
    exact_mod_cast this

theorem share_zero {orig : List (Int × MInst)} {prog : CProg} (f : MInst → Bool)
    (hp : 0 < addressesWith (views prog) f) :
    ((origWith orig f : Nat) : Rat) / ((addressesWith (views prog) f : Nat) : Rat) = 0 ↔ originalsWith orig f = 0 := by
  have hp' : (0 : Rat) < (addressesWith (views prog) f : Nat) := by exact_mod_cast hp
  rw [div_eq_zero_iff, originalsWith_eq]
  constructor
  · rintro (h | h)
    · exact_mod_cast h
    · exact absurd h hp'.ne'
  · intro h
    left
    exact_mod_cast h

/-- The score of a defined candidate of the program. -/
theorem step_exact {orig : List (Int × MInst)} {prog : CProg} (hc : Covers orig prog) {a : Int} {cs : List Cand}
    (hq : (a, cs) ∈ prog) {x : Cand} (hx : x ∈ cs) (hi : x.m.ignore = false) {s : List (Evid × Rat)}
    (h : EvAfter orig prog x s) :
    (stepValue s x = 1 ↔ Wins orig prog x) ∧ (stepValue s x ≠ 0 ↔ Scores orig prog x) := by
  have p1 : 0 < addressesWith (views prog) fun i => decide (i.cond = x.m.cond) :=
    addressesWith_pos hq hx hi (by simp)
  have p2 : 0 < addressesWith (views prog) fun i => decide (i.opcode = x.m.opcode) :=
    addressesWith_pos hq hx hi (by simp)
  have p3 : ∀ r ∈ x.m.used, 0 < addressesWith (views prog) fun i => decide (r ∈ i.used) :=
    fun r hr => addressesWith_pos hq hx hi (by simpa using hr)
  have hcert : (evid s .pc 1 = 1 ∨ evid s .po 1 = 1 ∨ evid s .pr 0 = 1) ↔ Sure orig prog x := by
    unfold Sure
    rw [evid_some h.pc, evid_some h.po, share_one hc _ p1, share_one hc _ p2]
    have : evid s .pr 0 = 1 ↔ Ordinary x ∧ ∀ r ∈ x.m.used, Forced orig prog fun i => r ∈ i.used := by
      cases hb : (x.isBranch || x.isPushPop) with
      | true =>
        rw [evid_none (h.ok.pr hb)]
        constructor
        · intro h0; norm_num at h0
        · rintro ⟨ho, _⟩
          rw [isPushPop_false.2 ho] at hb
          simp at hb
      | false =>
        obtain ⟨v, hv, _, hv1⟩ := h.pr hb
        rw [evid_some hv, hv1]
        constructor
        · intro hr
          refine ⟨isPushPop_false.1 hb, fun r hm => ?_⟩
          unfold Forced
          rw [placesWith_eq, originalsWith_eq]
          exact hr r hm
        · rintro ⟨_, hr⟩ r hm
          have := hr r hm
          unfold Forced at this
          rwa [placesWith_eq, originalsWith_eq] at this
    rw [this]
  have hzero : (∃ p ∈ s, p.2 = 0) ↔ SpokenAgainst orig x := by
    unfold SpokenAgainst
    rw [← share_zero (prog := prog) _ p1, ← share_zero (prog := prog) _ p2]
    constructor
    · rintro ⟨p, hp, h0⟩
      have hg := dictGet_of_mem h.ok.nodup hp
      rcases h.ok.zero p hp h0 with hk | hk | hk
      · left
        rw [hk, h.pc] at hg
        simp only [Option.some.injEq] at hg
        rw [hg, h0]
      · right; left
        rw [hk, h.po] at hg
        simp only [Option.some.injEq] at hg
        rw [hg, h0]
      · right; right
        cases hb : (x.isBranch || x.isPushPop) with
        | true =>
          rw [hk, h.ok.pr hb] at hg
          simp at hg
        | false =>
          obtain ⟨v, hv, hv1, _⟩ := h.pr hb
          rw [hk, hv] at hg
          simp only [Option.some.injEq] at hg
          refine ⟨isPushPop_false.1 hb, ?_⟩
          by_contra hcon
          push Not at hcon
          have := hv1.1 fun r hr => by
            have := hcon r hr
            rw [originalsWith_eq] at this
            exact Nat.pos_of_ne_zero this
          rw [hg, h0] at this
          exact lt_irrefl _ this
    · rintro (h0 | h0 | ⟨ho, r, hr, h0⟩)
      · exact ⟨_, dictGet_mem h.pc, h0⟩
      · exact ⟨_, dictGet_mem h.po, h0⟩
      · obtain ⟨v, hv, hv1, _⟩ := h.pr (isPushPop_false.2 ho)
        refine ⟨_, dictGet_mem hv, ?_⟩
        have hin := h.ok.range _ (dictGet_mem hv)
        by_contra hne
        have := hv1.2 (lt_of_le_of_ne hin.1 (Ne.symm hne)) r hr
        rw [originalsWith_eq] at h0
        omega
  have hnz : (∀ p ∈ s, p.2 ≠ 0) ↔ ¬ SpokenAgainst orig x := by
    rw [← hzero]; push Not; rfl
  constructor
  · constructor
    · intro h1
      have hz : ¬ SpokenAgainst orig x := by
        rw [← hzero]
        intro hex
        unfold stepValue at h1
        rw [if_neg (fun hh => by obtain ⟨p, hp, h0⟩ := hex; exact hh.2 p hp h0), if_pos (Or.inl hex)] at h1
        norm_num at h1
      exact ⟨hi, hz, hcert.1 (stepValue_one h.ok h1)⟩
    · rintro ⟨_, hz, hs⟩
      exact stepValue_certain (hnz.2 hz) (hcert.2 hs)
  · constructor
    · intro hne
      have hz : ¬ SpokenAgainst orig x := by
        rw [← hzero]
        intro hex
        apply hne
        unfold stepValue
        rw [if_neg (fun hh => by obtain ⟨p, hp, h0⟩ := hex; exact hh.2 p hp h0), if_pos (Or.inl hex)]
      refine ⟨hi, hz, ?_⟩
      by_contra hcon
      push Not at hcon
      obtain ⟨c1, c2, c3⟩ := hcon
      have hb : x.isBranch = false := by simpa using c2
      have hpp : x.isPushPop = true := by
        unfold Cand.isPushPop
        cases hpu : x.isPush with
        | true => rfl
        | false => simpa using c3 hpu
      exact hne (stepValue_pushpop h hb hpp (fun hh => c1 (hcert.1 (Or.inl hh)))
        (fun hh => c1 (hcert.1 (Or.inr (Or.inl hh)))))
    · rintro ⟨_, hz, hs⟩
      rcases hs with hs | hb | ⟨hpu, hpo⟩
      · rw [stepValue_certain (hnz.2 hz) (hcert.2 hs)]; norm_num
      · exact stepValue_ne h hi (hnz.2 hz) (Or.inl hb)
      · exact stepValue_ne h hi (hnz.2 hz) (Or.inr (by unfold Cand.isPushPop; rw [hpu, hpo]; rfl))

/-- Whether something was removed. -/
theorem pruneAll_tells (fuel : Nat) : ∀ prog : List (List (RInst Scored)), (∀ v ∈ prog, v.length < fuel) →
    (∀ v ∈ prog, ∀ x ∈ v, 0 ≤ x.score ∧ x.score ≤ 1) →
    ∃ b, pruneAll fuel prog = some (.ok (prog.map keptAt, b)) ∧
      (b = true ↔ ∃ v ∈ prog, (keptAt v).length < v.length) := by
  intro prog
  induction prog with
  | nil => intro _ _; exact ⟨false, rfl, by simp⟩
  | cons v vs ih =>
    intro h1 h2
    obtain ⟨b, hb, hb2⟩ := ih (fun w hw => h1 w (by simp [hw])) (fun w hw => h2 w (by simp [hw]))
    obtain ⟨v', n, e1, e2, e3⟩ := C40_prune v (h2 v (by simp)) fuel (h1 v (by simp))
    have e2' : v' = keptAt v := by rw [e2]; rfl
    refine ⟨decide (n > 0) || b, ?_, ?_⟩
    · simp only [pruneAll, e1, hb, List.map_cons]
      rw [e2']
    · rw [e2'] at e3
      simp only [Bool.or_eq_true, decide_eq_true_eq, hb2, List.mem_cons, exists_eq_or_imp]
      constructor
      · rintro (h | h)
        · left; omega
        · right; exact h
      · rintro (h | h)
        · left; omega
        · right; exact h

theorem keptAt_perm_list {v w : List (RInst Scored)} (h : w.Perm v) : (keptAt w).Perm (keptAt v) := by
  unfold keptAt
  have hm : (∃ x ∈ w, x.score = 1) ↔ ∃ x ∈ v, x.score = 1 := by simp only [h.mem_iff]
  by_cases hc : ∃ x ∈ v, x.score = 1
  · rw [if_pos hc, if_pos (hm.2 hc)]; exact h.filter _
  · rw [if_neg hc, if_neg (fun hh => hc (hm.1 hh))]; exact h.filter _

/-- What the user sees of a candidate: its encoding, its text and its answers. -/
def seenOf (x : RInst Scored) : Nat × Nat × Cand := (x.enc, x.str, x.data.c)

theorem filter_seen {orig : List (Int × MInst)} {prog : CProg} (p : Cand → Bool) :
    ∀ {v w : List (RInst Scored)}, List.Forall₂ (ScoredTo orig prog) v w →
      (w.filter fun y => p y.data.c).map seenOf = (v.filter fun x => p x.data.c).map seenOf := by
  intro v w h
  induction h with
  | nil => rfl
  | cons hxy _ ih =>
    rw [List.filter_cons, List.filter_cons, hxy.c]
    split
    · rw [List.map_cons, List.map_cons, ih]
      congr 1
      unfold seenOf
      rw [hxy.enc, hxy.str, hxy.c]
    · exact ih

/-- The candidates left at one address after scoring and pruning. -/
theorem keptAt_exact {orig : List (Int × MInst)} {prog : CProg} (hc : Covers orig prog) {a : Int}
    {v w : List (RInst Scored)} (hq : (a, v.map (·.data.c)) ∈ prog)
    (h : List.Forall₂ (ScoredTo orig prog) v w) (p : Cand → Bool)
    (hp : ∀ c ∈ v.map (·.data.c), p c = true ↔ LeftOver orig prog (v.map (·.data.c)) c) :
    (keptAt w).map seenOf = (v.filter fun x => p x.data.c).map seenOf := by
  have hval : ∀ y ∈ w, (y.score = 1 ↔ Wins orig prog y.data.c) ∧ (y.score ≠ 0 ↔ Scores orig prog y.data.c) ∧
      y.data.c ∈ v.map (·.data.c) := by
    intro y hy
    obtain ⟨x, hx, hxy⟩ := C38_evidence.forall₂_mem_right h hy
    have hm : x.data.c ∈ v.map (·.data.c) := List.mem_map.2 ⟨x, hx, rfl⟩
    rw [hxy.c]
    cases hi : x.data.c.m.ignore with
    | true =>
      rw [hxy.ignored hi]
      refine ⟨⟨fun h0 => by norm_num at h0, fun h0 => ?_⟩, ⟨fun h0 => absurd rfl h0, fun h0 => ?_⟩, hm⟩
      · have := h0.1; rw [hi] at this; cases this
      · have := h0.1; rw [hi] at this; cases this
    | false =>
      obtain ⟨h1, h2⟩ := hxy.after hi
      rw [h2]
      obtain ⟨g1, g2⟩ := step_exact hc hq hm hi h1
      exact ⟨g1, g2, hm⟩
  have hex : (∃ y ∈ w, y.score = 1) ↔ ∃ c ∈ v.map (·.data.c), Wins orig prog c := by
    constructor
    · rintro ⟨y, hy, h1⟩
      exact ⟨_, (hval y hy).2.2, (hval y hy).1.1 h1⟩
    · rintro ⟨c, hcm, hw⟩
      obtain ⟨x, hx, rfl⟩ := List.mem_map.1 hcm
      obtain ⟨j, hj, rfl⟩ := List.mem_iff_getElem.1 hx
      have hj' : j < w.length := by rw [← h.length_eq]; exact hj
      have hxy := forall₂_getElem h j hj hj'
      refine ⟨w[j], List.getElem_mem _, (hval _ (List.getElem_mem _)).1.2 ?_⟩
      rw [hxy.c]
      exact hw
  rw [← filter_seen p h]
  congr 1
  unfold keptAt
  by_cases hc1 : ∃ y ∈ w, y.score = 1
  · rw [if_pos hc1]
    apply List.filter_congr
    intro y hy
    obtain ⟨g1, g2, g3⟩ := hval y hy
    rw [Bool.eq_iff_iff, decide_eq_true_eq, g1, hp _ g3]
    constructor
    · exact Or.inl
    · rintro (h1 | ⟨h1, _⟩)
      · exact h1
      · obtain ⟨c, hcm, hw⟩ := hex.1 hc1
        exact absurd hw (h1 c hcm)
  · rw [if_neg hc1]
    apply List.filter_congr
    intro y hy
    obtain ⟨g1, g2, g3⟩ := hval y hy
    have hnone : ∀ c ∈ v.map (·.data.c), ¬ Wins orig prog c := fun c hcm hw => hc1 (hex.2 ⟨c, hcm, hw⟩)
    rw [Bool.eq_iff_iff, decide_eq_true_eq, g2, hp _ g3]
    constructor
    · exact fun h1 => Or.inr ⟨hnone, h1⟩
    · rintro (h1 | ⟨_, h1⟩)
      · exact absurd h1 (hnone _ g3)
      · exact h1

/-- One pass, with what is stored in the candidates afterwards. -/
theorem pass_exact_stored (orig : List (Int × MInst)) (fns : Fns) (addrs : List Int)
    (prog : List (List (RInst Scored))) (hw : Whole fns addrs prog) (hc : Covers orig (bare addrs prog))
    (hu : ∀ q ∈ orig, q.2.ignore = false → q.2.used.Nodup) (report : List (RInst Scored))
    (hlen : report.length = prog.length) (n : Nat) (b : Bool) :
    ((∀ v ∈ prog, v.length ≤ 1) ∧
      recoveryPass (fun _ q => recuperate (collectMeta {} (orig.map (·.2))) fns addrs q) report (n, prog, b) =
        .error .zeroDiv) ∨
    ((∃ v ∈ prog, 1 < v.length) ∧ ∃ prog' b',
      recoveryPass (fun _ q => recuperate (collectMeta {} (orig.map (·.2))) fns addrs q) report (n, prog, b) =
        .ok (n + 1, prog', b') ∧
      List.Forall₂ (fun v' v => ∃ p : Cand → Bool,
        (∀ c ∈ v.map (·.data.c), p c = true ↔ LeftOver orig (bare addrs prog) (v.map (·.data.c)) c) ∧
        (v'.map seenOf).Perm ((v.filter fun x => p x.data.c).map seenOf)) prog' prog ∧
      (b' = true ↔ ∃ i : Nat, ∃ v v', prog[i]? = some v ∧ prog'[i]? = some v' ∧ v'.length < v.length) ∧
      ∀ v ∈ prog', ∀ x ∈ v, Stored x.data) := by
  obtain ⟨r, hr, hf⟩ := recuperate_ok hw hc hu
  have hrl : prog.length = r.length := hf.length_eq
  have hlens : ∀ (i : Nat) (h1 : i < prog.length) (h2 : i < r.length), r[i].length = prog[i].length :=
    fun i h1 h2 => (forall₂_getElem hf i h1 h2).length_eq.symm
  unfold recoveryPass
  dsimp only
  rw [hr]
  rcases printReport_eq report r (by omega) with ⟨rep, e1, e0, e00, _⟩ | ⟨e0, e1⟩
  · right
    constructor
    · rw [e0, List.countP_pos_iff] at e00
      obtain ⟨l, hl, hl1⟩ := e00
      obtain ⟨i, hi, rfl⟩ := List.mem_iff_getElem.1 hl
      refine ⟨prog[i]'(by omega), List.getElem_mem _, ?_⟩
      rw [← hlens i (by omega) hi]
      simpa using hl1
    generalize hp2 : r.map (fun l => if 1 < l.length then sortScore l else l) = r2 at e1
    have hperm : ∀ (i : Nat) (h1 : i < r.length) (h2 : i < r2.length), r2[i].Perm r[i] := by
      intro i h1 h2
      subst hp2
      rw [List.getElem_map]
      split
      · exact sortScore_perm _
      · exact List.Perm.refl _
    have hl2 : r2.length = r.length := by rw [← hp2, List.length_map]
    have hmemlen : ∀ (l : List (List (RInst Scored))) (v : List (RInst Scored)), v ∈ l →
        v.length ≤ (l.map List.length).sum := by
      intro l
      induction l with
      | nil => simp
      | cons w l ih =>
        intro v hv
        rcases List.mem_cons.1 hv with rfl | hv
        · simp
        · have := ih v hv; simp; omega
    have hrange : ∀ v ∈ r2, ∀ x ∈ v, 0 ≤ x.score ∧ x.score ≤ 1 := by
      intro v hv x hx
      obtain ⟨i, hi, rfl⟩ := List.mem_iff_getElem.1 hv
      have hi' : i < r.length := by omega
      have hx' := (hperm i hi' hi).mem_iff.1 hx
      obtain ⟨y, _, hxy⟩ := C38_evidence.forall₂_mem_right (forall₂_getElem hf i (by omega) hi') hx'
      exact hxy.range
    obtain ⟨b', hb', hb2⟩ := pruneAll_tells ((r2.map List.length).sum + 1) r2
      (fun v hv => by have := hmemlen r2 v hv; omega) hrange
    refine ⟨r2.map keptAt, b', ?_, ?_, ?_, ?_⟩
    · show (Except.bind (printReport report r) _) = _
      rw [e1]
      simp only [Except.bind]
      rw [hb']
      rfl
    · apply forall₂_of_getElem (by rw [List.length_map]; omega)
      intro i h1 h2
      rw [List.length_map] at h1
      have hi' : i < r.length := by omega
      have hia : i < addrs.length := by rw [hw.length]; exact h2
      have hq : (addrs[i], prog[i].map (·.data.c)) ∈ bare addrs prog := by
        rw [List.mem_iff_getElem]
        exact ⟨i, by simp [bare]; omega, by simp [bare]⟩
      classical
      refine ⟨fun c => decide (LeftOver orig (bare addrs prog) (prog[i].map (·.data.c)) c), fun c _ => decide_eq_true_iff, ?_⟩
      rw [List.getElem_map, ← keptAt_exact hc hq (forall₂_getElem hf i h2 hi') _ (fun c _ => decide_eq_true_iff)]
      exact (keptAt_perm_list (hperm i hi' h1)).map _
    · rw [hb2]
      constructor
      · rintro ⟨v, hv, hlt⟩
        obtain ⟨i, hi, rfl⟩ := List.mem_iff_getElem.1 hv
        have hi' : i < prog.length := by omega
        refine ⟨i, prog[i], keptAt r2[i], List.getElem?_eq_getElem hi', ?_, ?_⟩
        · rw [List.getElem?_map, List.getElem?_eq_getElem hi]; rfl
        · rw [(hperm i (by omega) hi).length_eq, hlens i hi' (by omega)] at hlt
          exact hlt
      · rintro ⟨i, v, v', hv, hv', hlt⟩
        obtain ⟨hi', rfl⟩ := List.getElem?_eq_some_iff.1 hv
        have hi : i < r2.length := by omega
        rw [List.getElem?_map, List.getElem?_eq_getElem hi] at hv'
        simp only [Option.map_some, Option.some.injEq] at hv'
        subst hv'
        refine ⟨r2[i], List.getElem_mem _, ?_⟩
        rw [(hperm i (by omega) hi).length_eq, hlens i hi' (by omega)]
        exact hlt
    · intro v hv x hx
      obtain ⟨u, hu', rfl⟩ := List.mem_map.1 hv
      obtain ⟨i, hi, rfl⟩ := List.mem_iff_getElem.1 hu'
      have hy' := (hperm i (by omega) hi).mem_iff.1 (keptAt_sub _ x hx)
      obtain ⟨_, _, hxy⟩ := C38_evidence.forall₂_mem_right (forall₂_getElem hf i (by omega) (by omega)) hy'
      exact hxy.stored
  · left
    constructor
    · intro v hv
      obtain ⟨i, hi, rfl⟩ := List.mem_iff_getElem.1 hv
      have := e0 (r[i]'(by omega)) (List.getElem_mem _)
      rwa [hlens i hi (by omega)] at this
    · show (Except.bind (printReport report r) _) = _
      rw [e1]
      rfl

/-- **C42, exactly what a pass does.**  On a whole program that contains its originals, a pass
raises `ZeroDivisionError` exactly if no address has more than one candidate.  Otherwise the
candidates left at an address are, up to their order, those that are kept: if some candidate of
the address wins, the winners, and otherwise those that score.  A candidate wins if nothing of
it is absent from the original and its condition, its opcode or (for an ordinary instruction)
all its registers are forced; it scores if it wins, or if nothing of it is absent from the
original and it is not a push or pop that does not branch.  The loop goes on exactly if
something was discarded. -/
theorem C42_pass_exact (orig : List (Int × MInst)) (fns : Fns) (addrs : List Int)
    (prog : List (List (RInst Scored))) (hw : Whole fns addrs prog) (hc : Covers orig (bare addrs prog))
    (hu : ∀ q ∈ orig, q.2.ignore = false → q.2.used.Nodup) (report : List (RInst Scored))
    (hlen : report.length = prog.length) (n : Nat) (b : Bool) :
    ((∀ v ∈ prog, v.length ≤ 1) ∧
      recoveryPass (fun _ q => recuperate (collectMeta {} (orig.map (·.2))) fns addrs q) report (n, prog, b) =
        .error .zeroDiv) ∨
    ((∃ v ∈ prog, 1 < v.length) ∧ ∃ prog' b',
      recoveryPass (fun _ q => recuperate (collectMeta {} (orig.map (·.2))) fns addrs q) report (n, prog, b) =
        .ok (n + 1, prog', b') ∧
      List.Forall₂ (fun v' v => ∃ p : Cand → Bool,
        (∀ c ∈ v.map (·.data.c), p c = true ↔ LeftOver orig (bare addrs prog) (v.map (·.data.c)) c) ∧
        (v'.map seenOf).Perm ((v.filter fun x => p x.data.c).map seenOf)) prog' prog ∧
      (b' = true ↔ ∃ i : Nat, ∃ v v', prog[i]? = some v ∧ prog'[i]? = some v' ∧ v'.length < v.length)) := by
  rcases pass_exact_stored orig fns addrs prog hw hc hu report hlen n b with h | ⟨h, prog', b', h1, h2, h3, _⟩
  · exact Or.inl h
  · exact Or.inr ⟨h, prog', b', h1, h2, h3⟩

/-- An original is never excluded. -/
theorem original_not_against {orig : List (Int × MInst)} {a : Int} {o : Cand} (ho : (a, o.m) ∈ orig)
    (hi : o.m.ignore = false) : ¬ SpokenAgainst orig o := by
  have hpos : ∀ f : MInst → Bool, f o.m = true → originalsWith orig f ≠ 0 := by
    intro f hf h0
    unfold originalsWith at h0
    rw [List.length_eq_zero_iff, List.filter_eq_nil_iff] at h0
    exact h0 _ ho (by simp [hi, hf])
  rintro (h | h | ⟨_, r, hr, h⟩)
  · exact hpos _ (by simp) h
  · exact hpos _ (by simp) h
  · exact hpos (fun i => decide (r ∈ i.used)) (by simpa using hr) h

/-- **C42, exactly when the original is discarded.**  The original of an address is discarded by
a pass exactly if neither its condition nor its opcode nor all its registers are forced, and
either some other candidate of the address wins or the original is a push or pop that does not
branch. -/
theorem C42_exact (orig : List (Int × MInst)) (prog : List (Int × List Cand)) (cs : List Cand) (a : Int) (o : Cand)
    (ho : (a, o.m) ∈ orig) (hi : o.m.ignore = false) :
    ¬ LeftOver orig prog cs o ↔ ¬ Sure orig prog o ∧
      ((∃ x ∈ cs, Wins orig prog x) ∨ (o.isBranch = false ∧ (o.isPush = true ∨ o.isPop = true))) := by
  have hx := original_not_against ho hi
  have hsh : ¬ (o.isBranch = true ∨ (o.isPush = false ∧ o.isPop = false)) ↔
      (o.isBranch = false ∧ (o.isPush = true ∨ o.isPop = true)) := by
    cases o.isBranch <;> cases o.isPush <;> cases o.isPop <;> simp
  rw [← hsh]
  unfold LeftOver
  have hwin : Wins orig prog o ↔ Sure orig prog o := ⟨fun h => h.2.2, fun h => ⟨hi, hx, h⟩⟩
  have hsc : Scores orig prog o ↔ Sure orig prog o ∨ (o.isBranch = true ∨ (o.isPush = false ∧ o.isPop = false)) :=
    ⟨fun h => h.2.2, fun h => ⟨hi, hx, h⟩⟩
  rw [hwin, hsc]
  have hex : (∃ x ∈ cs, Wins orig prog x) ↔ ¬ ∀ y ∈ cs, ¬ Wins orig prog y := by push Not; rfl
  rw [hex]
  tauto

/-- In the example of `C42_refuted_registers` the candidate that uses only the first register
wins, the original is not sure, and the original is discarded; after the pass no other. -/
example :
    let orig : List (Int × MInst) := [(0, (ordinary 10 14 1 [1, 2]).m), (4, (ordinary 20 0 2 [3]).m),
      (8, (ordinary 30 3 5 [1]).m)]
    let prog : List (Int × List Cand) := [(0, [ordinary 10 14 1 [1, 2], ordinary 11 0 2 [1]]),
      (4, [ordinary 20 0 2 [3], ordinary 21 14 1 [3, 2]]), (8, [ordinary 30 3 5 [1], ordinary 31 3 5 [1]])]
    Wins orig prog (ordinary 11 0 2 [1]) ∧ ¬ Sure orig prog (ordinary 10 14 1 [1, 2]) ∧
      ¬ LeftOver orig prog [ordinary 10 14 1 [1, 2], ordinary 11 0 2 [1]] (ordinary 10 14 1 [1, 2]) ∧
      Wins orig prog (ordinary 30 3 5 [1]) ∧ Wins orig prog (ordinary 31 3 5 [1]) := by
  intro orig prog
  have hw : Wins orig prog (ordinary 11 0 2 [1]) := by
    refine ⟨rfl, ?_, Or.inr (Or.inr ⟨⟨rfl, rfl, rfl⟩, ?_⟩)⟩
    · unfold SpokenAgainst Ordinary; decide +kernel
    · unfold Forced; decide +kernel
  have hs : ¬ Sure orig prog (ordinary 10 14 1 [1, 2]) := by
    unfold Sure Forced Ordinary; decide +kernel
  refine ⟨hw, hs, ?_, ?_, ?_⟩
  · exact (C42_exact orig prog _ 0 _ (by simp [orig]) rfl).2 ⟨hs, Or.inl ⟨_, by simp, hw⟩⟩
  all_goals
    refine ⟨rfl, ?_, Or.inl ?_⟩
    · unfold SpokenAgainst Ordinary; decide +kernel
    · unfold Forced; decide +kernel

end Verif
