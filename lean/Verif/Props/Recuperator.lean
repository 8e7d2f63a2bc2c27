import Verif.Proof.Recuperator
import Verif.Props.Recovery

/-! # Properties C38, C39, C41 (for the real scoring) and C42: evidence and scores -/

namespace Verif
open Spec

/-! ### C38 and C39 -/

/-- **C38.**  On a whole program that contains its originals, scoring raises
nothing, all evidence of every candidate lies in [0,1], and all evidence of a
defined original is positive. -/
theorem C38_evidence (orig : List (Int × MInst)) (fns : Fns) (addrs : List Int)
    (prog : List (List (RInst Scored))) (hw : Whole fns addrs prog) (hc : Covers orig (bare addrs prog))
    (hu : ∀ q ∈ orig, q.2.ignore = false → q.2.used.Nodup) :
    ∃ r, recuperate (collectMeta {} (orig.map (·.2))) fns addrs prog = .ok r ∧
      ∀ v ∈ r, ∀ y ∈ v, (∀ p ∈ y.data.scores, 0 ≤ p.2 ∧ p.2 ≤ 1) ∧
        ((∃ a, (a, y.data.c.m) ∈ orig) → y.data.c.m.ignore = false → ∀ p ∈ y.data.scores, 0 < p.2) := by
  obtain ⟨r, h1, h2⟩ := recuperate_ok hw hc hu
  refine ⟨r, h1, ?_⟩
  intro v hv y hy
  obtain ⟨w, _, hwv⟩ := forall₂_mem_right h2 hv
  obtain ⟨x, _, hxy⟩ := forall₂_mem_right hwv hy
  refine ⟨fun p hp => hxy.stored.ok.range p hp, ?_⟩
  rintro ⟨a, ha⟩ hi p hp
  rw [hxy.c] at ha hi
  have := original_positive (hxy.after hi).1 ha hi hc p hp
  exact lt_of_le_of_ne (hxy.stored.ok.range p hp).1 (Ne.symm this)
where
  forall₂_mem_right {α β : Type} {R : α → β → Prop} : ∀ {l : List α} {l' : List β}, List.Forall₂ R l l' →
      ∀ {y : β}, y ∈ l' → ∃ x ∈ l, R x y := by
    intro l l' h
    induction h with
    | nil => intro y hy; simp at hy
    | cons hr _ ih =>
      intro y hy
      rcases List.mem_cons.1 hy with rfl | hy
      · exact ⟨_, by simp, hr⟩
      · obtain ⟨x, hx, h⟩ := ih hy
        exact ⟨x, by simp [hx], h⟩

/-- **C39.**  Under the same conditions every score lies in [0,1] (so no
invalid-probability error is raised), and so does the final score of every
candidate with that evidence. -/
theorem C39_scores (orig : List (Int × MInst)) (fns : Fns) (addrs : List Int)
    (prog : List (List (RInst Scored))) (hw : Whole fns addrs prog) (hc : Covers orig (bare addrs prog))
    (hu : ∀ q ∈ orig, q.2.ignore = false → q.2.used.Nodup) :
    ∃ r, recuperate (collectMeta {} (orig.map (·.2))) fns addrs prog = .ok r ∧
      ∀ v ∈ r, ∀ y ∈ v, (0 ≤ y.score ∧ y.score ≤ 1) ∧ scoreOf y.data = .ok y.score ∧
        ∃ f, probRules y.data.scores y.data.c = .ok f ∧ 0 ≤ f ∧ f ≤ 1 := by
  have one : In01 1 := by constructor <;> norm_num
  obtain ⟨r, h1, h2⟩ := recuperate_ok hw hc hu
  refine ⟨r, h1, ?_⟩
  intro v hv y hy
  obtain ⟨w, _, hwv⟩ := C38_evidence.forall₂_mem_right h2 hv
  obtain ⟨x, hx, hxy⟩ := C38_evidence.forall₂_mem_right hwv hy
  have e := hxy.stored.ok
  refine ⟨hxy.range, ?_, _, checkScore_ok ?_, ?_⟩
  · exact hxy.value
  all_goals
    exact in01_mul (in01_mul (in01_mul (evid_in e .pc 1 one) (evid_in e .po 1 one))
      (evid_in e .pcfg 1 one)) (lastFactor_in e 1 one)

/-- The final score is a probability for any stored evidence in [0,1]. -/
theorem C39_final (s : List (Evid × Rat)) (x : Cand) (h : ∀ p ∈ s, 0 ≤ p.2 ∧ p.2 ≤ 1) :
    ∃ f, probRules s x = .ok f ∧ 0 ≤ f ∧ f ≤ 1 := by
  have one : In01 1 := by constructor <;> norm_num
  have e : ∀ k, In01 (evid s k 1) := by
    intro k
    unfold evid
    cases hg : dictGet s k with
    | none => exact one
    | some v => exact h _ (dictGet_mem hg)
  have hl : In01 (lastFactor x s 1) := by
    unfold lastFactor
    split
    · exact e _
    · split <;> exact in01_mul (e _) (e _)
  have := in01_mul (in01_mul (in01_mul (e .pc) (e .po)) (e .pcfg)) hl
  exact ⟨_, checkScore_ok this, this.1, this.2⟩

/-! ### C41 for the real scoring -/

theorem mapM_map {α β γ : Type} (f : α → Py β) (g : α → γ) (k : β → γ)
    (h : ∀ x y, f x = .ok y → k y = g x) : ∀ (l : List α) (l' : List β), l.mapM f = .ok l' →
    l'.map k = l.map g := by
  intro l
  induction l with
  | nil =>
    intro l' hl
    rw [List.mapM_nil] at hl
    simp only [pure, Except.pure, Except.ok.injEq] at hl
    subst hl
    rfl
  | cons x l ih =>
    intro l' hl
    rw [List.mapM_cons] at hl
    cases hx : f x with
    | error e => rw [hx] at hl; simp [bind, Except.bind] at hl
    | ok y =>
      cases hr : l.mapM f with
      | error e => rw [hx, hr] at hl; simp [bind, Except.bind] at hl
      | ok ys =>
        rw [hx, hr] at hl
        simp only [bind, Except.bind, pure, Except.pure, Except.ok.injEq] at hl
        subst hl
        simp only [List.map_cons, ih ys hr, h x y hx]

/-- Scoring keeps the candidates of every address, in order. -/
theorem recuperate_keeps (coll : Collector) (fns : Fns) (addrs : List Int) :
    KeepsCandidates addrs.length (fun _ prog => recuperate coll fns addrs prog) := by
  intro _ prog prog' hlen h
  have loop : ∀ (p : CProg) (cp : Counters) (low high : Int) (qs : List (Int × List (RInst Scored)))
      (first : Bool) (cur : Int) (r : List (List (RInst Scored))),
      scoreLoop coll fns p cp low high first cur qs = .ok r →
      r.map (List.map fun x : RInst Scored => (x.enc, x.str)) =
        (qs.map (·.2)).map (List.map fun x : RInst Scored => (x.enc, x.str)) := by
    intro p cp low high qs
    induction qs with
    | nil =>
      intro first cur r hr
      simp only [scoreLoop, Except.ok.injEq] at hr
      subst hr
      rfl
    | cons q qs ih =>
      intro first cur r hr
      unfold scoreLoop at hr
      simp only at hr
      generalize (if (dictGet fns q.1).isSome then q.1 else cur) = cur' at hr
      cases h1 : q.2.mapM (scoreOne coll fns p cp ⟨q.1, cur', low, high, first⟩) with
      | error e => rw [h1] at hr; simp [bind, Except.bind] at hr
      | ok l =>
        cases h2 : scoreLoop coll fns p cp low high false cur' qs with
        | error e => rw [h1, h2] at hr; simp [bind, Except.bind] at hr
        | ok rest =>
          rw [h1, h2] at hr
          simp only [bind, Except.bind, pure, Except.pure, Except.ok.injEq] at hr
          subst hr
          simp only [List.map_cons, ih _ _ _ h2]
          congr 1
          refine mapM_map _ _ _ ?_ _ _ h1
          intro x y hxy
          unfold scoreOne at hxy
          cases h3 : scoreCand coll fns p cp ⟨q.1, cur', low, high, first⟩ x.data with
          | error e => rw [h3] at hxy; simp [bind, Except.bind] at hxy
          | ok d =>
            cases h4 : scoreOf d with
            | error e =>
              rw [h3] at hxy
              simp only [bind, Except.bind, h4] at hxy
              simp at hxy
            | ok v =>
              rw [h3] at hxy
              simp only [bind, Except.bind, h4, pure, Except.pure, Except.ok.injEq] at hxy
              subst hxy
              rfl
  unfold recuperate at h
  dsimp only at h
  split at h
  · have := loop _ _ _ _ _ _ _ _ h
    rw [List.map_snd_zip (by omega)] at this
    exact this
  · simp at h

/-- **C41** for the recovery program itself: with the recuperator as scoring, the
loop stops, whatever the metadata, the functions and the candidates. -/
theorem C41_recovery (coll : Collector) (fns : Fns) (addrs : List Int) (orig : List (RInst Scored))
    (prog : List (List (RInst Scored))) (h1 : orig.length = prog.length) (h2 : addrs.length = prog.length)
    (fuel : Nat) (hf : (prog.map List.length).sum + 2 ≤ fuel) :
    (∃ e, recoveryLoop (fun _ p => recuperate coll fns addrs p) orig fuel prog = some (.error e)) ∨
    (∃ p prog', recoveryLoop (fun _ p => recuperate coll fns addrs p) orig fuel prog =
        some (.ok (p, prog', false)) ∧
      p ≤ (prog.map List.length).sum + 2 ∧ Within prog' prog ∧ ∃ v ∈ prog', 1 < v.length) :=
  C41_terminates _ orig (by rw [h1, ← h2]; exact recuperate_keeps coll fns addrs) prog h1 fuel hf

/-! ### C42 -/

/-- The conditions under which the original `o` of an address is never discarded:
it is no push or pop (unless that branches), and no other ordinary candidate of
the address uses only some of its registers. -/
structure Safe (o : Cand) (v : List (RInst Scored)) : Prop where
  defined : o.m.ignore = false
  nodup : o.m.used.Nodup
  shape : o.isBranch = true ∨ o.isPushPop = false
  regs : ∀ x ∈ v, x.data.c.m.ignore = false → (x.data.c.isBranch || x.data.c.isPushPop) = false →
    (∀ r ∈ x.data.c.m.used, r ∈ o.m.used) →
    (o.isBranch || o.isPushPop) = false ∧ ∀ r ∈ o.m.used, r ∈ x.data.c.m.used
  present : ∃ x ∈ v, x.data.c = o

theorem evid_some {s : List (Evid × Rat)} {k : Evid} {v d : Rat} (h : dictGet s k = some v) :
    evid s k d = v := by unfold evid; rw [h]; rfl

/-- If some candidate of the address scores one, the original does. -/
theorem safe_one {orig : List (Int × MInst)} {prog : CProg} (hc : Covers orig prog) {a : Int} {o : Cand}
    {cs : List Cand} (hq : (a, cs) ∈ prog) (ho : (a, o.m) ∈ orig) (hi : o.m.ignore = false)
    {x : Cand} (hx : x ∈ cs) (hxi : x.m.ignore = false)
    {s t : List (Evid × Rat)} (hs : EvAfter orig prog o s) (ht : EvAfter orig prog x t)
    (hregs : (x.isBranch || x.isPushPop) = false → (∀ r ∈ x.m.used, r ∈ o.m.used) →
      (o.isBranch || o.isPushPop) = false ∧ ∀ r ∈ o.m.used, r ∈ x.m.used)
    (h1 : stepValue t x = 1) : stepValue s o = 1 := by
  have hz := original_positive hs ho hi hc
  have uniq : ∀ o', (a, o') ∈ orig → o' = o.m := by
    intro o' h'
    have e1 := dictGet_of_mem hc.nodup h'
    have e2 := dictGet_of_mem hc.nodup ho
    rw [e1] at e2
    simpa using e2
  -- a saturated count makes the original share the attribute
  have share : ∀ f : MInst → Bool, f x.m = true →
      addressesWith (views prog) f ≤ origWith orig f → f o.m = true := by
    intro f hf hle
    obtain ⟨o', h2, _, h4⟩ := (cover_count hc f).2 hle (a, cs) hq x hx hxi hf
    rw [← uniq o' h2]
    exact h4
  have sat : ∀ f : MInst → Bool, f x.m = true →
      ((origWith orig f : Nat) : Rat) / ((addressesWith (views prog) f : Nat) : Rat) = 1 →
      addressesWith (views prog) f ≤ origWith orig f := by
    intro f hf he
    have hp := addressesWith_pos hq hx hxi hf
    have hp' : (0 : Rat) < (addressesWith (views prog) f : Nat) := by exact_mod_cast hp
    rw [div_eq_one_iff_eq hp'.ne'] at he
    have : origWith orig f = addressesWith (views prog) f := by exact_mod_cast he
    omega
  apply stepValue_certain hz
  rcases stepValue_one ht.ok h1 with h | h | h
  · left
    rw [evid_some ht.pc] at h
    have := share (fun i => decide (i.cond = x.m.cond)) (by simp) (sat _ (by simp) h)
    rw [evid_some hs.pc]
    simp only [decide_eq_true_eq] at this
    rw [this]
    exact h
  · right; left
    rw [evid_some ht.po] at h
    have := share (fun i => decide (i.opcode = x.m.opcode)) (by simp) (sat _ (by simp) h)
    rw [evid_some hs.po]
    simp only [decide_eq_true_eq] at this
    rw [this]
    exact h
  · right; right
    cases hb : (x.isBranch || x.isPushPop) with
    | true =>
      have := ht.ok.pr hb
      unfold evid at h
      rw [this] at h
      norm_num at h
    | false =>
      obtain ⟨v, hv, _, hv1⟩ := ht.pr hb
      rw [evid_some hv, hv1] at h
      have hsub : ∀ r ∈ x.m.used, r ∈ o.m.used := by
        intro r hr
        have := share (fun i => decide (r ∈ i.used)) (by simpa using hr) (h r hr)
        simpa using this
      obtain ⟨hob, hback⟩ := hregs hb hsub
      obtain ⟨w, hw, _, hw1⟩ := hs.pr hob
      rw [evid_some hw, hw1]
      exact fun r hr => h r (hback r hr)

/-- What holds at the beginning of every pass. -/
structure RecInv (os : List Cand) (fns : Fns) (addrs : List Int) (prog : List (List (RInst Scored))) : Prop where
  whole : Whole fns addrs prog
  safe : List.Forall₂ Safe os prog

/-- The originals with their addresses. -/
def withAddr (addrs : List Int) (os : List Cand) : List (Int × MInst) := addrs.zip (os.map (·.m))

theorem forall₂_getElem {α β : Type} {R : α → β → Prop} {l : List α} {l' : List β} (h : List.Forall₂ R l l')
    (i : Nat) (h1 : i < l.length) (h2 : i < l'.length) : R l[i] l'[i] := by
  induction h generalizing i with
  | nil => simp at h1
  | cons hr _ ih =>
    cases i with
    | zero => exact hr
    | succ i => exact ih i _ _

theorem forall₂_of_getElem {α β : Type} {R : α → β → Prop} : ∀ {l : List α} {l' : List β},
    l.length = l'.length → (∀ (i : Nat) (h1 : i < l.length) (h2 : i < l'.length), R l[i] l'[i]) →
    List.Forall₂ R l l' := by
  intro l
  induction l with
  | nil =>
    intro l' h _
    have : l' = [] := by cases l' with | nil => rfl | cons _ _ => simp at h
    subst this
    exact List.Forall₂.nil
  | cons a l ih =>
    intro l' h hr
    cases l' with
    | nil => simp at h
    | cons b l' =>
      refine List.Forall₂.cons (hr 0 (by simp) (by simp)) (ih (by simpa using h) ?_)
      intro i h1 h2
      have := hr (i + 1) (by simpa using h1) (by simpa using h2)
      simpa using this

theorem recInv_covers {os : List Cand} {fns : Fns} {addrs : List Int} {prog : List (List (RInst Scored))}
    (h : RecInv os fns addrs prog) : Covers (withAddr addrs os) (bare addrs prog) where
  nodup := by
    unfold withAddr
    rw [List.map_fst_zip (by rw [List.length_map, h.whole.length, h.safe.length_eq])]
    exact h.whole.nodup
  present := by
    intro q hq _
    obtain ⟨i, hi, rfl⟩ := List.mem_iff_getElem.1 hq
    have hlo := h.safe.length_eq
    have hla := h.whole.length
    simp only [withAddr, List.length_zip, List.length_map] at hi
    have h1 : i < os.length := by omega
    have h2 : i < addrs.length := by omega
    have h3 : i < prog.length := by omega
    refine ⟨prog[i].map (·.data.c), ?_, ?_⟩
    · rw [List.mem_iff_getElem]
      exact ⟨i, by simp [bare]; omega, by simp [bare, withAddr]⟩
    · obtain ⟨x, hx, hxo⟩ := (forall₂_getElem h.safe i h1 h3).present
      refine ⟨x.data.c, List.mem_map.2 ⟨x, hx, rfl⟩, ?_⟩
      rw [hxo]
      simp [withAddr]

theorem recInv_nodup {os : List Cand} {fns : Fns} {addrs : List Int} {prog : List (List (RInst Scored))}
    (h : RecInv os fns addrs prog) : ∀ q ∈ withAddr addrs os, q.2.ignore = false → q.2.used.Nodup := by
  intro q hq _
  obtain ⟨i, hi, rfl⟩ := List.mem_iff_getElem.1 hq
  have hlo := h.safe.length_eq
  simp only [withAddr, List.length_zip, List.length_map] at hi
  have h1 : i < os.length := by omega
  have := (forall₂_getElem h.safe i h1 (by omega)).nodup
  simpa [withAddr] using this

theorem withAddr_snd {os : List Cand} {fns : Fns} {addrs : List Int} {prog : List (List (RInst Scored))}
    (h : RecInv os fns addrs prog) : (withAddr addrs os).map (·.2) = os.map (·.m) := by
  unfold withAddr
  rw [List.map_snd_zip (by rw [List.length_map, h.whole.length, h.safe.length_eq])]

/-- The candidates pruning keeps at an address. -/
def keptAt (v : List (RInst Scored)) : List (RInst Scored) :=
  if ∃ x ∈ v, x.score = 1 then v.filter (fun x => decide (x.score = 1))
  else v.filter (fun x => decide (x.score ≠ 0))

theorem pruneAll_exact (fuel : Nat) : ∀ prog : List (List (RInst Scored)), (∀ v ∈ prog, v.length < fuel) →
    (∀ v ∈ prog, ∀ x ∈ v, 0 ≤ x.score ∧ x.score ≤ 1) →
    ∃ b, pruneAll fuel prog = some (.ok (prog.map keptAt, b)) := by
  intro prog
  induction prog with
  | nil => intro _ _; exact ⟨false, rfl⟩
  | cons v vs ih =>
    intro h1 h2
    obtain ⟨b, hb⟩ := ih (fun w hw => h1 w (by simp [hw])) (fun w hw => h2 w (by simp [hw]))
    obtain ⟨v', n, e1, e2, _⟩ := C40_prune v (h2 v (by simp)) fuel (h1 v (by simp))
    refine ⟨decide (n > 0) || b, ?_⟩
    simp only [pruneAll, e1, hb, List.map_cons]
    rw [e2]
    rfl

theorem keptAt_sub (v : List (RInst Scored)) : ∀ x ∈ keptAt v, x ∈ v := by
  intro x hx
  unfold keptAt at hx
  split at hx <;> exact (List.mem_filter.1 hx).1

theorem keptAt_perm {v w : List (RInst Scored)} (h : w.Perm v) : ∀ x, x ∈ keptAt w ↔ x ∈ keptAt v := by
  intro x
  unfold keptAt
  have hm : (∃ x ∈ w, x.score = 1) ↔ ∃ x ∈ v, x.score = 1 := by
    simp only [h.mem_iff]
  by_cases hc : ∃ x ∈ v, x.score = 1
  · rw [if_pos hc, if_pos (hm.2 hc)]
    simp only [List.mem_filter, h.mem_iff]
  · rw [if_neg hc, if_neg (fun hh => hc (hm.1 hh))]
    simp only [List.mem_filter, h.mem_iff]

/-- The candidates of each address come from those there were before, and are not more. -/
def CameFrom (prog' prog : List (List (RInst Scored))) : Prop :=
  List.Forall₂ (fun v' v => v'.length ≤ v.length ∧
    ∀ y ∈ v', ∃ x ∈ v, y.enc = x.enc ∧ y.str = x.str ∧ y.data.c = x.data.c) prog' prog

/-- One pass keeps the invariant; the only exception is the report's. -/
theorem pass_keeps {os : List Cand} {fns : Fns} {addrs : List Int} {prog : List (List (RInst Scored))}
    (h : RecInv os fns addrs prog) (orig : List (RInst Scored)) (hlen : orig.length = prog.length)
    (p : Nat) (b : Bool) :
    (recoveryPass (fun _ q => recuperate (collectMeta {} (os.map (·.m))) fns addrs q) orig (p, prog, b) =
      .error .zeroDiv) ∨
    ∃ prog' b', recoveryPass (fun _ q => recuperate (collectMeta {} (os.map (·.m))) fns addrs q) orig
        (p, prog, b) = .ok (p + 1, prog', b') ∧ RecInv os fns addrs prog' ∧ prog'.length = prog.length ∧
        CameFrom prog' prog := by
  have hc := recInv_covers h
  have hu := recInv_nodup h
  obtain ⟨r, hr, hf⟩ := recuperate_ok h.whole hc hu
  rw [withAddr_snd h] at hr
  have hrl : prog.length = r.length := hf.length_eq
  unfold recoveryPass
  dsimp only
  rw [hr]
  rcases printReport_eq orig r (by omega) with ⟨rep, e1, _, _, _⟩ | ⟨_, e1⟩
  · right
    generalize hp2 : r.map (fun l => if 1 < l.length then sortScore l else l) = r2 at e1
    have hperm : ∀ (i : Nat) (h1 : i < r.length) (h2 : i < r2.length), r2[i].Perm r[i] := by
      intro i h1 h2
      subst hp2
      rw [List.getElem_map]
      split
      · exact sortScore_perm _
      · exact List.Perm.refl _
    have hl2 : r2.length = r.length := by rw [← hp2, List.length_map]
    have hmemlen : ∀ (l : List (List (RInst Scored))) (v : List (RInst Scored)), v ∈ l →
        v.length ≤ (l.map List.length).sum := by
      intro l
      induction l with
      | nil => simp
      | cons w l ih =>
        intro v hv
        rcases List.mem_cons.1 hv with rfl | hv
        · simp
        · have := ih v hv; simp; omega
    have hrange : ∀ v ∈ r2, ∀ x ∈ v, 0 ≤ x.score ∧ x.score ≤ 1 := by
      intro v hv x hx
      obtain ⟨i, hi, rfl⟩ := List.mem_iff_getElem.1 hv
      have hi' : i < r.length := by omega
      have hx' := (hperm i hi' hi).mem_iff.1 hx
      obtain ⟨y, _, hxy⟩ := C38_evidence.forall₂_mem_right (forall₂_getElem hf i (by omega) hi') hx'
      exact hxy.range
    obtain ⟨b', hb'⟩ := pruneAll_exact ((r2.map List.length).sum + 1) r2
      (fun v hv => by have := hmemlen r2 v hv; omega) hrange
    refine ⟨r2.map keptAt, b', ?_, ?_, by simp; omega, ?_⟩
    · show (Except.bind (printReport orig r) _) = _
      rw [e1]
      simp only [Except.bind]
      rw [hb']
      rfl
    · -- the invariant
      have hlo := h.safe.length_eq
      have hla := h.whole.length
      -- every kept candidate comes from a scored one
      have hfrom : ∀ (i : Nat) (h1 : i < prog.length) (h2 : i < r2.length), ∀ y ∈ keptAt r2[i],
          ∃ x ∈ prog[i], ScoredTo (withAddr addrs os) (bare addrs prog) x y := by
        intro i h1 h2 y hy
        have hi' : i < r.length := by omega
        have hy' := (hperm i hi' h2).mem_iff.1 (keptAt_sub _ y hy)
        exact C38_evidence.forall₂_mem_right (forall₂_getElem hf i h1 hi') hy'
      have hpres : ∀ (i : Nat) (h1 : i < os.length) (h2 : i < r2.length), ∃ y ∈ keptAt r2[i], y.data.c = os[i] := by
        intro i h1 h2
        have hi' : i < r.length := by omega
        have hip : i < prog.length := by omega
        have hia : i < addrs.length := by omega
        have hsafe := forall₂_getElem h.safe i h1 hip
        obtain ⟨x, hx, hxo⟩ := hsafe.present
        have hff := forall₂_getElem hf i hip hi'
        obtain ⟨j, hj, hxj⟩ := List.mem_iff_getElem.1 hx
        have hj' : j < r[i].length := by rw [← hff.length_eq]; exact hj
        have hxy := forall₂_getElem hff j hj hj'
        rw [hxj] at hxy
        have hym : r[i][j] ∈ r[i] := List.getElem_mem _
        generalize r[i][j] = y at hxy hym
        have hxi : x.data.c.m.ignore = false := by rw [hxo]; exact hsafe.defined
        obtain ⟨hev, hval⟩ := hxy.after hxi
        have ho : (addrs[i], x.data.c.m) ∈ withAddr addrs os := by
          rw [List.mem_iff_getElem]
          refine ⟨i, by simp [withAddr]; omega, ?_⟩
          simp [withAddr, hxo]
        have hz := original_positive hev ho hxi hc
        have hne : y.score ≠ 0 := by
          rw [hval]
          exact stepValue_ne hev hxi hz (by rw [hxo]; exact hsafe.shape)
        refine ⟨y, (keptAt_perm (hperm i hi' h2) y).2 ?_, by rw [hxy.c, hxo]⟩
        unfold keptAt
        split
        · rename_i hone
          refine List.mem_filter.2 ⟨hym, ?_⟩
          obtain ⟨z, hz1, hz2⟩ := hone
          obtain ⟨w, hw1, hwz⟩ := C38_evidence.forall₂_mem_right hff hz1
          cases hwi : w.data.c.m.ignore with
          | true =>
            have := hwz.ignored hwi
            rw [this] at hz2
            norm_num at hz2
          | false =>
            obtain ⟨hwe, hwv⟩ := hwz.after hwi
            rw [hwv] at hz2
            have hq : (addrs[i], prog[i].map (·.data.c)) ∈ bare addrs prog := by
              rw [List.mem_iff_getElem]
              exact ⟨i, by simp [bare]; omega, by simp [bare]⟩
            have := safe_one hc hq ho hxi (List.mem_map.2 ⟨w, hw1, rfl⟩) hwi hev hwe
              (by rw [hxo]; exact hsafe.regs w hw1 hwi) hz2
            rw [hval, this]
            simp
        · exact List.mem_filter.2 ⟨hym, by simpa using hne⟩
      refine ⟨⟨h.whole.nodup, by rw [List.length_map]; omega, h.whole.nonempty, h.whole.low, h.whole.fn, ?_, ?_⟩, ?_⟩
      · intro v hv
        obtain ⟨u, hu', rfl⟩ := List.mem_map.1 hv
        obtain ⟨i, hi, rfl⟩ := List.mem_iff_getElem.1 hu'
        obtain ⟨y, hy, hyo⟩ := hpres i (by omega) hi
        refine ⟨y, hy, ?_⟩
        rw [hyo]
        exact (forall₂_getElem h.safe i (by omega) (by omega)).defined
      · intro v hv x hx
        obtain ⟨u, hu', rfl⟩ := List.mem_map.1 hv
        obtain ⟨i, hi, rfl⟩ := List.mem_iff_getElem.1 hu'
        obtain ⟨y, _, hyx⟩ := hfrom i (by omega) hi x hx
        exact hyx.stored
      · apply forall₂_of_getElem (by rw [List.length_map]; omega)
        intro i h1 h2
        rw [List.length_map] at h2
        rw [List.getElem_map]
        have hsafe := forall₂_getElem h.safe i h1 (by omega)
        refine ⟨hsafe.defined, hsafe.nodup, hsafe.shape, ?_, hpres i h1 h2⟩
        intro y hy
        obtain ⟨x, hx, hxy⟩ := hfrom i (by omega) h2 y hy
        rw [hxy.c]
        exact hsafe.regs x hx
    · apply forall₂_of_getElem (by rw [List.length_map]; omega)
      intro i h1 h2
      rw [List.length_map] at h1
      have hi' : i < r.length := by omega
      rw [List.getElem_map]
      constructor
      · have e1 := (hperm i hi' h1).length_eq
        have e2 := (forall₂_getElem hf i h2 hi').length_eq
        have e3 : (keptAt r2[i]).length ≤ r2[i].length := by
          unfold keptAt
          split <;> exact List.length_filter_le _ _
        omega
      · intro y hy
        have hy' := (hperm i hi' h1).mem_iff.1 (keptAt_sub _ y hy)
        obtain ⟨x, hx, hxy⟩ := C38_evidence.forall₂_mem_right (forall₂_getElem hf i h2 hi') hy'
        exact ⟨x, hx, hxy.enc, hxy.str, hxy.c⟩
  · left
    show (Except.bind (printReport orig r) _) = _
    rw [e1]
    rfl

/-- **C42** (`_partial`: for originals that are no push or pop, and addresses where
no ordinary candidate uses only some of the original's registers; without these
conditions the claim is false, see `C42_refuted_push` and
`C42_refuted_registers`).  However many passes the recovery runs, the original of
every address remains among its candidates; the only exception that can occur is
the report's division by zero for a completely recovered program. -/
theorem C42_original_kept_partial (os : List Cand) (fns : Fns) (addrs : List Int)
    (prog : List (List (RInst Scored))) (hw : Whole fns addrs prog) (hs : List.Forall₂ Safe os prog)
    (orig : List (RInst Scored)) (hlen : orig.length = prog.length) (fuel : Nat)
    (res : Py (Nat × List (List (RInst Scored)) × Bool))
    (h : recoveryLoop (fun _ p => recuperate (collectMeta {} (os.map (·.m))) fns addrs p) orig fuel prog =
      some res) :
    (res = .error .zeroDiv) ∨
    ∃ s, res = .ok s ∧ List.Forall₂ (fun o v => ∃ x ∈ v, x.data.c = o) os s.2.1 := by
  have key : ∀ (fuel p : Nat) (b : Bool) (prog : List (List (RInst Scored)))
      (res : Py (Nat × List (List (RInst Scored)) × Bool)), RecInv os fns addrs prog →
      orig.length = prog.length →
      whileLoop (fun s => s.2.2) (recoveryPass (fun _ p => recuperate (collectMeta {} (os.map (·.m))) fns addrs p)
        orig) fuel (p, prog, b) = some res →
      (res = .error .zeroDiv) ∨ ∃ s, res = .ok s ∧ List.Forall₂ (fun o v => ∃ x ∈ v, x.data.c = o) os s.2.1 := by
    intro fuel
    induction fuel with
    | zero => intro p b prog res _ _ h; simp [whileLoop] at h
    | succ fuel ih =>
      intro p b prog res hinv hl h
      rw [whileLoop] at h
      split at h
      · rcases pass_keeps hinv orig hl p b with he | ⟨prog', b', he, hi, hl', _⟩
        · rw [he] at h
          simp only [Option.some.injEq] at h
          exact Or.inl h.symm
        · rw [he] at h
          exact ih _ _ _ _ hi (by omega) h
      · simp only [Option.some.injEq] at h
        subst h
        refine Or.inr ⟨_, rfl, ?_⟩
        exact hinv.safe.imp fun o v hov => hov.present
  exact key fuel 1 true prog res ⟨hw, hs⟩ hlen h

/-! ### Concrete programs -/

/-- An ordinary candidate with its encoding, condition, opcode and registers. -/
def ordinary (enc : Nat) (cond : Int) (op : Nat) (used : List Nat) : Cand :=
  { m := ⟨false, enc, cond, op, used, used.drop 1, used.take 1⟩
    isBranch := false, isPush := false, isPop := false
    regsRead := used.drop 1, regsWritten := used.take 1, jump := none }

/-- A push. -/
def pushCand (enc : Nat) (cond : Int) (used : List Nat) : Cand :=
  { ordinary enc cond 1 used with isPush := true, regsRead := used, regsWritten := [] }

/-- A branch to `j`. -/
def branchCand (enc : Nat) (cond : Int) (j : Int) : Cand :=
  { ordinary enc cond 7 [15] with isBranch := true, jump := some j }

/-- A candidate as the recovery starts with it. -/
def fresh (c : Cand) : RInst Scored := ⟨c.m.encoding, c.m.encoding, 0, ⟨c, [], false⟩⟩

/-- The program of the positive example: two addresses, one function. -/
def okOrig : List Cand := [ordinary 10 14 2 [1, 2], ordinary 20 0 3 [3]]
/-- Its corrupted form. -/
def okProg : List (List (RInst Scored)) :=
  [[fresh (ordinary 10 14 2 [1, 2]), fresh (ordinary 11 0 3 [4, 2])],
   [fresh (ordinary 20 0 3 [3]), fresh (ordinary 21 14 2 [3])]]

theorem stored_fresh (c : Cand) : Stored (fresh c).data where
  ok := ⟨by simp [fresh], by simp [fresh], by simp [fresh], by simp [fresh, dictGet_nil], by simp [fresh, dictGet_nil]⟩
  ignored := by simp [fresh]

/-- The hypotheses of C38, C39 and C42 are met by a program with two uncertain
addresses. -/
theorem okProg_meets : Whole [(0, (0, 4))] [0, 4] okProg ∧ List.Forall₂ Safe okOrig okProg := by
  constructor
  · refine ⟨by simp, rfl, by simp, ?_, ?_, ?_, ?_⟩
    · intro a ha
      simp only [List.head?_cons, Option.some.injEq] at ha
      subst ha
      decide
    · intro a ha st last h
      simp only [List.mem_cons, List.not_mem_nil, or_false] at ha
      rcases ha with rfl | rfl
      · have : (0, 4) = (st, last) := by simpa [dictGet] using h
        simp only [Prod.mk.injEq] at this
        obtain ⟨rfl, rfl⟩ := this
        decide
      · simp [dictGet] at h
    · intro v hv
      simp only [okProg, List.mem_cons, List.not_mem_nil, or_false] at hv
      rcases hv with rfl | rfl <;> exact ⟨_, List.mem_cons_self, rfl⟩
    · intro v hv x hx
      simp only [okProg, List.mem_cons, List.not_mem_nil, or_false] at hv
      rcases hv with rfl | rfl
      all_goals
        simp only [List.mem_cons, List.not_mem_nil, or_false] at hx
        rcases hx with rfl | rfl <;> exact stored_fresh _
  · refine List.Forall₂.cons ⟨rfl, by decide, Or.inr rfl, ?_, _, List.mem_cons_self, rfl⟩
      (List.Forall₂.cons ⟨rfl, by decide, Or.inr rfl, ?_, _, List.mem_cons_self, rfl⟩ List.Forall₂.nil)
    all_goals
      intro x hx
      simp only [List.mem_cons, List.not_mem_nil, or_false] at hx
      rcases hx with rfl | rfl <;> decide

example : (recuperate (collectMeta {} (okOrig.map (·.m))) [(0, (0, 4))] [0, 4] okProg).isOk = true := by
  decide +kernel

/-- The encodings left after the recovery loop, or the exception. -/
def encsLeft : Option (Py (Nat × List (List (RInst Scored)) × Bool)) → Option (Py (List (List Nat)))
  | none => none
  | some (.error e) => some (.error e)
  | some (.ok s) => some (.ok (s.2.1.map (List.map (·.enc))))

/-- The recovery of a program with the given originals, functions and addresses. -/
def recovered (os : List Cand) (fns : Fns) (addrs : List Int) (prog : List (List Cand)) :
    Option (Py (List (List Nat))) :=
  encsLeft (recoveryLoop (fun _ p => recuperate (collectMeta {} (os.map (·.m))) fns addrs p)
    (os.map fresh) 20 (prog.map (List.map fresh)))

example : recovered okOrig [(0, (0, 4))] [0, 4] (okProg.map (List.map (·.data.c))) =
    some (.ok [[10], [20, 21]]) := by decide +kernel

/-- **C42 is false for push instructions.**  The original push (encoding 10) is
given score zero and discarded; a wrong candidate (11) remains. -/
theorem C42_refuted_push :
    recovered [pushCand 10 14 [13, 4], ordinary 20 14 2 [1, 2], ordinary 30 0 3 [3]] [(0, (0, 8))] [0, 4, 8]
      [[pushCand 10 14 [13, 4], ordinary 11 0 2 [1]], [ordinary 20 14 2 [1, 2], pushCand 21 14 [13]],
       [ordinary 30 0 3 [3], ordinary 31 14 3 [3]]] = some (.ok [[11], [20], [30, 31]]) := by decide +kernel

/-- **C42 is false for ordinary instructions.**  A wrong candidate (11) that uses
only one of the original's registers is taken as certain and the original (10) is
discarded. -/
theorem C42_refuted_registers :
    recovered [ordinary 10 14 1 [1, 2], ordinary 20 0 2 [3], ordinary 30 3 5 [1]] [(0, (0, 8))] [0, 4, 8]
      [[ordinary 10 14 1 [1, 2], ordinary 11 0 2 [1]], [ordinary 20 0 2 [3], ordinary 21 14 1 [3, 2]],
       [ordinary 30 3 5 [1], ordinary 31 3 5 [1]]] = some (.ok [[11], [20], [30, 31]]) := by decide +kernel

/-- **C39 fails in a later pass.**  All originals are among the candidates at the
start; the first pass discards one of them, after which a count exceeds the number
of addresses and the next pass raises the invalid-probability error. -/
theorem C39_refuted_later_pass :
    recovered [ordinary 10 14 2 [1], pushCand 20 14 [13, 4], ordinary 30 0 4 [3], ordinary 40 3 5 [1]]
      [(0, (0, 12))] [0, 4, 8, 12]
      [[ordinary 10 14 2 [1]], [pushCand 20 14 [13, 4], ordinary 21 0 4 [3]],
       [ordinary 30 0 4 [3], ordinary 31 14 99 [3], pushCand 32 0 [13]],
       [ordinary 40 3 5 [1], ordinary 41 3 5 [1]]] = some (.error .runtime) := by decide +kernel

/-- Without the functions of the program (their default), a forward branch makes
the recuperator raise `KeyError`. -/
theorem C39_refuted_no_functions :
    recovered [branchCand 10 14 4, ordinary 20 0 4 [3]] [] [0, 4]
      [[branchCand 10 14 4], [ordinary 20 0 4 [3], ordinary 21 14 99 [3]]] = some (.error .key) := by
  decide +kernel

end Verif
