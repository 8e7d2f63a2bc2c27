import Verif.Props.PassExact
import Verif.Proof.RunSafe

/-!
# C42: exactly which candidates a whole recovery leaves
-/

namespace Verif
open Spec

/-! ### The rule does not depend on the order of the candidates -/

theorem same_refl (p : List (Int × List Cand)) : SameCandidates p p := by
  unfold SameCandidates
  induction p with
  | nil => exact .nil
  | cons a p ih => exact .cons ⟨rfl, List.Perm.refl _⟩ ih

theorem same_symm {p q : List (Int × List Cand)} (h : SameCandidates p q) : SameCandidates q p := by
  unfold SameCandidates at *
  induction h with
  | nil => exact .nil
  | cons h _ ih => exact .cons ⟨h.1.symm, h.2.symm⟩ ih

theorem same_trans {p q r : List (Int × List Cand)} (h : SameCandidates p q) (h' : SameCandidates q r) :
    SameCandidates p r := by
  unfold SameCandidates at *
  induction h generalizing r with
  | nil => cases h'; exact .nil
  | cons h _ ih =>
    cases h' with
    | cons h1 h2 => exact .cons ⟨h.1.trans h1.1, h.2.trans h1.2⟩ (ih h2)

theorem placesWith_same {p q : List (Int × List Cand)} (h : SameCandidates p q) (f : MInst → Bool) :
    placesWith p f = placesWith q f := by
  unfold placesWith
  unfold SameCandidates at h
  induction h with
  | nil => rfl
  | @cons a b p q h _ ih =>
    rw [List.filter_cons, List.filter_cons]
    have : (a.2.any fun x => !x.m.ignore && f x.m) = (b.2.any fun x => !x.m.ignore && f x.m) := by
      rw [Bool.eq_iff_iff, List.any_eq_true, List.any_eq_true]
      simp only [h.2.mem_iff]
    rw [this]
    split
    · rw [List.length_cons, List.length_cons, ih]
    · exact ih

theorem forced_same {orig : List (Int × MInst)} {p q : List (Int × List Cand)} (h : SameCandidates p q)
    (f : MInst → Bool) : Forced orig p f ↔ Forced orig q f := by
  unfold Forced; rw [placesWith_same h]

theorem sure_same {orig : List (Int × MInst)} {p q : List (Int × List Cand)} (h : SameCandidates p q)
    (x : Cand) : Sure orig p x ↔ Sure orig q x := by
  unfold Sure
  simp only [forced_same h]

theorem wins_same {orig : List (Int × MInst)} {p q : List (Int × List Cand)} (h : SameCandidates p q)
    (x : Cand) : Wins orig p x ↔ Wins orig q x := by
  unfold Wins; rw [sure_same h]

theorem leftOver_same {orig : List (Int × MInst)} {p q : List (Int × List Cand)} (h : SameCandidates p q)
    {cs ds : List Cand} (hp : cs.Perm ds) (x : Cand) : LeftOver orig p cs x ↔ LeftOver orig q ds x := by
  unfold LeftOver Scores
  simp only [wins_same h, sure_same h, hp.mem_iff]

theorem afterPass_same {orig : List (Int × MInst)} {p q : List (Int × List Cand)} (h : SameCandidates p q) :
    SameCandidates (afterPass orig p) (afterPass orig q) := by
  unfold afterPass
  have key : ∀ {a b : List (Int × List Cand)}, SameCandidates a b →
      SameCandidates (a.map fun t => (t.1, t.2.filter fun x => decide (LeftOver orig p t.2 x)))
        (b.map fun t => (t.1, t.2.filter fun x => decide (LeftOver orig q t.2 x))) := by
    intro a b hab
    unfold SameCandidates at hab ⊢
    induction hab with
    | nil => exact .nil
    | @cons s t a b hst _ ih =>
      refine .cons ⟨hst.1, ?_⟩ ih
      refine (hst.2.filter _).trans (List.Perm.of_eq ?_)
      apply List.filter_congr
      intro x _
      rw [decide_eq_decide]
      exact leftOver_same h hst.2 x
  exact key h

theorem has_same {orig : List (Int × MInst)} {p q : List (Int × List Cand)} (h : SameCandidates p q)
    (hp : HasOriginals orig p) : HasOriginals orig q := by
  intro o ho
  obtain ⟨v, hv, x, hx, e⟩ := hp o ho
  unfold SameCandidates at h
  obtain ⟨i, hi, hvi⟩ := List.mem_iff_getElem.1 hv
  have hi' : i < q.length := by rw [← h.length_eq]; exact hi
  have hab := forall₂_getElem h i hi hi'
  rw [hvi] at hab
  refine ⟨q[i].2, ?_, x, hab.2.mem_iff.1 hx, e⟩
  have : q[i] = (o.1, q[i].2) := Prod.ext hab.1.symm rfl
  rw [← this]
  exact List.getElem_mem _

/-! ### The passes of the model -/

theorem bare_nth {addrs : List Int} {prog : List (List (RInst Scored))} (hl : addrs.length = prog.length) (i : Nat)
    (h : i < prog.length) : (bare addrs prog)[i]'(by simp [bare]; omega) = (addrs[i]'(by omega), prog[i].map (·.data.c)) := by
  simp [bare]

theorem bare_length {addrs : List Int} {prog : List (List (RInst Scored))} (hl : addrs.length = prog.length) :
    (bare addrs prog).length = prog.length := by simp [bare]; omega

/-- The candidates left by a pass are those of the rule. -/
theorem pass_same {orig : List (Int × MInst)} {addrs : List Int} {prog prog' : List (List (RInst Scored))}
    (hl : addrs.length = prog.length)
    (h : List.Forall₂ (fun v' v => ∃ p : Cand → Bool,
        (∀ c ∈ v.map (·.data.c), p c = true ↔ LeftOver orig (bare addrs prog) (v.map (·.data.c)) c) ∧
        (v'.map seenOf).Perm ((v.filter fun x => p x.data.c).map seenOf)) prog' prog) :
    SameCandidates (bare addrs prog') (afterPass orig (bare addrs prog)) := by
  have hl' : prog'.length = prog.length := h.length_eq
  unfold SameCandidates afterPass
  apply forall₂_of_getElem
  · rw [List.length_map, bare_length hl, bare_length (by omega), hl']
  · intro i h1 h2
    have i1 : i < prog'.length := by rw [bare_length (by omega)] at h1; exact h1
    have i2 : i < prog.length := by omega
    rw [List.getElem_map, bare_nth hl i i2, bare_nth (by omega) i i1]
    refine ⟨rfl, ?_⟩
    obtain ⟨p, hp, hperm⟩ := forall₂_getElem h i i1 i2
    have hm := hperm.map fun s : Nat × Nat × Cand => s.2.2
    rw [List.map_map, List.map_map] at hm
    refine (List.Perm.of_eq ?_).trans (hm.trans (List.Perm.of_eq ?_))
    · rfl
    · show ((prog[i].filter fun x => p x.data.c)).map (fun x => x.data.c) = _
      dsimp only
      rw [List.filter_map]
      congr 1
      apply List.filter_congr
      intro x hx
      rw [Bool.eq_iff_iff, hp _ (List.mem_map.2 ⟨x, hx, rfl⟩)]
      simp

theorem afterPass_le (orig : List (Int × MInst)) (p : List (Int × List Cand)) (i : Nat) (h : i < p.length) :
    ((afterPass orig p)[i]'(by simp [afterPass]; exact h)).2.length ≤ p[i].2.length := by
  simp only [afterPass, List.getElem_map]
  exact List.length_filter_le _ _

/-- Nothing is discarded exactly if as many candidates remain at every address. -/
theorem afterPass_fix (orig : List (Int × MInst)) (p : List (Int × List Cand)) :
    afterPass orig p = p ↔
      ∀ (i : Nat) (h : i < p.length), ((afterPass orig p)[i]'(by simp [afterPass]; exact h)).2.length = p[i].2.length := by
  constructor
  · intro h i hi
    have : ∀ (q : List (Int × List Cand)) (hq : q = p) (hi' : i < q.length), (q[i]).2.length = p[i].2.length := by
      rintro q rfl _; rfl
    exact this _ h _
  · intro h
    apply List.ext_getElem (by simp [afterPass])
    intro i h1 h2
    have := h i h2
    simp only [afterPass, List.getElem_map] at this ⊢
    refine Prod.ext rfl ?_
    exact List.filter_eq_self.2 (List.length_filter_eq_length_iff.1 this)

theorem scoreOne_c {coll : Collector} {fns : Fns} {p : CProg} {cp : Counters} {pl : Place} {x y : RInst Scored}
    (h : scoreOne coll fns p cp pl x = .ok y) :
    y.enc = x.enc ∧ y.str = x.str ∧ y.data.c = x.data.c := by
  unfold scoreOne at h
  obtain ⟨d, h1, h⟩ := except_bind_ok h
  obtain ⟨v, _, h⟩ := except_bind_ok h
  cases h
  refine ⟨rfl, rfl, ?_⟩
  show d.c = x.data.c
  unfold scoreCand at h1
  split at h1
  · cases h1; rfl
  · obtain ⟨_, _, h1⟩ := except_bind_ok h1
    obtain ⟨_, _, h1⟩ := except_bind_ok h1
    obtain ⟨_, _, h1⟩ := except_bind_ok h1
    obtain ⟨_, _, h1⟩ := except_bind_ok h1
    obtain ⟨_, _, h1⟩ := except_bind_ok h1
    split at h1
    · cases h1; rfl
    · obtain ⟨_, _, h1⟩ := except_bind_ok h1
      cases h1; rfl

theorem mapM_seen {coll : Collector} {fns : Fns} {p : CProg} {cp : Counters} {pl : Place} {l l' : List (RInst Scored)}
    (h : l.mapM (scoreOne coll fns p cp pl) = .ok l') :
    l'.length ≤ l.length ∧ ∀ x ∈ l', ∃ y ∈ l, x.enc = y.enc ∧ x.str = y.str ∧ x.data.c = y.data.c := by
  have := mapM_all _ l l' h
  refine ⟨this.length_eq.ge, ?_⟩
  intro x hx
  obtain ⟨y, hy, hxy⟩ := C38_evidence.forall₂_mem_right this hx
  exact ⟨y, hy, scoreOne_c hxy⟩

theorem scoreLoop_seen {coll : Collector} {fns : Fns} {p : CProg} {cp : Counters} {low high : Int} :
    ∀ (qs : List (Int × List (RInst Scored))) (first : Bool) (cur : Int) (r : List (List (RInst Scored))),
      scoreLoop coll fns p cp low high first cur qs = .ok r → CameFrom r (qs.map (·.2)) := by
  intro qs
  induction qs with
  | nil =>
    intro first cur r h
    simp only [scoreLoop, Except.ok.injEq] at h
    subst h
    exact .nil
  | cons q qs ih =>
    intro first cur r h
    unfold scoreLoop at h
    obtain ⟨l, h1, h⟩ := except_bind_ok h
    obtain ⟨rest, h2, h⟩ := except_bind_ok h
    cases h
    exact .cons (mapM_seen h1) (ih _ _ _ h2)

theorem recuperate_seen {coll : Collector} {fns : Fns} {addrs : List Int} {prog prog' : List (List (RInst Scored))}
    (hl : addrs.length = prog.length) (h : recuperate coll fns addrs prog = .ok prog') : CameFrom prog' prog := by
  unfold recuperate at h
  dsimp only at h
  split at h
  · have := scoreLoop_seen _ _ _ _ h
    rwa [List.map_snd_zip (by omega)] at this
  · cases h

theorem sorted_within (l : List (List (RInst Scored))) :
    CameFrom (l.map fun v => if 1 < v.length then sortScore v else v) l := by
  induction l with
  | nil => exact .nil
  | cons v l ih =>
    refine .cons ?_ ih
    dsimp only
    split
    · exact ⟨(sortScore_perm v).length_eq.le, fun x hx => ⟨x, (sortScore_perm v).mem_iff.1 hx, rfl, rfl, rfl⟩⟩
    · exact ⟨le_rfl, fun x hx => ⟨x, hx, rfl, rfl, rfl⟩⟩

theorem pass_seen {coll : Collector} {fns : Fns} {addrs : List Int} {orig : List (RInst Scored)}
    {prog : List (List (RInst Scored))} (hl : addrs.length = prog.length) (hlen : orig.length = prog.length) {n : Nat} {b : Bool}
    {s : Nat × List (List (RInst Scored)) × Bool}
    (h : recoveryPass (fun _ q => recuperate coll fns addrs q) orig (n, prog, b) = .ok s) :
    CameFrom s.2.1 prog ∧ s.2.1.length = prog.length := by
  have hfin : CameFrom s.2.1 prog := by
    unfold recoveryPass at h
    obtain ⟨p1, h1, h⟩ := except_bind_ok h
    have w1 := recuperate_seen hl h1
    have l1 : p1.length = prog.length := w1.length_eq
    rcases printReport_eq orig p1 (by omega) with ⟨r, e1, _, _, _⟩ | ⟨_, e1⟩
    · rw [e1] at h
      obtain ⟨p2, h2, h⟩ := except_bind_ok h
      cases h2
      simp only at h
      generalize hp2 : p1.map (fun l => if 1 < l.length then sortScore l else l) = p2 at h
      have w2 : CameFrom p2 p1 := by
        rw [← hp2]
        exact sorted_within p1
      have hmem : ∀ (l : List (List (RInst Scored))) (v : List (RInst Scored)), v ∈ l → v.length ≤ (l.map List.length).sum := by
        intro l
        induction l with
        | nil => simp
        | cons w l ih =>
          intro v hv
          rcases List.mem_cons.1 hv with rfl | hv
          · simp
          · have := ih v hv; simp; omega
      obtain ⟨prog3, b', f1, f2, _⟩ := pruneAll_ok ((p2.map List.length).sum + 1) p2
        (fun v hv => by have := hmem p2 v hv; omega)
      rw [f1] at h
      simp only at h
      obtain ⟨p4, h4, h⟩ := except_bind_ok h
      cases h4
      cases h
      have w3 : CameFrom prog3 p2 := by
        refine List.Forall₂.flip ?_
        exact f2.imp fun v w h => ⟨h.length_le, fun x (hx : x ∈ w) => ⟨x, h.subset hx, rfl, rfl, rfl⟩⟩
      exact w3.trans (w2.trans w1)
    · rw [e1] at h
      cases h
  exact ⟨hfin, hfin.length_eq⟩

theorem loop_seen {coll : Collector} {fns : Fns} {addrs : List Int} {orig : List (RInst Scored)} :
    ∀ (fuel : Nat) (s t : Nat × List (List (RInst Scored)) × Bool), addrs.length = s.2.1.length →
      orig.length = s.2.1.length →
      whileLoop (fun s => s.2.2) (recoveryPass (fun _ q => recuperate coll fns addrs q) orig) fuel s = some (.ok t) →
      CameFrom t.2.1 s.2.1 := by
  intro fuel
  induction fuel with
  | zero => intro s t _ _ h; simp [whileLoop] at h
  | succ fuel ih =>
    intro s t hl hlen h
    rw [whileLoop] at h
    split at h
    · cases hp : recoveryPass (fun _ q => recuperate coll fns addrs q) orig s with
      | error e => rw [hp] at h; simp at h
      | ok s' =>
        rw [hp] at h
        obtain ⟨h1, h2⟩ := pass_seen (n := s.1) (b := s.2.2) hl hlen hp
        exact (ih s' t (by omega) (by omega) h).trans h1
    · simp only [Option.some.injEq, Except.ok.injEq] at h
      subst h
      exact cameFrom_refl _

theorem has_within {orig : List (Int × MInst)} {addrs : List Int} {a b : List (List (RInst Scored))}
    (hl : addrs.length = b.length) (h : CameFrom a b) (ha : HasOriginals orig (bare addrs a)) :
    HasOriginals orig (bare addrs b) := by
  have hab : a.length = b.length := h.length_eq
  intro o ho
  obtain ⟨v, hv, x, hx, e⟩ := ha o ho
  obtain ⟨i, hi, hvi⟩ := List.mem_iff_getElem.1 hv
  have i1 : i < a.length := by rw [bare_length (by omega)] at hi; exact hi
  have i2 : i < b.length := by omega
  rw [bare_nth (by omega) i i1] at hvi
  obtain ⟨e1, e2⟩ := Prod.mk.inj hvi
  subst e2
  rw [← e1]
  refine ⟨b[i].map (·.data.c), ?_, ?_⟩
  · have := List.getElem_mem (l := bare addrs b) (n := i) (by rw [bare_length hl]; exact i2)
    rw [bare_nth hl i i2] at this
    exact this
  · obtain ⟨y, hy, rfl⟩ := List.mem_map.1 hx
    obtain ⟨z, hz, _, _, e'⟩ := (forall₂_getElem h i i1 i2).2 y hy
    exact ⟨z.data.c, List.mem_map.2 ⟨z, hz, rfl⟩, by rw [← e', e]⟩

/-! ### Whole runs -/

theorem afterPasses_same {orig : List (Int × MInst)} {p q : List (Int × List Cand)} (h : SameCandidates p q) :
    ∀ k, SameCandidates (afterPasses orig p k) (afterPasses orig q k)
  | 0 => h
  | k + 1 => afterPass_same (afterPasses_same h k)

theorem afterPasses_step (orig : List (Int × MInst)) (p : List (Int × List Cand)) :
    ∀ k, afterPasses orig (afterPass orig p) k = afterPasses orig p (k + 1)
  | 0 => rfl
  | k + 1 => by
    show afterPass orig (afterPasses orig (afterPass orig p) k) = _
    rw [afterPasses_step orig p k]
    rfl

theorem same_lengths {p q : List (Int × List Cand)} (h : SameCandidates p q) (i : Nat) (h1 : i < p.length)
    (h2 : i < q.length) : p[i].2.length = q[i].2.length := by
  unfold SameCandidates at h
  exact (forall₂_getElem h i h1 h2).2.length_eq

theorem fix_same {orig : List (Int × MInst)} {p q : List (Int × List Cand)} (h : SameCandidates p q)
    (hf : afterPass orig p = p) : afterPass orig q = q := by
  have hl : p.length = q.length := by unfold SameCandidates at h; exact h.length_eq
  rw [afterPass_fix] at hf ⊢
  intro i hi
  have h1 := hf i (by omega)
  rw [same_lengths h i (by omega) hi] at h1
  rw [← h1]
  exact (same_lengths (afterPass_same h) i _ _).symm

theorem one_same {p q : List (Int × List Cand)} (h : SameCandidates p q)
    (h1 : ∀ t ∈ p, t.2.length ≤ 1) : ∀ t ∈ q, t.2.length ≤ 1 := by
  have hl : p.length = q.length := by unfold SameCandidates at h; exact h.length_eq
  intro t ht
  obtain ⟨i, hi, rfl⟩ := List.mem_iff_getElem.1 ht
  rw [← same_lengths h i (by omega) hi]
  exact h1 _ (List.getElem_mem _)

/-- At every address a program that has its originals has one that can be decoded. -/
theorem has_nth {orig : List (Int × MInst)} {addrs : List Int} (hkeys : orig.map (·.1) = addrs) (hnd : addrs.Nodup)
    {p : List (Int × List Cand)} (hp : p.map (·.1) = addrs) (h : HasOriginals orig p) (i : Nat) (hi : i < p.length) :
    ∃ q ∈ orig, ∃ x ∈ p[i].2, x.m = q.2 := by
  have ha : p[i].1 ∈ orig.map (·.1) := by
    rw [hkeys, ← hp]; exact List.mem_map.2 ⟨_, List.getElem_mem _, rfl⟩
  obtain ⟨q, hq, e⟩ := List.mem_map.1 ha
  obtain ⟨v, hv, x, hx, ex⟩ := h q hq
  have : v = p[i].2 := by
    have hn : (p.map (·.1)).Nodup := by rw [hp]; exact hnd
    rw [e] at hv
    exact (Prod.mk.inj (List.inj_on_of_nodup_map hn hv (List.getElem_mem hi) rfl)).2
  subst this
  exact ⟨q, hq, x, hx, ex⟩

theorem bare_fst {addrs : List Int} {prog : List (List (RInst Scored))} (hl : addrs.length = prog.length) :
    (bare addrs prog).map (·.1) = addrs := by
  simp only [bare]
  rw [List.map_fst_zip]
  simp; omega

theorem afterPass_fst (orig : List (Int × MInst)) (p : List (Int × List Cand)) :
    (afterPass orig p).map (·.1) = p.map (·.1) := by
  unfold afterPass; rw [List.map_map]; rfl

theorem sum_lt_of_nth {a b : List (List (RInst Scored))} (hl : a.length = b.length)
    (hle : ∀ (i : Nat) (h1 : i < a.length) (h2 : i < b.length), a[i].length ≤ b[i].length)
    (i : Nat) (h1 : i < a.length) (h2 : i < b.length) (hlt : a[i].length < b[i].length) :
    (a.map List.length).sum < (b.map List.length).sum := by
  induction a generalizing b i with
  | nil => simp at h1
  | cons v a ih =>
    cases b with
    | nil => simp at hl
    | cons w b =>
      have hl' : a.length = b.length := by simpa using hl
      have hle' : ∀ (i : Nat) (h1 : i < a.length) (h2 : i < b.length), a[i].length ≤ b[i].length := by
        intro j j1 j2
        have := hle (j + 1) (by simp; omega) (by simp; omega)
        simpa using this
      have h0 : v.length ≤ w.length := hle 0 (by simp) (by simp)
      simp only [List.map_cons, List.sum_cons]
      cases i with
      | zero =>
        have hlt' : v.length < w.length := hlt
        have : (a.map List.length).sum ≤ (b.map List.length).sum := by
          apply List.Forall₂.sum_le_sum
          rw [List.forall₂_map_left_iff, List.forall₂_map_right_iff]
          exact forall₂_of_getElem hl' hle'
        omega
      | succ i =>
        have := ih hl' hle' i (by simpa using h1) (by simpa using h2) (by simpa using hlt)
        omega

theorem whole_of {orig : List (Int × MInst)} {fns : Fns} {addrs : List Int} {prog prog' : List (List (RInst Scored))}
    (hw : Whole fns addrs prog) (hkeys : orig.map (·.1) = addrs) (hdef : ∀ q ∈ orig, q.2.ignore = false)
    (hl : prog'.length = prog.length) (hst : ∀ v ∈ prog', ∀ x ∈ v, Stored x.data)
    (hh : HasOriginals orig (bare addrs prog')) : Whole fns addrs prog' := by
  have hal : addrs.length = prog'.length := by rw [hw.length, hl]
  refine ⟨hw.nodup, hal, hw.nonempty, hw.low, hw.fn, ?_, hst⟩
  intro v hv
  obtain ⟨j, hj, rfl⟩ := List.mem_iff_getElem.1 hv
  obtain ⟨q, hq, x, hx, e⟩ := has_nth hkeys hw.nodup (bare_fst hal) hh j (by rw [bare_length hal]; exact hj)
  rw [bare_nth hal j hj] at hx
  obtain ⟨y, hy, rfl⟩ := List.mem_map.1 hx
  exact ⟨y, hy, by rw [e]; exact hdef q hq⟩

theorem run_aux (orig : List (Int × MInst)) (fns : Fns) (addrs : List Int) (hkeys : orig.map (·.1) = addrs)
    (hdef : ∀ q ∈ orig, q.2.ignore = false) (hu : ∀ q ∈ orig, q.2.used.Nodup) (report : List (RInst Scored)) :
    ∀ (m : Nat) (prog : List (List (RInst Scored))), (prog.map List.length).sum ≤ m → Whole fns addrs prog →
      report.length = prog.length →
      (∀ k, HasOriginals orig (afterPasses orig (bare addrs prog) k)) → ∀ (n fuel : Nat), m + 2 ≤ fuel →
      ∃ N, afterPass orig (afterPasses orig (bare addrs prog) N) = afterPasses orig (bare addrs prog) N ∧
        (∀ k < N, afterPass orig (afterPasses orig (bare addrs prog) k) ≠ afterPasses orig (bare addrs prog) k) ∧
        (((∀ t ∈ afterPasses orig (bare addrs prog) N, t.2.length ≤ 1) ∧
          whileLoop (fun s => s.2.2) (recoveryPass (fun _ q => recuperate (collectMeta {} (orig.map (·.2))) fns addrs q) report)
            fuel (n, prog, true) = some (.error .zeroDiv)) ∨
         ((∃ t ∈ afterPasses orig (bare addrs prog) N, 1 < t.2.length) ∧ ∃ prog',
          whileLoop (fun s => s.2.2) (recoveryPass (fun _ q => recuperate (collectMeta {} (orig.map (·.2))) fns addrs q) report)
            fuel (n, prog, true) = some (.ok (n + N + 1, prog', false)) ∧
          SameCandidates (bare addrs prog') (afterPasses orig (bare addrs prog) N) ∧
          ∀ v ∈ prog', ∀ x ∈ v, Stored x.data)) := by
  intro m
  induction m with
  | zero =>
    intro prog hm hw hlen hh n fuel hf
    exfalso
    have hne : prog ≠ [] := by
      intro h
      have := hw.length
      rw [h] at this
      exact hw.nonempty (List.length_eq_zero_iff.1 this)
    obtain ⟨v, hv⟩ := List.exists_mem_of_ne_nil prog hne
    obtain ⟨x, hx, _⟩ := hw.valid v hv
    have h0 : v.length = 0 := by
      have h1 : (prog.map List.length).sum = 0 := by omega
      exact List.sum_eq_zero_iff.1 h1 _ (List.mem_map.2 ⟨v, hv, rfl⟩)
    rw [List.length_eq_zero_iff] at h0
    rw [h0] at hx
    cases hx
  | succ m ih =>
    intro prog hm hw hlen hh n fuel hf
    have hc : Covers orig (bare addrs prog) := ⟨by rw [hkeys]; exact hw.nodup, fun q hq _ => hh 0 q hq⟩
    have hbl := bare_length (addrs := addrs) (prog := prog) hw.length
    have hb1 : (afterPass orig (bare addrs prog)).length = prog.length := by simp [afterPass, hbl]
    obtain ⟨fuel, rfl⟩ : ∃ f, fuel = f + 1 := ⟨fuel - 1, by omega⟩
    rw [whileLoop]
    dsimp only
    rw [if_pos rfl]
    rcases pass_exact_stored orig fns addrs prog hw hc (fun q hq _ => hu q hq) report hlen n true with
      ⟨h1, h2⟩ | ⟨hmany, prog', b', hpass, hleft, hb', hst⟩
    · refine ⟨0, ?_, fun k hk => absurd hk (by omega), Or.inl ⟨?_, ?_⟩⟩
      · show afterPass orig (bare addrs prog) = bare addrs prog
        rw [afterPass_fix]
        intro i hi
        have hpi : i < prog.length := by omega
        have hle := afterPass_le orig (bare addrs prog) i hi
        have hone : (bare addrs prog)[i].2.length ≤ 1 := by
          rw [bare_nth hw.length i hpi, List.length_map]
          exact h1 _ (List.getElem_mem _)
        obtain ⟨_, _, x, hx, _⟩ := has_nth hkeys hw.nodup
          (p := afterPass orig (bare addrs prog)) (by rw [afterPass_fst, bare_fst hw.length]) (hh 1) i (by omega)
        have := List.length_pos_of_mem hx
        omega
      · intro t ht
        obtain ⟨i, hi, rfl⟩ := List.mem_iff_getElem.1 (show t ∈ bare addrs prog from ht)
        rw [bare_nth hw.length i (by omega), List.length_map]
        exact h1 _ (List.getElem_mem _)
      · rw [h2]
    · have hl' : prog'.length = prog.length := hleft.length_eq
      have hS := pass_same hw.length hleft
      have hbl' := bare_length (addrs := addrs) (prog := prog') (by rw [hw.length, hl'])
      have hlens : ∀ (i : Nat) (h1 : i < prog'.length) (h2 : i < prog.length),
          prog'[i].length = ((afterPass orig (bare addrs prog))[i]'(by omega)).2.length := by
        intro i h1 h2
        have := same_lengths hS i (by omega) (by omega)
        rw [bare_nth (by rw [hw.length, hl']) i h1, List.length_map] at this
        exact this
      have hbn : ∀ (i : Nat) (h2 : i < prog.length), ((bare addrs prog)[i]'(by omega)).2.length = prog[i].length := by
        intro i h2
        rw [bare_nth hw.length i h2, List.length_map]
      rw [hpass]
      dsimp only
      by_cases hb : b' = true
      · subst hb
        obtain ⟨i, v, v', hv, hv', hlt⟩ := hb'.1 rfl
        obtain ⟨hi, rfl⟩ := List.getElem?_eq_some_iff.1 hv
        obtain ⟨hi', rfl⟩ := List.getElem?_eq_some_iff.1 hv'
        have hsum : (prog'.map List.length).sum < (prog.map List.length).sum := by
          refine sum_lt_of_nth hl' ?_ i hi' hi hlt
          intro j j1 j2
          rw [hlens j j1 j2, ← hbn j j2]
          exact afterPass_le orig _ j _
        have hh' : ∀ k, HasOriginals orig (afterPasses orig (bare addrs prog') k) := by
          intro k
          refine has_same (same_symm (afterPasses_same hS k)) ?_
          rw [afterPasses_step]
          exact hh (k + 1)
        have hw' : Whole fns addrs prog' := whole_of hw hkeys hdef hl' hst (hh' 0)
        obtain ⟨N, g1, g2, g3⟩ := ih prog' (by omega) hw' (by omega) hh' (n + 1) fuel (by omega)
        have hSN := fun k => afterPasses_same (orig := orig) hS k
        simp only [afterPasses_step] at hSN
        refine ⟨N + 1, fix_same (hSN N) g1, ?_, ?_⟩
        · intro k hk hfix
          cases k with
          | zero =>
            have := (afterPass_fix orig (bare addrs prog)).1 hfix i (by omega)
            rw [hbn i hi] at this
            have h2 := hlens i hi' hi
            omega
          | succ k => exact g2 k (by omega) (fix_same (same_symm (hSN k)) hfix)
        · rcases g3 with ⟨g3, g4⟩ | ⟨⟨t, ht, g3⟩, p2, g4, g5, g6⟩
          · exact Or.inl ⟨one_same (hSN N) g3, g4⟩
          · refine Or.inr ⟨?_, p2, ?_, same_trans g5 (hSN N), g6⟩
            · by_contra hcon
              push Not at hcon
              have := one_same (same_symm (hSN N)) hcon t ht
              omega
            · rw [g4, show n + 1 + N + 1 = n + (N + 1) + 1 by omega]
      · have hb0 : b' = false := by simpa using hb
        subst hb0
        refine ⟨0, ?_, fun k hk => absurd hk (by omega), Or.inr ⟨?_, prog', ?_, ?_, hst⟩⟩
        · show afterPass orig (bare addrs prog) = bare addrs prog
          rw [afterPass_fix]
          intro i hi
          have hpi : i < prog.length := by omega
          rw [hbn i hpi, ← hlens i (by omega) hpi]
          have hle := afterPass_le orig (bare addrs prog) i hi
          rw [hbn i hpi, ← hlens i (by omega) hpi] at hle
          by_contra hne
          exact hb (hb'.2 ⟨i, prog[i], prog'[i]'(by omega), List.getElem?_eq_getElem _, List.getElem?_eq_getElem _, by omega⟩)
        · obtain ⟨v, hv, h1⟩ := hmany
          obtain ⟨i, hi, rfl⟩ := List.mem_iff_getElem.1 hv
          refine ⟨(bare addrs prog)[i]'(by omega), List.getElem_mem _, ?_⟩
          rw [hbn i hi]
          exact h1
        · obtain ⟨fuel, rfl⟩ : ∃ f, fuel = f + 1 := ⟨fuel - 1, by omega⟩
          rw [whileLoop]
          rfl
        · have hfix : afterPass orig (bare addrs prog) = bare addrs prog := by
            rw [afterPass_fix]
            intro i hi
            have hpi : i < prog.length := by omega
            rw [hbn i hpi, ← hlens i (by omega) hpi]
            have hle := afterPass_le orig (bare addrs prog) i hi
            rw [hbn i hpi, ← hlens i (by omega) hpi] at hle
            by_contra hne
            exact hb (hb'.2 ⟨i, prog[i], prog'[i]'(by omega), List.getElem?_eq_getElem _, List.getElem?_eq_getElem _, by omega⟩)
          rw [hfix] at hS
          exact hS

theorem not_has_of_loop {orig : List (Int × MInst)} {coll : Collector} {fns : Fns} {addrs : List Int}
    {report : List (RInst Scored)} {fuel n : Nat} {prog : List (List (RInst Scored))} {b : Bool}
    {t : Nat × List (List (RInst Scored)) × Bool} (hl : addrs.length = prog.length) (hlen : report.length = prog.length)
    (h : whileLoop (fun s => s.2.2) (recoveryPass (fun _ q => recuperate coll fns addrs q) report) fuel (n, prog, b) =
      some (.ok t)) (hn : ¬ HasOriginals orig (bare addrs prog)) : ¬ HasOriginals orig (bare addrs t.2.1) :=
  fun hh => hn (has_within hl (loop_seen fuel (n, prog, b) t hl hlen h) hh)

theorem run_lost (orig : List (Int × MInst)) (fns : Fns) (addrs : List Int) (hkeys : orig.map (·.1) = addrs)
    (hdef : ∀ q ∈ orig, q.2.ignore = false) (hu : ∀ q ∈ orig, q.2.used.Nodup) (report : List (RInst Scored)) :
    ∀ (k : Nat) (prog : List (List (RInst Scored))), Whole fns addrs prog → report.length = prog.length →
      ¬ HasOriginals orig (afterPasses orig (bare addrs prog) k) →
      ∀ (n fuel : Nat) (t : Nat × List (List (RInst Scored)) × Bool),
        whileLoop (fun s => s.2.2) (recoveryPass (fun _ q => recuperate (collectMeta {} (orig.map (·.2))) fns addrs q) report)
          fuel (n, prog, true) = some (.ok t) → ¬ HasOriginals orig (bare addrs t.2.1) := by
  intro k
  induction k with
  | zero =>
    intro prog hw hlen hn n fuel t h
    exact not_has_of_loop hw.length hlen h hn
  | succ k ih =>
    intro prog hw hlen hn n fuel t h
    by_cases hh : HasOriginals orig (bare addrs prog)
    · have hc : Covers orig (bare addrs prog) := ⟨by rw [hkeys]; exact hw.nodup, fun q hq _ => hh q hq⟩
      cases fuel with
      | zero => simp [whileLoop] at h
      | succ fuel =>
        rw [whileLoop] at h
        dsimp only at h
        rw [if_pos rfl] at h
        rcases pass_exact_stored orig fns addrs prog hw hc (fun q hq _ => hu q hq) report hlen n true with
          ⟨h1, h2⟩ | ⟨hmany, prog', b', hpass, hleft, hb', hst⟩
        · rw [h2] at h
          simp at h
        · rw [hpass] at h
          dsimp only at h
          have hl' : prog'.length = prog.length := hleft.length_eq
          have hal : addrs.length = prog'.length := by rw [hw.length, hl']
          have hS := pass_same hw.length hleft
          have hn' : ¬ HasOriginals orig (afterPasses orig (bare addrs prog') k) := by
            intro hcon
            refine hn ?_
            rw [← afterPasses_step]
            exact has_same (afterPasses_same hS k) hcon
          by_cases hh' : HasOriginals orig (bare addrs prog')
          · have hw' := whole_of hw hkeys hdef hl' hst hh'
            cases b' with
            | true => exact ih prog' hw' (by omega) hn' (n + 1) fuel t h
            | false =>
              exfalso
              have hbl := bare_length (addrs := addrs) (prog := prog) hw.length
              have hfix : afterPass orig (bare addrs prog) = bare addrs prog := by
                rw [afterPass_fix]
                intro i hi
                have hpi : i < prog.length := by omega
                have hpi' : i < prog'.length := by omega
                have e1 := same_lengths hS i (by rw [bare_length hal]; exact hpi') (by simp [afterPass, hbl]; exact hpi)
                rw [bare_nth hal i hpi', List.length_map] at e1
                rw [← e1, bare_nth hw.length i hpi, List.length_map]
                have hle := afterPass_le orig (bare addrs prog) i hi
                rw [← e1, bare_nth hw.length i hpi, List.length_map] at hle
                by_contra hne
                have := hb'.2 ⟨i, prog[i], prog'[i], List.getElem?_eq_getElem _, List.getElem?_eq_getElem _, by omega⟩
                cases this
              have hall : ∀ j, afterPasses orig (bare addrs prog) j = bare addrs prog := by
                intro j
                induction j with
                | zero => rfl
                | succ j ihj => show afterPass orig (afterPasses orig (bare addrs prog) j) = _; rw [ihj, hfix]
              exact hn (by rw [hall]; exact hh)
          · exact not_has_of_loop hal (by omega) h hh'
    · exact not_has_of_loop hw.length hlen h hh

/-- **C42, exactly what a recovery leaves.**  Take a program that can be scored, of whose original
every instruction can be decoded.  If applying the rule of a pass over and over never loses an
original, then there is a first stage at which the rule discards nothing more, and the recovery
raises `ZeroDivisionError` if that stage has at most one candidate at every address and
otherwise returns, after one pass more than there are stages before it, exactly the candidates of that stage.  In any case a
recovery that returns has kept every original exactly if no stage of the rule loses one. -/
theorem C42_run_exact (orig : List (Int × MInst)) (fns : Fns) (addrs : List Int) (hkeys : orig.map (·.1) = addrs)
    (prog : List (List (RInst Scored))) (hw : Whole fns addrs prog)
    (hdef : ∀ q ∈ orig, q.2.ignore = false) (hu : ∀ q ∈ orig, q.2.used.Nodup) (report : List (RInst Scored))
    (hlen : report.length = prog.length) (fuel : Nat) (hf : (prog.map List.length).sum + 2 ≤ fuel) :
    let stage := afterPasses orig (bare addrs prog)
    let run := recoveryLoop (fun _ q => recuperate (collectMeta {} (orig.map (·.2))) fns addrs q) report fuel prog
    ((∀ k, HasOriginals orig (stage k)) →
      ∃ N, stage (N + 1) = stage N ∧ (∀ k < N, stage (k + 1) ≠ stage k) ∧
        (((∀ t ∈ stage N, t.2.length ≤ 1) ∧ run = some (.error .zeroDiv)) ∨
         ((∃ t ∈ stage N, 1 < t.2.length) ∧ ∃ prog', run = some (.ok (N + 2, prog', false)) ∧
          SameCandidates (bare addrs prog') (stage N)))) ∧
    ∀ n prog' b, run = some (.ok (n, prog', b)) →
      (HasOriginals orig (bare addrs prog') ↔ ∀ k, HasOriginals orig (stage k)) := by
  intro stage run
  have hA : (∀ k, HasOriginals orig (stage k)) →
      ∃ N, stage (N + 1) = stage N ∧ (∀ k < N, stage (k + 1) ≠ stage k) ∧
        (((∀ t ∈ stage N, t.2.length ≤ 1) ∧ run = some (.error .zeroDiv)) ∨
         ((∃ t ∈ stage N, 1 < t.2.length) ∧ ∃ prog', run = some (.ok (N + 2, prog', false)) ∧
          SameCandidates (bare addrs prog') (stage N))) := by
    intro hh
    obtain ⟨N, h1, h2, h3⟩ := run_aux orig fns addrs hkeys hdef hu report _ prog le_rfl hw hlen hh 1 fuel hf
    refine ⟨N, h1, h2, ?_⟩
    rcases h3 with h3 | ⟨h3, p2, h4, h5, _⟩
    · exact Or.inl h3
    · refine Or.inr ⟨h3, p2, ?_, h5⟩
      show whileLoop _ _ _ _ = _
      rw [h4, show 1 + N + 1 = N + 2 by omega]
  refine ⟨hA, ?_⟩
  intro n prog' b hrun
  constructor
  · intro hh k
    by_contra hn
    exact run_lost orig fns addrs hkeys hdef hu report k prog hw hlen hn 1 fuel _ hrun hh
  · intro hh
    obtain ⟨N, _, _, h3⟩ := hA hh
    rcases h3 with ⟨_, h3⟩ | ⟨_, p2, h4, h5⟩
    · rw [hrun] at h3; cases h3
    · rw [hrun] at h4
      cases h4
      exact has_same (same_symm h5) (hh N)

/-- Two stages: the opcode of 20 settles the second address, and only then does the condition of 10
settle the first; no original is lost and the third address keeps both candidates. -/
example :
    let orig : List (Int × MInst) := [(0, (ordinary 10 14 1 [1]).m), (4, (ordinary 20 0 9 [2]).m),
      (8, (ordinary 30 3 5 [3]).m)]
    let stage := afterPasses orig [(0, [ordinary 10 14 1 [1], ordinary 11 0 5 [2]]),
      (4, [ordinary 20 0 9 [2], ordinary 21 14 1 [1]]), (8, [ordinary 30 3 5 [3], ordinary 31 3 5 [3]])]
    (stage 1).map (fun q => q.2.map (·.m.encoding)) = [[10, 11], [20], [30, 31]] ∧
    (stage 2).map (fun q => q.2.map (·.m.encoding)) = [[10], [20], [30, 31]] ∧
    (stage 3).map (fun q => q.2.map (·.m.encoding)) = [[10], [20], [30, 31]] := by decide +kernel

/-- The example of `C42_refuted_registers`: the first stage loses the original of the first address. -/
example :
    let orig : List (Int × MInst) := [(0, (ordinary 10 14 1 [1, 2]).m), (4, (ordinary 20 0 2 [3]).m),
      (8, (ordinary 30 3 5 [1]).m)]
    let stage := afterPasses orig [(0, [ordinary 10 14 1 [1, 2], ordinary 11 0 2 [1]]),
      (4, [ordinary 20 0 2 [3], ordinary 21 14 1 [3, 2]]), (8, [ordinary 30 3 5 [1], ordinary 31 3 5 [1]])]
    (stage 1).map (fun q => q.2.map (·.m.encoding)) = [[11], [20], [30, 31]] := by decide +kernel

end Verif
