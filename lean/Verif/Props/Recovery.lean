import Verif.Proof.Recovery

/-! # Properties C40, C41, C43: pruning, termination and the report -/

namespace Verif

variable {α : Type}

/-! ### C40 -/

/-- **C40.**  Pruning an address whose scores lie in [0,1] ends; it keeps, in
order, exactly the candidates with score one if there is any and otherwise
exactly those with a non-zero score, and reports how many were removed. -/
theorem C40_prune (v : List (RInst α)) (hv : ∀ x ∈ v, 0 ≤ x.score ∧ x.score ≤ 1)
    (fuel : Nat) (hf : v.length < fuel) :
    ∃ v' n, removeBad fuel v = some (.ok (v', n)) ∧
      v' = (if ∃ x ∈ v, x.score = 1 then v.filter (fun x => decide (x.score = 1))
            else v.filter (fun x => decide (x.score ≠ 0))) ∧
      n + v'.length = v.length := by
  refine ⟨_, _, removeBad_eq v fuel hf, ?_, ?_⟩
  · by_cases h1 : ∃ x ∈ v, x.score = 1
    · rw [if_pos h1]
      have ho : ones v > 0 := by
        obtain ⟨x, hx, h⟩ := h1
        exact List.countP_pos_iff.2 ⟨x, hx, by simpa using h⟩
      by_cases hot : others v > 0
      · rw [← keep1_ones]
        apply List.filter_congr
        intro x hx
        have hb := hv x (keep1_mem hx)
        simp only [ho, hot, and_true, true_and, decide_eq_decide, not_lt]
        constructor
        · intro h; exact le_antisymm hb.2 h
        · intro h; exact h.ge
      · have hz : others v = 0 := by omega
        rw [keep1_no_others 0 v hz, List.filter_filter]
        apply List.filter_congr
        intro x _
        simp [hz]
    · rw [if_neg h1]
      have ho : ones v = 0 := by
        unfold ones
        rw [List.countP_eq_zero]
        intro x hx hc
        exact h1 ⟨x, hx, by simpa using hc⟩
      rw [keep1_none v ho, List.filter_filter]
      apply List.filter_congr
      intro x _
      simp [ho]
  · have hsub := ((List.filter_sublist (p := fun x : RInst α =>
      decide (¬ (others v > 0 ∧ x.score < 1 ∧ ones v > 0)))).trans (keep1_sublist 0 v)).length_le
    omega

/-- Pruning a second time removes nothing. -/
theorem C40_idempotent (v : List (RInst α)) (hv : ∀ x ∈ v, 0 ≤ x.score ∧ x.score ≤ 1)
    (fuel : Nat) (hf : v.length < fuel) (v' : List (RInst α)) (n : Nat)
    (h : removeBad fuel v = some (.ok (v', n))) : removeBad fuel v' = some (.ok (v', 0)) := by
  obtain ⟨w, m, h1, h2, h3⟩ := C40_prune v hv fuel hf
  rw [h1] at h
  simp only [Option.some.injEq, Except.ok.injEq, Prod.mk.injEq] at h
  obtain ⟨rfl, rfl⟩ := h
  have hmem : ∀ x ∈ w, x ∈ v := by
    intro x hx
    rw [h2] at hx
    split at hx <;> exact (List.mem_filter.1 hx).1
  obtain ⟨u, k, g1, g2, g3⟩ := C40_prune w (fun x hx => hv x (hmem x hx)) fuel (by omega)
  have : u = w := by
    rw [g2, h2]
    by_cases hone : ∃ x ∈ v, x.score = 1
    · simp only [if_pos hone]
      have : ∃ x ∈ v.filter (fun x => decide (x.score = 1)), x.score = 1 := by
        obtain ⟨x, hx, hx1⟩ := hone
        exact ⟨x, List.mem_filter.2 ⟨hx, by simpa using hx1⟩, hx1⟩
      rw [if_pos this, List.filter_filter]
      simp
    · simp only [if_neg hone]
      have : ¬ ∃ x ∈ v.filter (fun x => decide (x.score ≠ 0)), x.score = 1 := by
        rintro ⟨x, hx, hx1⟩
        exact hone ⟨x, (List.mem_filter.1 hx).1, hx1⟩
      rw [if_neg this, List.filter_filter]
      simp
  rw [g1, this]
  have : k = 0 := by rw [this] at g3; omega
  rw [this]

example : removeBad 9 [⟨1, 1, 1 / 2, ()⟩, ⟨2, 2, 1, ()⟩, ⟨3, 3, 0, ()⟩, ⟨4, 4, 1, ()⟩, ⟨5, 5, 1 / 3, ()⟩] =
    some (.ok ([⟨2, 2, 1, ()⟩, ⟨4, 4, 1, ()⟩], 3)) := by decide +kernel

/-! ### C43 -/

/-- **C43** (`_partial`: only when some address still has two candidates; the
full claim "a report is produced for every outcome" is false, see
`C43_refuted`).  The report ends, its numbers of recovered, tied and losing
addresses add up to the number of addresses with several candidates. -/
theorem C43_report_partial (orig : List (RInst α)) (prog : List (List (RInst α)))
    (hlen : orig.length = prog.length) (h : ∃ v ∈ prog, 1 < v.length) :
    ∃ r prog', printReport orig prog = .ok (r, prog') ∧
      r.recovered + r.looses + r.tide = prog.countP (fun v => decide (1 < v.length)) ∧
      r.errors = prog.countP (fun v => decide (1 < v.length)) ∧
      List.Forall₂ (fun v v' => v'.Perm v) prog prog' := by
  rcases printReport_eq orig prog hlen with ⟨r, h1, h2, _, h4⟩ | ⟨h1, _⟩
  · refine ⟨r, _, h1, by omega, h2, ?_⟩
    clear h1 h2 hlen h
    induction prog with
    | nil => exact List.Forall₂.nil
    | cons v prog ih =>
      rw [List.map_cons]
      refine List.Forall₂.cons ?_ ih
      split
      · exact sortScore_perm v
      · exact List.Perm.refl _
  · exfalso
    obtain ⟨v, hv, hl⟩ := h
    have := h1 v hv
    omega

/-- `x` is the first of the candidates with the highest score, `rest` the others in
order. -/
def FirstMax (l : List (RInst α)) (x : RInst α) (rest : List (RInst α)) : Prop :=
  ∃ a b, l = a ++ x :: b ∧ (∀ y ∈ a, y.score < x.score) ∧ (∀ y ∈ b, y.score ≤ x.score) ∧ rest = a ++ b

/-- What becomes of an address, given its original and its two best candidates. -/
inductive Fate
  | single | recovered | tied | losing
  deriving DecidableEq

/-- An address with several candidates is losing when the best one prints unlike the
original and has not the encoding of the second best; it is tied when it is not
losing and the two best have the same score and print differently; otherwise it is
recovered. -/
def HasFate (o : RInst α) (l : List (RInst α)) (f : Fate) : Prop :=
  l.length ≤ 1 ∧ f = .single ∨
  ∃ x y rest rest', FirstMax l x rest ∧ FirstMax rest y rest' ∧
    (f = .losing ∧ (x.str ≠ o.str ∧ x.enc ≠ y.enc) ∨
     f = .tied ∧ ¬ (x.str ≠ o.str ∧ x.enc ≠ y.enc) ∧ (x.score = y.score ∧ x.str ≠ y.str) ∨
     f = .recovered ∧ ¬ (x.str ≠ o.str ∧ x.enc ≠ y.enc) ∧ ¬ (x.score = y.score ∧ x.str ≠ y.str))

theorem sortScore_first (l : List (RInst α)) (x : RInst α) (t : List (RInst α)) (h : sortScore l = x :: t) :
    ∃ rest, FirstMax l x rest ∧ t = sortScore rest := by
  unfold sortScore at *
  induction l generalizing x t with
  | nil => simp at h
  | cons c l ih =>
    rw [List.insertionSort_cons] at h
    cases hs : l.insertionSort fun a b : RInst α => b.score ≤ a.score with
    | nil =>
      have hl : l = [] := by
        have := (List.perm_insertionSort (fun a b : RInst α => b.score ≤ a.score) l).length_eq
        rw [hs] at this
        exact List.length_eq_zero_iff.1 this.symm
      subst hl
      rw [hs] at h
      simp only [List.orderedInsert_nil, List.cons.injEq] at h
      obtain ⟨rfl, rfl⟩ := h
      exact ⟨[], ⟨[], [], rfl, by simp, by simp, rfl⟩, rfl⟩
    | cons f fs =>
      obtain ⟨rest, ⟨a, b, h1, h2, h3, h4⟩, h5⟩ := ih f fs hs
      rw [hs, List.orderedInsert_cons] at h
      split at h
      · rename_i hle
        cases h
        refine ⟨l, ⟨[], l, rfl, by simp, ?_, rfl⟩, hs.symm⟩
        intro y hy
        rw [h1] at hy
        rcases List.mem_append.1 hy with hy | hy
        · exact (h2 y hy).le.trans hle
        · rcases List.mem_cons.1 hy with rfl | hy
          · exact hle
          · exact (h3 y hy).trans hle
      · rename_i hle
        cases h
        refine ⟨c :: rest, ⟨c :: a, b, by rw [h1]; rfl, ?_, h3, by rw [h4]; rfl⟩, ?_⟩
        · intro y hy
          rcases List.mem_cons.1 hy with rfl | hy
          · exact not_le.1 hle
          · exact h2 y hy
        · rw [List.insertionSort_cons, h5]

theorem report_fates : ∀ (orig : List (RInst α)) (prog : List (List (RInst α))) (r0 r : Report)
    (prog' : List (List (RInst α))), orig.length = prog.length → reportLoop r0 orig prog = .ok (r, prog') →
    ∃ fs : List Fate, List.Forall₂ (fun p f => HasFate p.1 p.2 f) (orig.zip prog) fs ∧
      r.recovered = r0.recovered + fs.count .recovered ∧ r.tide = r0.tide + fs.count .tied ∧
      r.looses = r0.looses + fs.count .losing := by
  intro orig
  induction orig with
  | nil =>
    intro prog r0 r prog' hl h
    cases prog with
    | nil => cases h; exact ⟨[], .nil, by simp, by simp, by simp⟩
    | cons _ _ => simp at hl
  | cons o os ih =>
    intro prog r0 r prog' hl h
    cases prog with
    | nil => simp at hl
    | cons v vs =>
      rw [reportLoop] at h
      cases ha : reportAddr r0 o v with
      | error e => rw [ha] at h; cases h
      | ok p =>
        obtain ⟨r1, v'⟩ := p
        rw [ha] at h
        simp only [bind, Except.bind] at h
        cases hb : reportLoop r1 os vs with
        | error e => rw [hb] at h; cases h
        | ok q =>
          obtain ⟨r2, vs'⟩ := q
          rw [hb] at h
          cases h
          obtain ⟨fs, f1, f2, f3, f4⟩ := ih vs r1 _ vs' (by simpa using hl) hb
          rw [f2, f3, f4]
          unfold reportAddr at ha
          split at ha
          · rename_i hlen
            cases hs : sortScore v with
            | nil => rw [hs] at ha; cases ha
            | cons x t =>
              cases t with
              | nil => rw [hs] at ha; cases ha
              | cons y t =>
                rw [hs] at ha
                simp only [Except.ok.injEq, Prod.mk.injEq] at ha
                obtain ⟨ha, _⟩ := ha
                obtain ⟨rest, g1, g2⟩ := sortScore_first v x (y :: t) hs
                obtain ⟨rest', g3, _⟩ := sortScore_first rest y t g2.symm
                subst ha
                by_cases c1 : x.str ≠ o.str ∧ x.enc ≠ y.enc
                · refine ⟨.losing :: fs, .cons (Or.inr ⟨x, y, rest, rest', g1, g3, Or.inl ⟨rfl, c1⟩⟩) f1, ?_⟩
                  simp [c1]; omega
                · by_cases c2 : x.score = y.score ∧ x.str ≠ y.str
                  · refine ⟨.tied :: fs, .cons (Or.inr ⟨x, y, rest, rest', g1, g3, Or.inr (Or.inl ⟨rfl, c1, c2⟩)⟩) f1, ?_⟩
                    simp only [if_neg c1, if_pos c2]
                    simp; omega
                  · refine ⟨.recovered :: fs, .cons (Or.inr ⟨x, y, rest, rest', g1, g3, Or.inr (Or.inr ⟨rfl, c1, c2⟩)⟩) f1, ?_⟩
                    simp only [if_neg c1, if_neg c2]
                    simp; omega
          · rename_i hlen
            cases ha
            exact ⟨.single :: fs, .cons (Or.inl ⟨by simp only; omega, rfl⟩) f1, by simp, by simp, by simp⟩

/-- **C43 (what is counted)**: the three numbers of the report count the recovered,
tied and losing addresses. -/
theorem C43_categories (orig : List (RInst α)) (prog : List (List (RInst α)))
    (hlen : orig.length = prog.length) (r : Report) (prog' : List (List (RInst α)))
    (h : printReport orig prog = .ok (r, prog')) :
    ∃ fs : List Fate, List.Forall₂ (fun p f => HasFate p.1 p.2 f) (orig.zip prog) fs ∧
      r.recovered = fs.count .recovered ∧ r.tide = fs.count .tied ∧ r.looses = fs.count .losing := by
  unfold printReport at h
  cases hb : reportLoop {} orig prog with
  | error e => rw [hb] at h; cases h
  | ok q =>
    rw [hb] at h
    simp only [bind, Except.bind] at h
    split at h
    · cases h
    · cases h
      obtain ⟨fs, h1, h2, h3, h4⟩ := report_fates orig prog {} _ _ hlen hb
      exact ⟨fs, h1, by simpa using h2, by simpa using h3, by simpa using h4⟩

/-- How often a number is counted, missing ones not at all. -/
def depthOf (d : List (Nat × Nat)) (k : Nat) : Nat := (dictGet d k).getD 0

theorem depthOf_set (d : List (Nat × Nat)) (k j : Nat) :
    depthOf (dictSet d k (match dictGet d k with | none => 1 | some n => n + 1)) j =
      depthOf d j + if k = j then 1 else 0 := by
  unfold depthOf
  rw [dictGet_dictSet]
  by_cases h : k = j
  · subst h
    rw [if_pos rfl, if_pos rfl]
    cases dictGet d k <;> rfl
  · rw [if_neg h, if_neg h]
    rfl

theorem depth_rest (o : RInst α) (d : Nat) : ∀ (l : List (RInst α)) (k : Nat) (ds : List (Nat × Nat)),
    depthOf (l.foldl (depthTurn o) (k, false, ds)).2.2 d =
      depthOf ds d + if k = d then l.countP (fun x => x.enc = o.enc) else 0 := by
  intro l
  induction l with
  | nil => intro k ds; simp
  | cons x l ih =>
    intro k ds
    rw [List.foldl_cons, List.countP_cons]
    by_cases hx : x.enc = o.enc
    · have : depthTurn o (k, false, ds) x =
          (k, false, dictSet ds k (match dictGet ds k with | none => 1 | some n => n + 1)) := by
        unfold depthTurn; rw [if_pos hx]; rfl
      rw [this, ih, depthOf_set]
      simp only [hx, decide_true, if_true]
      split <;> omega
    · have : depthTurn o (k, false, ds) x = (k, false, ds) := by
        unfold depthTurn; rw [if_neg hx]; rfl
      rw [this, ih]
      simp [hx]

theorem depth_all (o : RInst α) (d : Nat) : ∀ (l : List (RInst α)) (k : Nat) (ds : List (Nat × Nat)),
    depthOf (l.foldl (depthTurn o) (k, true, ds)).2.2 d =
      depthOf ds d + if k + l.findIdx (fun x => x.enc = o.enc) = d then l.countP (fun x => x.enc = o.enc) else 0 := by
  intro l
  induction l with
  | nil => intro k ds; simp
  | cons x l ih =>
    intro k ds
    rw [List.foldl_cons, List.countP_cons, List.findIdx_cons]
    by_cases hx : x.enc = o.enc
    · have : depthTurn o (k, true, ds) x =
          (k, false, dictSet ds k (match dictGet ds k with | none => 1 | some n => n + 1)) := by
        unfold depthTurn; rw [if_pos hx]; rfl
      rw [this, depth_rest, depthOf_set]
      simp only [hx, decide_true, if_true, cond_true, Nat.add_zero]
      split <;> omega
    · have : depthTurn o (k, true, ds) x = (k + 1, true, ds) := by
        unfold depthTurn; rw [if_neg hx]; rfl
      rw [this, ih]
      simp only [hx, decide_false, cond_false, Bool.false_eq_true, if_false, Nat.add_zero]
      rw [show k + 1 + l.findIdx (fun x => x.enc = o.enc) = k + (l.findIdx (fun x => x.enc = o.enc) + 1) by omega]

theorem report_depths : ∀ (orig : List (RInst α)) (prog : List (List (RInst α))) (r0 r : Report)
    (prog' : List (List (RInst α))), orig.length = prog.length → reportLoop r0 orig prog = .ok (r, prog') → ∀ d,
    depthOf r.depths d = depthOf r0.depths d + ((orig.zip prog').map fun p =>
      if 1 < p.2.length ∧ p.2.findIdx (fun x => x.enc = p.1.enc) = d then
        p.2.countP (fun x => x.enc = p.1.enc) else 0).sum := by
  intro orig
  induction orig with
  | nil =>
    intro prog r0 r prog' hl h d
    cases prog with
    | nil => cases h; simp
    | cons _ _ => simp at hl
  | cons o os ih =>
    intro prog r0 r prog' hl h d
    cases prog with
    | nil => simp at hl
    | cons v vs =>
      rw [reportLoop] at h
      cases ha : reportAddr r0 o v with
      | error e => rw [ha] at h; cases h
      | ok p =>
        obtain ⟨r1, v'⟩ := p
        rw [ha] at h
        simp only [bind, Except.bind] at h
        cases hb : reportLoop r1 os vs with
        | error e => rw [hb] at h; cases h
        | ok q =>
          obtain ⟨r2, vs'⟩ := q
          rw [hb] at h
          cases h
          rw [ih vs r1 _ vs' (by simpa using hl) hb d, List.zip_cons_cons, List.map_cons, List.sum_cons, ← Nat.add_assoc]
          congr 1
          unfold reportAddr at ha
          split at ha
          · split at ha
            · rename_i c1 c2 rest hs
              simp only [Except.ok.injEq, Prod.mk.injEq] at ha
              obtain ⟨ha, rfl⟩ := ha
              have hd : r1.depths = ((c1 :: c2 :: rest).foldl (depthTurn o) (0, true, r0.depths)).2.2 := by
                rw [← ha]
                by_cases g1 : c1.str ≠ o.str ∧ c1.enc ≠ c2.enc
                · simp only [if_pos g1]
                · by_cases g2 : c1.score = c2.score ∧ c1.str ≠ c2.str
                  · simp only [if_neg g1, if_pos g2]
                  · simp only [if_neg g1, if_neg g2]
              rw [hd, depth_all, Nat.zero_add]
              simp
            · cases ha
          · cases ha
            rename_i hv
            rw [if_neg (fun e => hv e.1)]
            rfl

/-- **C43 (depths)**: the report lists the candidates of an address by decreasing
score.  The number it shows for depth `d` is the number of addresses with several
candidates whose original comes after exactly `d` other ones (each counted once
for every candidate with the encoding of the original). -/
theorem C43_depths (orig : List (RInst α)) (prog : List (List (RInst α)))
    (hlen : orig.length = prog.length) (r : Report) (prog' : List (List (RInst α)))
    (h : printReport orig prog = .ok (r, prog')) :
    List.Forall₂ (fun v v' => v'.Perm v ∧ (1 < v.length → v'.Pairwise fun a b => b.score ≤ a.score)) prog prog' ∧
    ∀ d, (dictGet r.depths d).getD 0 = ((orig.zip prog').map fun p =>
      if 1 < p.2.length ∧ p.2.findIdx (fun x => x.enc = p.1.enc) = d then
        p.2.countP (fun x => x.enc = p.1.enc) else 0).sum := by
  constructor
  · rcases printReport_eq orig prog hlen with ⟨r', h1, h2, h3, h4⟩ | ⟨_, h1⟩
    · clear h2 h3 h4
      rw [h1] at h
      simp only [Except.ok.injEq, Prod.mk.injEq] at h
      obtain ⟨_, rfl⟩ := h
      clear h1 hlen
      induction prog with
      | nil => exact List.Forall₂.nil
      | cons v prog ih =>
        rw [List.map_cons]
        refine List.Forall₂.cons ?_ ih
        split
        · refine ⟨sortScore_perm v, fun _ => ?_⟩
          have inst1 : Std.Total (fun a b : RInst α => b.score ≤ a.score) := ⟨fun a b => le_total _ _⟩
          have inst2 : IsTrans (RInst α) (fun a b => b.score ≤ a.score) := ⟨fun a b c h h' => le_trans h' h⟩
          exact List.pairwise_insertionSort _ _
        · exact ⟨List.Perm.refl _, fun h => absurd h (by assumption)⟩
    · rw [h1] at h; cases h
  · unfold printReport at h
    cases hb : reportLoop {} orig prog with
    | error e => rw [hb] at h; cases h
    | ok q =>
      rw [hb] at h
      simp only [bind, Except.bind] at h
      split at h
      · cases h
      · cases h
        intro d
        have := report_depths orig prog {} _ _ hlen hb d
        simpa [depthOf, dictGet] using this

theorem depth_once (l : List (RInst α)) (e d : Nat) (h : (l.map (·.enc)).Nodup) :
    (if 1 < l.length ∧ l.findIdx (fun x => x.enc = e) = d then l.countP (fun x => x.enc = e) else 0) =
      if 1 < l.length ∧ (l.map (·.enc))[d]? = some e then 1 else 0 := by
  by_cases hl : 1 < l.length
  swap
  · simp [hl]
  simp only [hl, true_and]
  clear hl
  induction l generalizing d with
  | nil => split <;> rfl
  | cons x l ih =>
    rw [List.map_cons, List.nodup_cons] at h
    rw [List.findIdx_cons, List.countP_cons, List.map_cons]
    by_cases hx : x.enc = e
    · subst hx
      have h0 : l.countP (fun y => y.enc = x.enc) = 0 := by
        rw [List.countP_eq_zero]
        intro y hy
        simp only [decide_eq_true_eq]
        intro e
        exact h.1 (List.mem_map.2 ⟨y, hy, e⟩)
      simp only [decide_true, cond_true, if_true, h0, Nat.zero_add]
      cases d with
      | zero => simp
      | succ d =>
        rw [if_neg (by omega), if_neg]
        rw [List.getElem?_cons_succ]
        exact fun e => h.1 (List.mem_of_getElem? e)
    · simp only [hx, decide_false, cond_false, Bool.false_eq_true, if_false, Nat.add_zero]
      cases d with
      | zero => simp [hx]
      | succ d =>
        rw [List.getElem?_cons_succ, ← ih d h.2]
        simp

/-- **C43 (depths)** when the candidates of an address have different encodings: the
number shown for depth `d` counts the addresses with several candidates of which
candidate `d`, from zero and by decreasing score, has the encoding of the original. -/
theorem C43_depths_distinct (orig : List (RInst α)) (prog : List (List (RInst α)))
    (hlen : orig.length = prog.length) (hd : ∀ v ∈ prog, (v.map (·.enc)).Nodup) (r : Report)
    (prog' : List (List (RInst α))) (h : printReport orig prog = .ok (r, prog')) (d : Nat) :
    (dictGet r.depths d).getD 0 = (orig.zip prog').countP fun p =>
      decide (1 < p.2.length ∧ (p.2.map (·.enc))[d]? = some p.1.enc) := by
  obtain ⟨h1, h2⟩ := C43_depths orig prog hlen r prog' h
  have hn : ∀ v' ∈ prog', (v'.map (·.enc)).Nodup := by
    clear h2 h hlen
    induction h1 with
    | nil => simp
    | cons hp _ ih =>
      intro v' hv'
      rcases List.mem_cons.1 hv' with rfl | hv'
      · exact ((hp.1.map _).nodup_iff).2 (hd _ (by simp))
      · exact ih (fun v hv => hd v (by simp [hv])) v' hv'
  rw [h2 d]
  have : ∀ l : List (RInst α × List (RInst α)), (∀ p ∈ l, (p.2.map (·.enc)).Nodup) →
      (l.map fun p => if 1 < p.2.length ∧ p.2.findIdx (fun x => x.enc = p.1.enc) = d then
        p.2.countP (fun x => x.enc = p.1.enc) else 0).sum =
      l.countP fun p => decide (1 < p.2.length ∧ (p.2.map (·.enc))[d]? = some p.1.enc) := by
    intro l
    induction l with
    | nil => intro _; rfl
    | cons p l ih =>
      intro hl
      rw [List.map_cons, List.sum_cons, List.countP_cons, ih fun q hq => hl q (by simp [hq]),
        depth_once _ _ _ (hl p (by simp)), Nat.add_comm]
      simp only [decide_eq_true_eq]
  exact this _ fun p hp => hn _ (List.of_mem_zip hp).2

/-- Two addresses: the first original comes after one other candidate, the second
first. -/
example : (printReport [⟨8, 8, 1, ()⟩, ⟨7, 7, 1, ()⟩]
      [[⟨9, 9, 1, ()⟩, ⟨8, 8, 1 / 2, ()⟩], [⟨6, 6, 1 / 3, ()⟩, ⟨7, 7, 1, ()⟩]]).map (·.1.depths) =
    .ok [(1, 1), (0, 1)] := by decide +kernel

/-- When every address has at most one candidate left — complete recovery —
the report divides by zero. -/
theorem C43_crash (orig : List (RInst α)) (prog : List (List (RInst α)))
    (hlen : orig.length = prog.length) (h : ∀ v ∈ prog, v.length ≤ 1) :
    printReport orig prog = .error .zeroDiv := by
  rcases printReport_eq orig prog hlen with ⟨r, _, h2, h3, _⟩ | ⟨_, h⟩
  · exfalso
    have : prog.countP (fun v => decide (1 < v.length)) = 0 := by
      rw [List.countP_eq_zero]
      intro v hv
      have := h v hv
      simp; omega
    omega
  · exact h

/-- C43 is false as stated: a fully recovered program has no report. -/
theorem C43_refuted : ¬ ∀ (orig : List (RInst Unit)) (prog : List (List (RInst Unit))),
    orig.length = prog.length → ∃ r, printReport orig prog = .ok r := by
  intro h
  obtain ⟨r, hr⟩ := h [⟨7, 7, 1, ()⟩] [[⟨7, 7, 1, ()⟩]] rfl
  rw [C43_crash _ _ rfl (by simp)] at hr
  simp at hr

example : ∃ p, printReport [⟨7, 7, 1, ()⟩, ⟨8, 8, 1, ()⟩] [[⟨7, 7, 1, ()⟩], [⟨9, 9, 1 / 2, ()⟩, ⟨8, 8, 1, ()⟩]] =
    .ok (⟨1, 1, 0, 0, [(0, 1)]⟩, p) :=
  ⟨[[⟨7, 7, 1, ()⟩], [⟨8, 8, 1, ()⟩, ⟨9, 9, 1 / 2, ()⟩]], by decide +kernel⟩

/-- Two candidates with the same encoding printed differently never make the
address count as lost, even when the winner is not the original. -/
theorem C43_same_encoding : ∃ p, printReport [⟨7, 7, 1, ()⟩] [[⟨9, 9, 1, ()⟩, ⟨9, 9, 1 / 2, ()⟩]] =
    .ok (⟨1, 1, 0, 0, []⟩, p) :=
  ⟨[[⟨9, 9, 1, ()⟩, ⟨9, 9, 1 / 2, ()⟩]], by decide +kernel⟩

/-! ### C41 -/

/-- Giving scores to a program of `n` addresses does not change which candidates
there are. -/
def KeepsCandidates (n : Nat) (score : Nat → List (List (RInst α)) → Py (List (List (RInst α)))) : Prop :=
  ∀ p prog prog', prog.length = n → score p prog = .ok prog' →
    prog'.map (List.map fun x : RInst α => (x.enc, x.str)) = prog.map (List.map fun x : RInst α => (x.enc, x.str))

theorem keeps_lengths {prog prog' : List (List (RInst α))}
    (h : prog'.map (List.map fun x : RInst α => (x.enc, x.str)) =
      prog.map (List.map fun x : RInst α => (x.enc, x.str))) :
    prog'.map List.length = prog.map List.length := by
  have := congrArg (List.map List.length) h
  simpa [List.map_map, Function.comp_def] using this

/-- The candidates of `a` are among those of `b`, address by address. -/
def Within (a b : List (List (RInst α))) : Prop :=
  List.Forall₂ (fun v w => ∀ x ∈ v, ∃ y ∈ w, x.enc = y.enc ∧ x.str = y.str) a b

theorem within_of_eq {a b : List (List (RInst α))}
    (h : a.map (List.map fun x : RInst α => (x.enc, x.str)) =
      b.map (List.map fun x : RInst α => (x.enc, x.str))) : Within a b := by
  induction a generalizing b with
  | nil =>
    cases b with
    | nil => exact List.Forall₂.nil
    | cons w b => simp at h
  | cons v a ih =>
    cases b with
    | nil => simp at h
    | cons w b =>
      simp only [List.map_cons, List.cons.injEq] at h
      refine List.Forall₂.cons ?_ (ih h.2)
      intro x hx
      have : (x.enc, x.str) ∈ w.map fun x : RInst α => (x.enc, x.str) := by
        rw [← h.1]; exact List.mem_map.2 ⟨x, hx, rfl⟩
      obtain ⟨y, hy, he⟩ := List.mem_map.1 this
      simp only [Prod.mk.injEq] at he
      exact ⟨y, hy, he.1.symm, he.2.symm⟩

theorem Within.trans {a b c : List (List (RInst α))} (h : Within a b) (h' : Within b c) : Within a c := by
  induction h generalizing c with
  | nil => cases h'; exact List.Forall₂.nil
  | cons hvw _ ih =>
    cases h' with
    | cons hwu h'' =>
      refine List.Forall₂.cons ?_ (ih h'')
      intro x hx
      obtain ⟨y, hy, e1, e2⟩ := hvw x hx
      obtain ⟨z, hz, e3, e4⟩ := hwu y hy
      exact ⟨z, hz, e1.trans e3, e2.trans e4⟩

theorem within_of_mem {a b : List (List (RInst α))} (h : List.Forall₂ (fun v w => ∀ x ∈ w, x ∈ v) b a) :
    Within a b := by
  induction h with
  | nil => exact List.Forall₂.nil
  | cons hvw _ ih => exact List.Forall₂.cons (fun x hx => ⟨x, hvw x hx, rfl, rfl⟩) ih

/-- One pass: it ends, or raises, or removes something, or leaves everything and
some address has two candidates. -/
theorem pass_cases (score : Nat → List (List (RInst α)) → Py (List (List (RInst α)))) (orig : List (RInst α))
    (hs : KeepsCandidates orig.length score) (p : Nat) (prog : List (List (RInst α))) (hlen : orig.length = prog.length) (b : Bool) :
    (∃ e, recoveryPass score orig (p, prog, b) = .error e) ∨
    (∃ prog' b', recoveryPass score orig (p, prog, b) = .ok (p + 1, prog', b') ∧
      prog'.length = prog.length ∧ Within prog' prog ∧
      (b' = true → (prog'.map List.length).sum < (prog.map List.length).sum) ∧
      (b' = false → ∃ v ∈ prog', 1 < v.length)) := by
  unfold recoveryPass
  cases h1 : score p prog with
  | error e => left; exact ⟨e, rfl⟩
  | ok prog1 =>
    have k1 := hs p prog prog1 hlen.symm h1
    have l1 := keeps_lengths k1
    have hlen1 : orig.length = prog1.length := by
      have := congrArg List.length l1
      simp at this; omega
    rcases printReport_eq orig prog1 hlen1 with ⟨r, e1, e2, e3, _⟩ | ⟨_, e1⟩
    · right
      have hmap : (prog1.map (fun l => if 1 < l.length then sortScore l else l)).map List.length =
          prog1.map List.length := by
        rw [List.map_map]
        apply List.map_congr_left
        intro l _
        simp only [Function.comp]
        split
        · exact (sortScore_perm l).length_eq
        · rfl
      generalize hp2 : prog1.map (fun l => if 1 < l.length then sortScore l else l) = prog2 at e1 hmap
      have hmem : ∀ (l : List (List (RInst α))) (v : List (RInst α)), v ∈ l → v.length ≤ (l.map List.length).sum := by
        intro l
        induction l with
        | nil => simp
        | cons w l ih =>
          intro v hv
          rcases List.mem_cons.1 hv with rfl | hv
          · simp
          · have := ih v hv; simp; omega
      obtain ⟨prog3, b', f1, f2, f3, f4, f5⟩ := pruneAll_ok ((prog2.map List.length).sum + 1) prog2
        (fun v hv => by have := hmem prog2 v hv; omega)
      refine ⟨prog3, b', ?_, ?_, ?_, ?_, ?_⟩
      · show (Except.bind (Except.ok prog1) _) = _
        show (Except.bind (printReport orig prog1) _) = _
        rw [e1]
        show (match pruneAll ((prog2.map List.length).sum + 1) prog2 with
          | none => _ | some r => _) = _
        rw [f1]
        rfl
      · have a := f2.length_eq
        have b := congrArg List.length hmap
        have c := congrArg List.length l1
        simp at a b c; omega
      · have w1 : Within prog1 prog := within_of_eq k1
        have w2 : Within prog2 prog1 := by
          rw [← hp2]
          apply within_of_mem
          clear h1 k1 l1 hlen1 e1 e2 hmap hp2 f1 f2 f3 f4 f5 w1
          induction prog1 with
          | nil => exact List.Forall₂.nil
          | cons v l ih =>
            refine List.Forall₂.cons ?_ ih
            intro x hx
            dsimp only at hx
            split at hx
            · exact (sortScore_perm v).mem_iff.1 hx
            · exact hx
        have w3 : Within prog3 prog2 := by
          apply within_of_mem
          exact f2.imp fun v w h x (hx : x ∈ w) => h.subset hx
        exact w3.trans (w2.trans w1)
      · intro hb
        have := f5 hb
        rw [hmap, l1] at this
        exact this
      · intro hb
        have hsame := f3.1 hb
        rw [hmap] at hsame
        rw [e2] at e3
        obtain ⟨v, hv, hl⟩ := List.countP_pos_iff.1 e3
        have : v.length ∈ prog3.map List.length := by
          rw [hsame]; exact List.mem_map.2 ⟨v, hv, rfl⟩
        obtain ⟨w, hw, he⟩ := List.mem_map.1 this
        refine ⟨w, hw, ?_⟩
        rw [he]; simpa using hl
    · left
      refine ⟨.zeroDiv, ?_⟩
      show (Except.bind (Except.ok prog1) _) = _
      show (Except.bind (printReport orig prog1) _) = _
      rw [e1]
      rfl

/-- **C41.**  Whatever scores each pass assigns (or raises), the recovery loop
stops after at most one more pass than there are candidates; the remaining
candidates of each address are among the initial ones. -/
theorem C41_terminates (score : Nat → List (List (RInst α)) → Py (List (List (RInst α))))
    (orig : List (RInst α)) (hs : KeepsCandidates orig.length score) (prog : List (List (RInst α)))
    (hlen : orig.length = prog.length) (fuel : Nat) (hf : (prog.map List.length).sum + 2 ≤ fuel) :
    (∃ e, recoveryLoop score orig fuel prog = some (.error e)) ∨
    (∃ p prog', recoveryLoop score orig fuel prog = some (.ok (p, prog', false)) ∧
      p ≤ (prog.map List.length).sum + 2 ∧ Within prog' prog ∧ ∃ v ∈ prog', 1 < v.length) := by
  have key : ∀ (n : Nat) (p : Nat) (cur : List (List (RInst α))) (fuel : Nat), (cur.map List.length).sum = n →
      orig.length = cur.length → Within cur prog → n + 2 ≤ fuel →
      (∃ e, whileLoop (fun s => s.2.2) (recoveryPass score orig) fuel (p, cur, true) = some (.error e)) ∨
      (∃ q prog', whileLoop (fun s => s.2.2) (recoveryPass score orig) fuel (p, cur, true) =
          some (.ok (q, prog', false)) ∧ q ≤ p + n + 1 ∧ Within prog' prog ∧ ∃ v ∈ prog', 1 < v.length) := by
    intro n
    induction n using Nat.strongRecOn with
    | _ n ih =>
      intro p cur fuel hn hl hw hf
      obtain ⟨f, rfl⟩ : ∃ f, fuel = f + 1 := ⟨fuel - 1, by omega⟩
      rw [whileLoop, if_pos rfl]
      rcases pass_cases score orig hs p cur hl true with ⟨e, he⟩ | ⟨cur', b', h1, h2, h3, h4, h5⟩
      · left; exact ⟨e, by rw [he]⟩
      · rw [h1]
        dsimp only
        cases b' with
        | true =>
          have hlt := h4 rfl
          rcases ih _ (by omega) (p + 1) cur' f rfl (by omega) (h3.trans hw) (by omega) with
            ⟨e, he⟩ | ⟨q, pr, g1, g2, g3, g4⟩
          · left; exact ⟨e, he⟩
          · right; exact ⟨q, pr, g1, by omega, g3, g4⟩
        | false =>
          right
          obtain ⟨g, rfl⟩ : ∃ g, f = g + 1 := ⟨f - 1, by omega⟩
          refine ⟨p + 1, cur', ?_, by omega, h3.trans hw, h5 rfl⟩
          rw [whileLoop, if_neg (by simp)]
  rcases key _ 1 prog fuel rfl hlen (within_of_eq rfl) hf with h | ⟨q, pr, g1, g2, g3, g4⟩
  · exact Or.inl h
  · exact Or.inr ⟨q, pr, g1, by omega, g3, g4⟩

/-- Recovery never ends normally with a completely recovered program: if the
loop returns, some address still has several candidates. -/
theorem C41_complete_recovery_crashes (score : Nat → List (List (RInst α)) → Py (List (List (RInst α))))
    (orig : List (RInst α)) (hs : KeepsCandidates orig.length score) (prog : List (List (RInst α)))
    (hlen : orig.length = prog.length) (fuel : Nat) (hf : (prog.map List.length).sum + 2 ≤ fuel)
    (s : Nat × List (List (RInst α)) × Bool) (h : recoveryLoop score orig fuel prog = some (.ok s)) :
    ∃ v ∈ s.2.1, 1 < v.length := by
  rcases C41_terminates score orig hs prog hlen fuel hf with ⟨e, he⟩ | ⟨p, pr, h1, _, _, h4⟩
  · rw [he] at h; simp at h
  · rw [h1] at h
    simp only [Option.some.injEq, Except.ok.injEq] at h
    subst h
    exact h4

/-- Scores of a concrete run: undecided, except that the second pass would give
the candidate with encoding 7 certainty. -/
def demoScore (p : Nat) (prog : List (List (RInst Unit))) : Py (List (List (RInst Unit))) :=
  .ok (prog.map fun v => v.map fun x => { x with score := if x.enc = 7 ∧ p = 2 then 1 else 1 / 2 })

example : KeepsCandidates 1 demoScore := by
  intro p prog prog' _ h
  simp only [demoScore, Except.ok.injEq] at h
  subst h
  simp [Function.comp_def]

set_option synthInstance.maxSize 1000 in
/-- A run that stops with two candidates because the first pass removes nothing. -/
example : recoveryLoop demoScore [⟨7, 7, 0, ()⟩] 9 [[⟨7, 7, 0, ()⟩, ⟨9, 9, 0, ()⟩]] =
    some (.ok (2, [[⟨7, 7, 1 / 2, ()⟩, ⟨9, 9, 1 / 2, ()⟩]], false)) := by decide +kernel

set_option synthInstance.maxSize 1000 in
/-- A run in which the first pass settles everything. -/
example : recoveryLoop (fun p => demoScore (p + 1)) [⟨7, 7, 0, ()⟩] 9 [[⟨7, 7, 0, ()⟩, ⟨9, 9, 0, ()⟩]] =
    some (.error .zeroDiv) := by decide +kernel

end Verif
