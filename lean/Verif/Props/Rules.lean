import Verif.Proof.Rules
import Verif.Proof.Recuperator

/-! # C68, C73, C74: representations of a program and scoring rules -/

namespace Verif

/-! ### C68 -/

section Conversions

variable {α : Type} (address : α → Int)

theorem listToDict_eq (l : List α) (h : (l.map address).Nodup) :
    listToDict address l = l.map fun i => (address i, [i]) := by
  unfold listToDict
  induction l using List.reverseRecOn with
  | nil => rfl
  | append_singleton l x ih =>
    rw [List.map_append, List.nodup_append] at h
    rw [List.foldl_append, ih h.1, List.foldl_cons, List.foldl_nil, List.map_append]
    have hx : ∀ d : List (Int × List α), address x ∉ d.map (·.1) →
        dictSet d (address x) [x] = d ++ [(address x, [x])] := by
      intro d
      induction d with
      | nil => intro _; rfl
      | cons p t ih =>
        intro hn
        simp only [List.map_cons, List.mem_cons, not_or] at hn
        rw [dictSet, if_neg (fun e => hn.1 e.symm), ih hn.2]
        rfl
    apply hx
    intro hm
    rw [List.map_map, List.mem_map] at hm
    obtain ⟨y, hy, e⟩ := hm
    exact h.2.2 _ (List.mem_map.2 ⟨y, hy, e⟩) _ (by simp) rfl

/-- **C68**: the map made from a list of instructions with distinct addresses has
exactly their addresses as keys, and each leads to its instruction. -/
theorem C68_map (l : List α) (h : (l.map address).Nodup) :
    (listToDict address l).map (·.1) = l.map address ∧
    ∀ i ∈ l, dictGet (listToDict address l) (address i) = some [i] := by
  rw [listToDict_eq address l h]
  have hk : ((l.map fun i => (address i, [i])).map (·.1)) = l.map address := by
    rw [List.map_map]; rfl
  refine ⟨hk, fun i hi => ?_⟩
  apply dictGet_of_mem
  · rw [hk]; exact h
  · exact List.mem_map.2 ⟨i, hi, rfl⟩

theorem mapM_dictAt (d : List (Int × List α)) (s : List α)
    (h : ∀ i ∈ s, dictGet d (address i) = some [i]) :
    (s.map address).mapM (dictAt d) = .ok (s.map fun i => [i]) := by
  induction s with
  | nil => rfl
  | cons i s ih =>
    have hi : dictAt d (address i) = .ok [i] := by unfold dictAt; rw [h i (by simp)]
    rw [List.map_cons, List.mapM_cons, hi, ih fun j hj => h j (List.mem_cons_of_mem _ hj)]
    rfl

/-- **C68**: turning a list of instructions with distinct addresses into a map and
back keeps every instruction, each alone at its place, in the order of addresses. -/
theorem C68_roundtrip (l : List α) (h : (l.map address).Nodup) :
    ∃ r, dictToList (listToDict address l) = .ok r ∧ r.flatten.Perm l ∧ (∀ v ∈ r, v.length = 1) ∧
      r.flatten.Pairwise fun a b => address a < address b := by
  obtain ⟨h1, h2⟩ := C68_map address l h
  have inst1 : Std.Total (fun a b : α => address a ≤ address b) := ⟨fun a b => le_total _ _⟩
  have inst2 : IsTrans α (fun a b => address a ≤ address b) := ⟨fun a b c => le_trans⟩
  have hperm := List.perm_insertionSort (fun a b : α => address a ≤ address b) l
  have hsorted := List.pairwise_insertionSort (fun a b : α => address a ≤ address b) l
  refine ⟨(l.insertionSort fun a b => address a ≤ address b).map fun i => [i], ?_, ?_, ?_, ?_⟩
  · unfold dictToList
    rw [h1, ← List.map_insertionSort (fun a b : α => address a ≤ address b) (· ≤ ·) address l
      (fun a _ b _ => Iff.rfl)]
    exact mapM_dictAt address _ _ fun i hi => h2 i (hperm.mem_iff.1 hi)
  · have : ∀ s : List α, (s.map fun i => [i]).flatten = s := by
      intro s; induction s with
      | nil => rfl
      | cons a s ih => simp [ih]
    rw [this]; exact hperm
  · intro v hv
    obtain ⟨i, _, rfl⟩ := List.mem_map.1 hv
    rfl
  · have : ∀ s : List α, (s.map fun i => [i]).flatten = s := by
      intro s; induction s with
      | nil => rfl
      | cons a s ih => simp [ih]
    rw [this]
    have hnd : ((l.insertionSort fun a b => address a ≤ address b).map address).Nodup :=
      (hperm.map address).nodup_iff.2 h
    have hne : (l.insertionSort fun a b => address a ≤ address b).Pairwise
        (fun a b => address a ≠ address b) := List.pairwise_map.1 hnd
    exact (hsorted.and hne).imp fun ⟨a, b⟩ => lt_of_le_of_ne a b

/-- **C68**: flattening a function table keeps every instruction of every
function, whatever the addresses, and orders them by address. -/
theorem C68_flatten (functions : List (List α)) :
    (functionsToList address functions).1.Perm functions.flatten ∧
    (functionsToList address functions).1.Pairwise (fun a b => address a ≤ address b) := by
  have inst1 : Std.Total (fun a b : α => address a ≤ address b) := ⟨fun a b => le_total _ _⟩
  have inst2 : IsTrans α (fun a b => address a ≤ address b) := ⟨fun a b c => le_trans⟩
  exact ⟨List.perm_insertionSort _ _, List.pairwise_insertionSort _ _⟩

/-- **C68**: the flattened list and its map agree: when addresses are distinct,
the map lists the same instructions in the same order. -/
theorem C68_agree (functions : List (List α)) (h : (functions.flatten.map address).Nodup) :
    dictToList (listToDict address (functionsToList address functions).1)
      = .ok ((functionsToList address functions).1.map fun i => [i]) ∧
    ∀ f ∈ functions, ∀ i ∈ f,
      dictGet (listToDict address (functionsToList address functions).1) (address i) = some [i] := by
  have inst1 : Std.Total (fun a b : α => address a ≤ address b) := ⟨fun a b => le_total _ _⟩
  have inst2 : IsTrans α (fun a b => address a ≤ address b) := ⟨fun a b c => le_trans⟩
  obtain ⟨hp, hs⟩ := C68_flatten address functions
  have hnd : ((functionsToList address functions).1.map address).Nodup := (hp.map address).nodup_iff.2 h
  obtain ⟨h1, h2⟩ := C68_map address _ hnd
  constructor
  · unfold dictToList
    rw [h1]
    rw [List.Pairwise.insertionSort_eq (r := (· ≤ ·)) (List.pairwise_map.2 hs)]
    exact mapM_dictAt address _ _ h2
  · intro f hf i hi
    exact h2 i (hp.mem_iff.2 (List.mem_flatten.2 ⟨f, hf, hi⟩))

/-- **C68**: the table of functions gives the bounds of every function, when the
functions start at different addresses; the bound is the address of the last
instruction when the instructions follow each other. -/
theorem C68_bounds (functions : List (List α)) (h : (functions.map (startAddr address)).Nodup)
    (f : List α) (hf : f ∈ functions) :
    ∃ s e, dictGet (functionsToList address functions).2 s = some (s, e) ∧
      (∀ i, f.head? = some i → s = address i) ∧
      (f.IsChain (fun a b => address b = address a + 4) → ∀ i, f.getLast? = some i → e = address i) := by
  refine ⟨startAddr address f, finalAddr address f, ?_, ?_, ?_⟩
  · show dictGet (functions.foldl _ []) _ = _
    induction functions using List.reverseRecOn with
    | nil => cases hf
    | append_singleton fs g ih =>
      rw [List.foldl_append, List.foldl_cons, List.foldl_nil, dictGet_dictSet]
      rw [List.map_append, List.nodup_append] at h
      rcases List.mem_append.1 hf with hf | hf
      · rw [if_neg, ih h.1 hf]
        exact fun e => h.2.2 _ (List.mem_map_of_mem hf) _ (by simp) e.symm
      · rw [List.mem_singleton] at hf
        subst hf
        rw [if_pos rfl]
  · intro i hi
    cases f with
    | nil => cases hi
    | cons a t => cases hi; rfl
  · intro hc i hi
    have key : ∀ (t : List α) (a : α), (a :: t).IsChain (fun a b => address b = address a + 4) →
        ∀ i, (a :: t).getLast? = some i → address i = address a + 4 * t.length := by
      intro t
      induction t with
      | nil => intro a _ i hi; cases hi; simp
      | cons b t ih =>
        intro a hc i hi
        rw [List.isChain_cons_cons] at hc
        rw [List.getLast?_cons_cons] at hi
        rw [ih b hc.2 i hi, hc.1]
        push_cast [List.length_cons]
        ring
    cases f with
    | nil => cases hi
    | cons a t =>
      rw [key t a hc i hi]
      simp only [finalAddr, List.length_cons]
      push_cast
      ring

/-- Two functions out of order; the second has address 4. -/
example : functionsToList (fun p : Int × Nat => p.1) [[(8, 1), (12, 2)], [(4, 7)]]
    = ([(4, 7), (8, 1), (12, 2)], [(8, (8, 12)), (4, (4, 4))]) := by decide +kernel

/-- Distinct addresses are needed: otherwise instructions are lost. -/
example : listToDict (fun p : Int × Nat => p.1) [(4, 1), (4, 2)] = [(4, [(4, 2)])] := by decide +kernel

end Conversions

/-! ### C73, C74 -/

/-- **C73** and **C74** for the control-flow rule: it reports a change exactly
when some score under its own key changed, changes nothing else, and reports no
change when run again. -/
theorem C73_control_flow (pass position : Int) (prog prog' : RuleProg) (u : Bool)
    (h : cfgRecover pass prog position = .ok (prog', u)) :
    Spec.OnlyKey ("CFG" ++ toString pass) prog prog' ∧
    (u = true ↔ Spec.Changed ("CFG" ++ toString pass) prog prog') ∧
    cfgRecover pass prog' position = .ok (prog', false) := by
  unfold cfgRecover at h
  simp only [bind, Except.bind] at h
  split at h
  · cases h
  next scores hs =>
  split at h
  · cases h
  next insts hi =>
  split at h
  · cases h
  next r hr =>
  obtain ⟨l', w⟩ := r
  simp only [pure, Except.pure, Except.ok.injEq, Prod.mk.injEq] at h
  obtain ⟨rfl, rfl⟩ := h
  obtain ⟨h1, h2⟩ := updateScores_upd _ _ _ _ _ hr
  obtain ⟨k1, k2⟩ := h1.prog hi
  refine ⟨k1, k2, ?_⟩
  have ha : answers (dictSet prog position l') = answers prog := answers_dictSet _ _ _ _ hi h1.same
  unfold cfgRecover
  simp only [bind, Except.bind, ha, hs, dictGet_dictSet, if_true, h2, dictSet_dictSet, pure, Except.pure]

/-- **C73** and **C74** for the three counting rules. -/
theorem C73_counting {κ : Type} [DecidableEq κ] (r : CountRule κ) (counts : List (κ × Nat))
    (pass position : Int) (cache cache' : List (κ × Rat)) (prog prog' : RuleProg) (u : Bool)
    (h : countRecover r counts pass cache prog position = .ok (cache', prog', u)) :
    Spec.OnlyKey (r.name ++ toString pass) prog prog' ∧
    (u = true ↔ Spec.Changed (r.name ++ toString pass) prog prog') ∧
    countRecover r counts pass cache' prog' position = .ok (cache', prog', false) := by
  unfold countRecover at h
  simp only [bind, Except.bind] at h
  split at h
  · cases h
  next scores hs =>
  split at h
  · cases h
  next insts hi =>
  simp only [Except.ok.injEq, Prod.mk.injEq] at h
  obtain ⟨rfl, rfl, rfl⟩ := h
  obtain ⟨h1, h2⟩ := countUpdate_upd r (r.name ++ toString pass) scores insts
  obtain ⟨k1, k2⟩ := h1.prog hi
  refine ⟨k1, k2, ?_⟩
  have ha := answers_dictSet prog position _ _ hi h1.same
  have hs' : countCache r counts scores
      (dictSet prog position (countUpdate r (r.name ++ toString pass) scores insts).1) = .ok scores := by
    unfold countCache at hs ⊢
    rw [ha]
    split at hs
    · split
      · exact hs
      · rfl
    · split
      · next h0 h1 =>
        simp only [Except.ok.injEq] at hs
        subst hs
        exact absurd h1 h0
      · rfl
  unfold countRecover
  simp only [bind, Except.bind, hs', dictGet_dictSet, if_true, h2, dictSet_dictSet]

theorem distanceAll_length (coll : Collector) (prog : List (Int × List RuleInst)) (position : Int) :
    ∀ (is : List RuleInst) (w : Option Nat) (vss : List (List Rat)),
      distanceAll coll prog position w is = .ok vss → vss.length = is.length := by
  intro is
  induction is with
  | nil => intro w vss h; cases h; rfl
  | cons i is ih =>
    intro w vss h
    simp only [distanceAll, bind, Except.bind] at h
    split at h
    · cases h
    split at h
    · cases h
    next hr =>
    cases h
    simp [ih _ _ hr]

theorem give_all (k : String) (insts : List RuleCand) (vss : List (List Rat))
    (hl : vss.length = insts.length) :
    ((insts.zipWith (giveScores k) vss).map (·.1)).map (·.a) = insts.map (·.a) ∧
    ∀ k' ≠ k, ∀ i, sc k' ((insts.zipWith (giveScores k) vss).map (·.1)) i = sc k' insts i := by
  induction insts generalizing vss with
  | nil => exact ⟨rfl, fun _ _ _ => rfl⟩
  | cons x xs ih =>
    cases vss with
    | nil => cases hl
    | cons vs vss =>
      obtain ⟨h1, h2⟩ := ih vss (by simpa using hl)
      obtain ⟨g1, g2, _⟩ := giveScores_spec k x vs
      refine ⟨by simp only [List.zipWith_cons_cons, List.map_cons, g1, h1], ?_⟩
      intro k' hk i
      cases i with
      | zero =>
        rw [List.zipWith_cons_cons, List.map_cons, sc_zero, sc_zero, g2 k', if_neg hk]
      | succ i => rw [List.zipWith_cons_cons, List.map_cons, sc_succ, sc_succ, h2 k' hk]

/-- **C74** for the distance rule. -/
theorem C74_distance (coll : Collector) (pass position : Int) (prog prog' : RuleProg) (u : Bool)
    (h : distanceRecover coll pass prog position = .ok (prog', u)) :
    Spec.OnlyKey ("REG_DIST" ++ toString pass) prog prog' := by
  unfold distanceRecover at h
  split at h
  · cases h
  next insts hi =>
  simp only [bind, Except.bind] at h
  split at h
  · cases h
  next vss hv =>
  simp only [pure, Except.pure, Except.ok.injEq, Prod.mk.injEq] at h
  obtain ⟨rfl, rfl⟩ := h
  have hl : vss.length = insts.length := by
    simpa using distanceAll_length _ _ _ _ _ _ hv
  obtain ⟨g1, g2⟩ := give_all ("REG_DIST" ++ toString pass) insts vss hl
  refine ⟨answers_dictSet _ _ _ _ hi g1, ?_⟩
  intro k' hk b i
  rw [scoreAt_dictSet]
  split
  · next e => subst e; rw [g2 k' hk, scoreAt_of k' hi]
  · rfl

/-- **C73 for the distance rule, what holds**: when it reports no change, no score
of a candidate that is not ignored changed. Missing: scores of ignored candidates
may change unreported (`C73_distance_unreported`), and changes may be reported
although no score differs in the end, even on a second run
(`C73_distance_overreported`). -/
theorem C73_distance_partial (coll : Collector) (pass position : Int) (prog prog' : RuleProg)
    (h : distanceRecover coll pass prog position = .ok (prog', false)) (a : Int) (i : Nat)
    (l : List RuleCand) (x : RuleCand) (ha : dictGet prog a = some l) (hx : l[i]? = some x)
    (hig : x.a.c.m.ignore = false) :
    Spec.scoreAt ("REG_DIST" ++ toString pass) prog' a i
      = Spec.scoreAt ("REG_DIST" ++ toString pass) prog a i := by
  unfold distanceRecover at h
  split at h
  · cases h
  next insts hi =>
  simp only [bind, Except.bind] at h
  split at h
  · cases h
  next vss hv =>
  simp only [pure, Except.pure, Except.ok.injEq, Prod.mk.injEq] at h
  obtain ⟨rfl, hu⟩ := h
  rw [scoreAt_dictSet]
  split
  · next e =>
    subst e
    rw [hi] at ha
    cases ha
    rw [scoreAt_of _ hi]
    have hl : vss.length = l.length := by
      simpa using distanceAll_length _ _ _ _ _ _ hv
    obtain ⟨hlt, hxi⟩ := List.getElem?_eq_some_iff.1 hx
    have hv' : vss[i]? = some (vss[i]'(by omega)) := List.getElem?_eq_getElem (by omega)
    have hz : (l.zipWith (giveScores ("REG_DIST" ++ toString pass)) vss)[i]?
        = some (giveScores ("REG_DIST" ++ toString pass) x (vss[i]'(by omega))) := by
      rw [List.getElem?_zipWith, hx, hv']
    rw [List.any_eq_false] at hu
    have hu' := hu _ (List.mem_of_getElem? hz)
    obtain ⟨g1, g2, g3⟩ := giveScores_spec ("REG_DIST" ++ toString pass) x (vss[i]'(by omega))
    rw [g1, hig] at hu'
    simp only [Bool.not_false, Bool.and_true, Bool.not_eq_true] at hu'
    unfold sc
    rw [List.getElem?_map, hz, hx]
    simp only [Option.map_some, Option.bind_some, g3 hu']
  · rfl

/-- **C74** for the deprecated recuperator with one pass, which runs all rules on
all addresses. -/
theorem C74_recuperator (coll : Collector) (prog prog' : RuleProg)
    (h : oldRecover coll 1 prog = .ok prog') : Spec.candidates prog' = Spec.candidates prog := by
  have hat : ∀ (s s' : Caches × RuleProg) (a : Int), rulesAt coll 0 s a = .ok s' →
      Spec.candidates s'.2 = Spec.candidates s.2 := by
    intro s s' a h
    unfold rulesAt at h
    simp only [bind, Except.bind] at h
    split at h
    · cases h
    next r1 h1 =>
    split at h
    · cases h
    next r2 h2 =>
    split at h
    · cases h
    next r3 h3 =>
    split at h
    · cases h
    next r4 h4 =>
    split at h
    · cases h
    next r5 h5 =>
    cases h
    exact ((C74_distance _ _ _ _ _ _ h5).1.trans ((C73_counting _ _ _ _ _ _ _ _ _ h4).1.1.trans
      ((C73_counting _ _ _ _ _ _ _ _ _ h3).1.1.trans ((C73_counting _ _ _ _ _ _ _ _ _ h2).1.1.trans
        (C73_control_flow _ _ _ _ _ h1).1.1))))
  have hturn : ∀ (s s' : Caches × RuleProg) (a : Int), oldTurn coll 1 0 s a = .ok s' →
      Spec.candidates s'.2 = Spec.candidates s.2 := by
    intro s s' a h
    unfold oldTurn at h
    split at h
    · cases h
    split at h
    · simp only [bind, Except.bind] at h
      split at h
      · cases h
      next r hr =>
      rw [if_neg (by omega)] at h
      cases h
      exact hat _ _ _ hr
    · cases h; rfl
  have hloop : ∀ (as : List Int) (s s' : Caches × RuleProg), as.foldlM (oldTurn coll 1 0) s = .ok s' →
      Spec.candidates s'.2 = Spec.candidates s.2 := by
    intro as
    induction as with
    | nil => intro s s' h; cases h; rfl
    | cons a as ih =>
      intro s s' h
      simp only [List.foldlM_cons, bind, Except.bind] at h
      split at h
      · cases h
      next r hr => exact (ih _ _ h).trans (hturn _ _ _ hr)
  unfold oldRecover at h
  simp only [List.range_one, List.foldlM_cons, List.foldlM_nil, bind, Except.bind] at h
  split at h
  · cases h
  next r hr =>
  cases h
  split at hr
  · cases hr
  next s hs =>
  cases hr
  exact hloop _ _ _ hs

/-! ### Witnesses -/

/-- A candidate with the given storages. -/
def ruleSample (ignore : Bool) (used read written : List Nat) : RuleCand :=
  { a := { c := { m := ⟨ignore, 0, 14, 1, used, read, written⟩, isBranch := false, isPush := false,
                  isPop := false, regsRead := [], regsWritten := [], jump := none },
           flags := false, regsUsed := used } }

/-- Collected metadata for the witness: storages 0 and 1 are written one or two
instructions before they are read. -/
def ruleColl : Collector := { minDist := [(0, 1), (1, 1)], maxDist := [(0, 2), (1, 2)] }

/-- **C73 is false of the distance rule**: the first run on an ignored candidate
stores its score without reporting it. -/
theorem C73_distance_unreported : ∃ prog prog',
    distanceRecover ruleColl 1 prog 8 = .ok (prog', false) ∧ Spec.Changed "REG_DIST1" prog prog' := by
  refine ⟨[(8, [ruleSample true [] [] []])], [(8, [{ ruleSample true [] [] [] with
    scores := [("REG_DIST1", 0)] }])], by decide +kernel, 8, 0, by decide +kernel⟩

/-- **C73 is false of the distance rule**: run again on its own result, it reports
a change though nothing differs. -/
theorem C73_distance_overreported : ∃ prog prog',
    distanceRecover ruleColl 1 prog 8 = .ok (prog', true) ∧
    distanceRecover ruleColl 1 prog' 8 = .ok (prog', true) := by
  refine ⟨[(0, [ruleSample false [1] [] [1]]), (4, [ruleSample false [0] [] [0]]),
    (8, [ruleSample false [0, 1] [0, 1] []])],
    [(0, [ruleSample false [1] [] [1]]), (4, [ruleSample false [0] [] [0]]),
    (8, [{ ruleSample false [0, 1] [0, 1] [] with scores := [("REG_DIST1", 1)] }])],
    by decide +kernel, by decide +kernel⟩

/-- The control-flow rule on two candidates: it reports a change, then none. -/
example : (cfgRecover 1 [(4, [ruleSample false [] [] []]), (8, [ruleSample false [] [] [],
      ruleSample true [] [] []])] 8).map (fun r => (r.2, Spec.scoreAt "CFG1" r.1 8 0, Spec.scoreAt "CFG1" r.1 8 1))
    = .ok (true, some (7 / 10 + ruleEps * 17 / 10), some 0) := by decide +kernel

/-- A counting rule. -/
example : (countRecover instructionCount [(1, 3)] 1 [] [(4, [ruleSample false [] [] []]),
      (8, [ruleSample false [] [] [], ruleSample false [] [] []])] 8).map
      (fun r => (r.1, r.2.2, Spec.scoreAt "INST_COUNT1" r.2.1 8 0))
    = .ok ([(1, 1)], true, some 1) := by decide +kernel

end Verif
