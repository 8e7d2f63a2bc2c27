import Verif.Proof.Distance
import Verif.Props.Rules

/-!
# C113: what the distance rule gives
-/

namespace Verif

/-- The addresses that the rule looks at for a candidate. -/
def nearby (coll : Collector) (position : Int) (x : RuleCand) : Int → Prop :=
  Spec.AtDistance (dictGet coll.minDist) (dictGet coll.maxDist) x.a.c.m.read position

/-- The scores a candidate is given one after the other: the last of them. -/
theorem distanceScores_given (coll : Collector) (prog : RuleProg) (position : Int) (x : RuleCand)
    (hr : ∀ r ∈ x.a.c.m.read, r < storageCount) (hd : ∀ r d, dictGet coll.maxDist r = some d → d < 2 ^ 63 - 1) (w : Option Nat) :
    ∃ vs w', distanceScores coll (answers prog) position w x.a = .ok (vs, w') ∧
      (x.a.c.m.ignore = true → vs.getLast? = some 0) ∧
      (x.a.c.m.ignore = false → x.a.c.m.used = [] → vs.getLast? = some ruleEps) ∧
      (x.a.c.m.ignore = false → x.a.c.m.used ≠ [] → (∀ a, nearby coll position x a → writtenAt prog a = none) → vs = []) ∧
      (x.a.c.m.ignore = false → x.a.c.m.used ≠ [] → (∃ a, nearby coll position x a ∧ writtenAt prog a ≠ none) →
        ∃ best : Nat → Rat, (∀ r ∈ x.a.c.m.read, Spec.Largest ruleEps
          (Spec.ShareOf (fun written r => written.getLast? = some r) (writtenAt prog) (nearby coll position x) r) (best r)) ∧
        vs.getLast? = some (Spec.meanTo1 x.a.c.m.read best)) := by
  unfold distanceScores
  by_cases hi : x.a.c.m.ignore = true
  · rw [if_pos hi]
    exact ⟨[0], w, rfl, fun _ => rfl, by simp [hi], by simp [hi], by simp [hi]⟩
  · have hi' : x.a.c.m.ignore = false := by simpa using hi
    rw [if_neg hi]
    by_cases hu : x.a.c.m.used = []
    · rw [if_pos (by simp [hu])]
      exact ⟨[ruleEps], w, rfl, by simp [hi'], fun _ _ => rfl, by simp [hu], by simp [hu]⟩
    · rw [if_neg (by simpa using hu)]
      have hmem : ∀ a, a ∈ backPositions position (ruleRange coll x.a.c.m.read) ↔ nearby coll position x a :=
        fun a => mem_range_iff coll x.a.c.m.read position a hd
      have hnone : ∀ a, dictGet (answers prog) a = none ↔ writtenAt prog a = none := by
        intro a
        rw [writtenAt_answers]
        cases dictGet (answers prog) a <;> simp
      by_cases hne : x.a.c.m.read = []
      · have hno : ∀ a, ¬ nearby coll position x a := by
          rintro a ⟨k, _, ⟨r, hr, _⟩, _⟩
          rw [hne] at hr
          cases hr
        rw [hne, backPositions_nil]
        exact ⟨[], w, rfl, by simp [hi'], by simp [hu], fun _ _ _ => rfl, fun _ _ ⟨a, ha, _⟩ => absurd ha (hno a)⟩
      · rw [replicate_array]
        have h0 : (0 : Rat) ≤ meanOf x.a.c.m.read fun _ => ruleEps := by
          unfold meanOf
          refine div_nonneg (List.sum_nonneg ?_) (Nat.cast_nonneg _)
          intro v hv
          obtain ⟨_, _, rfl⟩ := List.mem_map.1 hv
          decide +kernel
        obtain ⟨vs, w', e, h1, h2⟩ := backLoop_eq (answers prog) x.a.c.m.read hr hne
          (backPositions position (ruleRange coll x.a.c.m.read)) (fun _ => ruleEps) (fun _ => le_refl _) 0 h0 w
        refine ⟨vs, w', e, by simp [hi'], by simp [hu], ?_, ?_⟩
        · intro _ _ h
          exact h1 fun a ha => (hnone a).2 (h a ((hmem a).1 ha))
        · rintro _ _ ⟨a, ha, hn⟩
          refine ⟨_, fun r hr => way_largest prog x.a.c.m.read _ (nearby coll position x) hmem r hr, ?_⟩
          rw [h2 ⟨a, (hmem a).2 ha, fun h => hn ((hnone a).1 h)⟩]
          rfl

theorem distanceAll_given (coll : Collector) (prog : RuleProg) (position : Int) (Q : RuleCand → List Rat → Prop) :
    ∀ (l : List RuleCand) (_ : ∀ x ∈ l, ∀ w, ∃ vs w', distanceScores coll (answers prog) position w x.a = .ok (vs, w') ∧ Q x vs)
      (w : Option Nat), ∃ vss, distanceAll coll (answers prog) position w (l.map (·.a)) = .ok vss ∧
        vss.length = l.length ∧ ∀ (i : Nat) (x : RuleCand), l[i]? = some x → ∃ vs, vss[i]? = some vs ∧ Q x vs := by
  intro l
  induction l with
  | nil => intro _ w; exact ⟨[], rfl, rfl, by simp⟩
  | cons x l ih =>
    intro h w
    obtain ⟨vs, w1, e1, q1⟩ := h x (by simp) w
    obtain ⟨vss, e2, len, q2⟩ := ih (fun y hy => h y (by simp [hy])) w1
    refine ⟨vs :: vss, ?_, by simp [len], ?_⟩
    · rw [List.map_cons]
      unfold distanceAll
      rw [e1]
      show (distanceAll coll (answers prog) position w1 (l.map (·.a)) >>= fun rest => (pure (vs :: rest) : Py (List (List Rat)))) = _
      rw [e2]
      rfl
    · intro i y hy
      cases i with
      | zero => cases hy; exact ⟨vs, rfl, q1⟩
      | succ i => exact q2 i y hy

/-- C113: what the distance rule gives, exactly.  If every storage that a candidate reads is
one of the twenty known, the rule raises nothing and

* an ignored candidate is given 0;
* a candidate that uses no storage is given the small constant;
* a candidate keeps the score it had if there is nothing at the distances known for what it
  reads;
* any other is given the mean, but at most 1, of the best shares of the storages it reads,
  where of each previous candidate only the storage it writes *last* is considered. -/
theorem C113_exact (coll : Collector) (pass position : Int) (prog : RuleProg) (l : List RuleCand) (hp : dictGet prog position = some l)
    (hr : ∀ x ∈ l, ∀ r ∈ x.a.c.m.read, r < 20) (hd : ∀ r d, dictGet coll.maxDist r = some d → d < 2 ^ 63 - 1) :
    ∃ prog' u, distanceRecover coll pass prog position = .ok (prog', u) ∧ ∀ (i : Nat) (x : RuleCand), l[i]? = some x →
      let score := Spec.scoreAt ("REG_DIST" ++ toString pass) prog' position i
      (x.a.c.m.ignore = true → score = some 0) ∧
      (x.a.c.m.ignore = false → x.a.c.m.used = [] → score = some (1 / 10 ^ 14)) ∧
      (x.a.c.m.ignore = false → x.a.c.m.used ≠ [] → (∀ a, nearby coll position x a → writtenAt prog a = none) →
        score = Spec.scoreAt ("REG_DIST" ++ toString pass) prog position i) ∧
      (x.a.c.m.ignore = false → x.a.c.m.used ≠ [] → (∃ a, nearby coll position x a ∧ writtenAt prog a ≠ none) →
        ∃ best : Nat → Rat, (∀ r ∈ x.a.c.m.read, Spec.Largest (1 / 10 ^ 14)
          (Spec.ShareOf (fun written r => written.getLast? = some r) (writtenAt prog) (nearby coll position x) r) (best r)) ∧
        score = some (Spec.meanTo1 x.a.c.m.read best)) := by
  obtain ⟨vss, e, len, hq⟩ := distanceAll_given coll prog position _ l
    (fun x hx w => distanceScores_given coll prog position x (hr x hx) hd w) none
  unfold distanceRecover
  rw [hp]
  show ∃ prog' u, (distanceAll coll (answers prog) position none (l.map (·.a)) >>= _) = _ ∧ _
  rw [e]
  refine ⟨_, _, rfl, fun i x hx => ?_⟩
  obtain ⟨vs, hvs, q1, q2, q3, q4⟩ := hq i x hx
  have hs : ∀ prog', prog' = dictSet prog position ((l.zipWith (giveScores ("REG_DIST" ++ toString pass)) vss).map (·.1)) →
      Spec.scoreAt ("REG_DIST" ++ toString pass) prog' position i =
        vs.getLast?.or (Spec.scoreAt ("REG_DIST" ++ toString pass) prog position i) := by
    rintro _ rfl
    rw [scoreAt_dictSet, if_pos rfl, scoreAt_of _ hp]
    unfold sc
    rw [List.getElem?_map, List.getElem?_zipWith, hx, hvs]
    show dictGet (giveScores _ x vs).1.scores _ = _
    rw [(giveScores_spec _ x vs).2.1, if_pos rfl]
    rfl
  rw [hs _ rfl]
  show (_ → _) ∧ _ ∧ _ ∧ _
  refine ⟨fun h => by rw [q1 h]; rfl, fun h h' => by rw [q2 h h']; rfl, fun h h' h'' => by rw [q3 h h' h'']; rfl, ?_⟩
  intro h h' h''
  obtain ⟨best, b1, b2⟩ := q4 h h' h''
  exact ⟨best, b1, by rw [b2]; rfl⟩

/-- C113, as one would expect it, for programs whose candidates write at most one storage
each: the best shares are those of all storages written.  Missing: candidates that write
several storages, for which it is false (`C113_refuted`). -/
theorem C113_mean_partial (coll : Collector) (pass position : Int) (prog : RuleProg) (l : List RuleCand) (hp : dictGet prog position = some l)
    (hr : ∀ x ∈ l, ∀ r ∈ x.a.c.m.read, r < 20) (hd : ∀ r d, dictGet coll.maxDist r = some d → d < 2 ^ 63 - 1)
    (hw : ∀ a cands written, writtenAt prog a = some cands → (false, written) ∈ cands → written.length ≤ 1) :
    ∃ prog' u, distanceRecover coll pass prog position = .ok (prog', u) ∧ ∀ (i : Nat) (x : RuleCand), l[i]? = some x →
      x.a.c.m.ignore = false → x.a.c.m.used ≠ [] → (∃ a, nearby coll position x a ∧ writtenAt prog a ≠ none) →
        ∃ best : Nat → Rat, (∀ r ∈ x.a.c.m.read, Spec.Largest (1 / 10 ^ 14)
          (Spec.ShareOf (fun written r => r ∈ written) (writtenAt prog) (nearby coll position x) r) (best r)) ∧
        Spec.scoreAt ("REG_DIST" ++ toString pass) prog' position i = some (Spec.meanTo1 x.a.c.m.read best) := by
  obtain ⟨prog', u, e, h⟩ := C113_exact coll pass position prog l hp hr hd
  refine ⟨prog', u, e, fun i x hx h1 h2 h3 => ?_⟩
  obtain ⟨best, b1, b2⟩ := (h i x hx).2.2.2 h1 h2 h3
  refine ⟨best, fun r hr => ?_, b2⟩
  have : Spec.ShareOf (fun written r => r ∈ written) (writtenAt prog) (nearby coll position x) r =
      Spec.ShareOf (fun written r => written.getLast? = some r) (writtenAt prog) (nearby coll position x) r := by
    funext v
    refine propext ⟨?_, ?_⟩
    · rintro ⟨a, cands, written, g1, g2, g3, g4, rfl⟩
      refine ⟨a, cands, written, g1, g2, g3, ?_, rfl⟩
      have := hw a cands written g2 g3
      match written, this, g4 with
      | [y], _, g4 => simpa [eq_comm] using g4
    · rintro ⟨a, cands, written, g1, g2, g3, g4, rfl⟩
      exact ⟨a, cands, written, g1, g2, g3, List.mem_of_getLast? g4, rfl⟩
  rw [this]
  exact b1 r hr

/-- **C113 is false of candidates that write several storages**: the instruction before writes
storages 0 and 1, the candidate reads storage 0, whose share is a half, and is given the small
constant. -/
theorem C113_refuted : ∃ (coll : Collector) (prog prog' : RuleProg) (x : RuleCand) (u : Bool), dictGet prog 8 = some [x] ∧
    x.a.c.m.ignore = false ∧ x.a.c.m.read = [0] ∧
    Spec.ShareOf (fun written r => r ∈ written) (writtenAt prog) (nearby coll 8 x) 0 (1 / 2) ∧
    distanceRecover coll 1 prog 8 = .ok (prog', u) ∧ Spec.scoreAt "REG_DIST1" prog' 8 0 = some (1 / 10 ^ 14) := by
  refine ⟨ruleColl, [(4, [ruleSample false [0, 1] [] [0, 1]]), (8, [ruleSample false [0] [0] []])],
    [(4, [ruleSample false [0, 1] [] [0, 1]]), (8, [{ ruleSample false [0] [0] [] with scores := [("REG_DIST1", 1 / 10 ^ 14)] }])],
    ruleSample false [0] [0] [], true, by decide +kernel, rfl, rfl, ?_, by decide +kernel, by decide +kernel⟩
  refine ⟨4, [(false, [0, 1])], [0, 1], ⟨1, by decide, ⟨0, by decide, 1, by decide +kernel, by decide⟩, ⟨0, by decide, 2, by decide +kernel, by decide⟩⟩,
    by decide +kernel, by decide, by decide, by decide +kernel⟩

/-- The hypotheses are met: two candidates at address 4, one of which writes storage 0; the
candidate at 8 reads the storages 0 and 1 and is given a half of a half. -/
theorem C113_case : ∃ (coll : Collector) (prog : RuleProg) (x : RuleCand), dictGet prog 8 = some [x] ∧ (∀ r ∈ x.a.c.m.read, r < 20) ∧
    (∀ r d, dictGet coll.maxDist r = some d → d < 2 ^ 63 - 1) ∧ (∃ a, nearby coll 8 x a ∧ writtenAt prog a ≠ none) ∧
    ∃ prog' u, distanceRecover coll 1 prog 8 = .ok (prog', u) ∧ Spec.scoreAt "REG_DIST1" prog' 8 0 = some (1 / 10 ^ 14 + 1 / 4) := by
  refine ⟨ruleColl, [(4, [ruleSample false [0] [] [0], ruleSample false [2] [] [2]]), (8, [ruleSample false [0, 1] [0, 1] []])],
    ruleSample false [0, 1] [0, 1] [], by decide +kernel, by decide, ?_, ⟨4, ⟨1, by decide, ⟨0, by decide, 1, by decide +kernel, by decide⟩,
      ⟨0, by decide, 2, by decide +kernel, by decide⟩⟩, by decide +kernel⟩,
    [(4, [ruleSample false [0] [] [0], ruleSample false [2] [] [2]]),
      (8, [{ ruleSample false [0, 1] [0, 1] [] with scores := [("REG_DIST1", 1 / 10 ^ 14 + 1 / 4)] }])], true, by decide +kernel, by decide +kernel⟩
  intro r d h
  have := dictGet_mem h
  simp [ruleColl] at this
  omega

/-! ### The errors -/

theorem prevStep_errs (storages : List Nat) (count : Nat) (hc : count ≠ 0) (s : List Rat × Option Nat) (p : RuleInst) :
    ErrsIn (fun e => e = .index) (prevStep storages count s p) := by
  unfold prevStep
  refine errsIn_ite (fun _ => errsIn_ok _) fun _ => ?_
  by_cases hw : p.c.m.written = []
  · rw [hw]
    refine ErrsIn.bind (errsIn_ok _) fun arr _ => ?_
    split
    · exact errsIn_ok _
    · split <;> exact errsIn_ok _
  · refine ErrsIn.bind (errsIn_foldlM (fun arr w => errsIn_ite (fun _ => ?_) fun _ => errsIn_ok _) _ _) fun arr _ => ?_
    · split
      · exact errsIn_err rfl
      · refine ErrsIn.bind ?_ fun q _ => errsIn_ok _
        unfold pyDiv
        rw [if_neg]
        · exact errsIn_ok _
        · exact mul_ne_zero (by simpa using hw) (by simpa using hc)
    · split
      · exact errsIn_ok _
      · split <;> exact errsIn_ok _

theorem backLoop_errs (prog : List (Int × List RuleInst)) (storages : List Nat) (hne : storages ≠ []) (as : List Int) :
    ∀ reg best w, ErrsIn (fun e => e = .index) (backLoop prog storages as reg best w) := by
  induction as with
  | nil => intro reg best w; exact errsIn_ok _
  | cons a as ih =>
    intro reg best w
    unfold backLoop
    cases dictGet prog a with
    | none => exact ih _ _ _
    | some insts =>
      refine ErrsIn.bind ?_ fun r _ => ?_
      · by_cases hc : candidateCount insts = 0
        · rw [prevSteps_ignored]
          · exact errsIn_ok _
          · intro p hp
            have := List.countP_eq_zero.1 hc p hp
            simpa using this
        · exact errsIn_foldlM (fun s p => prevStep_errs storages _ hc s p) _ _
      · refine ErrsIn.bind ?_ fun q _ => errsIn_ite (fun _ => errsIn_ok _) fun _ => ErrsIn.bind (ih _ _ _) fun x _ => errsIn_ok _
        unfold pyDiv
        rw [if_neg (by simpa using hne)]
        exact errsIn_ok _

theorem distanceAll_errs (coll : Collector) (prog : List (Int × List RuleInst)) (position : Int) (l : List RuleInst) :
    ∀ w, ErrsIn (fun e => e = .index) (distanceAll coll prog position w l) := by
  induction l with
  | nil => intro w; exact errsIn_ok _
  | cons i l ih =>
    intro w
    unfold distanceAll
    refine ErrsIn.bind ?_ fun r _ => ErrsIn.bind (ih _) fun x _ => errsIn_ok _
    unfold distanceScores
    refine errsIn_ite (fun _ => errsIn_ok _) fun _ => errsIn_ite (fun _ => errsIn_ok _) fun _ => ?_
    by_cases hne : i.c.m.read = []
    · rw [hne, backPositions_nil]
      exact errsIn_ok _
    · exact backLoop_errs _ _ hne _ _ _ _

/-- C113, the errors: an address that is not in the program is a `KeyError`, and there is no
other `KeyError`; everything else raised is an `IndexError`, and then some candidate reads a
storage that is not one of the twenty. -/
theorem C113_errors (coll : Collector) (pass position : Int) (prog : RuleProg)
    (hd : ∀ r d, dictGet coll.maxDist r = some d → d < 2 ^ 63 - 1) (e : Err) (h : distanceRecover coll pass prog position = .error e) :
    (dictGet prog position = none ∧ e = .key) ∨
    (e = .index ∧ ∃ l x r, dictGet prog position = some l ∧ x ∈ l ∧ r ∈ x.a.c.m.read ∧ 20 ≤ r) := by
  cases hp : dictGet prog position with
  | none =>
    left
    unfold distanceRecover at h
    rw [hp] at h
    cases h
    exact ⟨rfl, rfl⟩
  | some l =>
    right
    refine ⟨?_, ?_⟩
    · unfold distanceRecover at h
      rw [hp] at h
      exact ErrsIn.bind (distanceAll_errs coll (answers prog) position (l.map (·.a)) none) (fun _ _ => errsIn_ok _) e h
    · by_contra hc
      have hr : ∀ x ∈ l, ∀ r ∈ x.a.c.m.read, r < 20 := by
        intro x hx r hr
        by_contra hlt
        exact hc ⟨l, x, r, rfl, hx, hr, by omega⟩
      obtain ⟨prog', u, e', _⟩ := C113_exact coll pass position prog l hp hr hd
      rw [e'] at h
      cases h

/-- An address that is not in the program is a `KeyError`; a storage that is not one of the
twenty, read and written before, is an `IndexError`. -/
theorem C113_errors_case : (∀ coll pass position, distanceRecover coll pass [] position = .error .key) ∧
    distanceRecover { minDist := [(20, 1)], maxDist := [(20, 1)] } 1
      [(4, [ruleSample false [20] [] [20]]), (8, [ruleSample false [20] [20] []])] 8 = .error .index :=
  ⟨fun _ _ _ => rfl, by decide +kernel⟩

end Verif
