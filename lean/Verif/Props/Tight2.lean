import Verif.Props.Rules
import Verif.Props.Json
import Verif.Props.ForwardExact

/-!
# What else the reports and errors are
-/

namespace Verif

theorem giveScores_flag (k : String) (x : RuleCand) (vs : List Rat) :
    (giveScores k x vs).2 = true ↔ ∃ v ∈ vs, dictGet x.scores k ≠ some v := by
  induction vs using List.reverseRecOn with
  | nil =>
    constructor
    · intro h; cases (show false = true from h)
    · rintro ⟨_, h, _⟩; exact absurd h List.not_mem_nil
  | append_singleton vs v ih =>
    rw [giveScores_snoc]
    simp only [Bool.or_eq_true, ih, List.mem_append, List.mem_singleton]
    constructor
    · rintro (⟨w, hw, h⟩ | h)
      · exact ⟨w, .inl hw, h⟩
      · by_cases hf : (giveScores k x vs).2 = false
        · rw [(giveScores_spec k x vs).2.2 hf] at h
          refine ⟨v, .inr rfl, fun e => ?_⟩
          unfold updateCandidate at h
          rw [if_pos e] at h
          cases h
        · obtain ⟨w, hw, e⟩ := ih.mp (by simpa using hf)
          exact ⟨w, .inl hw, e⟩
    · rintro ⟨w, hw | rfl, h⟩
      · exact .inl ⟨w, hw, h⟩
      · by_cases hf : (giveScores k x vs).2 = false
        · rw [(giveScores_spec k x vs).2.2 hf]
          right
          unfold updateCandidate
          rw [if_neg h]
        · exact .inl (ih.mp (by simpa using hf))

/-- C73, the distance rule exactly: it reports a change if and only if some candidate that is
not ignored is given, on the way, a score other than the one it had. -/
theorem C73_distance_exact (coll : Collector) (pass position : Int) (prog prog' : RuleProg) (u : Bool)
    (h : distanceRecover coll pass prog position = .ok (prog', u)) :
    ∃ (l : List RuleCand) (given : List (List Rat)), dictGet prog position = some l ∧ given.length = l.length ∧
      distanceAll coll (answers prog) position none (l.map (·.a)) = .ok given ∧
      (u = true ↔ ∃ (i : Nat) (x : RuleCand) (vs : List Rat), l[i]? = some x ∧ given[i]? = some vs ∧ x.a.c.m.ignore = false ∧
        ∃ v ∈ vs, dictGet x.scores ("REG_DIST" ++ toString pass) ≠ some v) := by
  unfold distanceRecover at h
  split at h
  · cases h
  next l hi =>
  simp only [bind, Except.bind] at h
  split at h
  · cases h
  next vss hv =>
  simp only [pure, Except.pure, Except.ok.injEq, Prod.mk.injEq] at h
  obtain ⟨rfl, rfl⟩ := h
  refine ⟨l, vss, hi, by simpa using distanceAll_length _ _ _ _ _ _ hv, hv, ?_⟩
  rw [List.any_eq_true]
  constructor
  · rintro ⟨y, hy, hb⟩
    obtain ⟨i, hy⟩ := List.getElem?_of_mem hy
    rw [List.getElem?_zipWith] at hy
    cases hx : l[i]? with
    | none => rw [hx] at hy; cases hy
    | some x =>
      cases hw : vss[i]? with
      | none => rw [hx, hw] at hy; cases hy
      | some vs =>
        rw [hx, hw] at hy
        simp only [Option.some.injEq] at hy
        subst hy
        simp only [Bool.and_eq_true, Bool.not_eq_true', (giveScores_spec _ x vs).1] at hb
        exact ⟨i, x, vs, hx, hw, hb.2, (giveScores_flag _ x vs).mp hb.1⟩
  · rintro ⟨i, x, vs, hx, hw, hg, hv⟩
    refine ⟨giveScores ("REG_DIST" ++ toString pass) x vs, List.mem_of_getElem? (i := i) ?_, ?_⟩
    · rw [List.getElem?_zipWith, hx, hw]
    · rw [(giveScores_flag _ x vs).mpr hv, (giveScores_spec _ x vs).1, hg]
      rfl

/-- C25: a file whose addresses are numbers is loaded unless it has an encoding of more than
32 bits; then it raises OverflowError. -/
theorem C25_overflow (p : Program) (hw : ∃ q ∈ p, ∃ i ∈ q.2, 2 ^ 32 ≤ i.encoding) :
    loadJson (saveJson p) = .error .overflow := by
  unfold loadJson saveJson
  suffices ∀ (p : Program) (r : Program), (∃ q ∈ p, ∃ i ∈ q.2, 2 ^ 32 ≤ i.encoding) →
      loadInto r (p.map fun q => (decimal q.1, q.2.map (·.encoding))) = .error .overflow from this p [] hw
  have hm : ∀ (a : Nat) (l : List Nat), (∃ e ∈ l, 2 ^ 32 ≤ e) → l.mapM (fun e => mkInst e a) = .error .overflow := by
    intro a l
    induction l with
    | nil => rintro ⟨_, h, _⟩; exact absurd h List.not_mem_nil
    | cons x l ih =>
      intro h
      rw [List.mapM_cons]
      by_cases hx : x < 2 ^ 32
      · have : ∃ e ∈ l, 2 ^ 32 ≤ e := by
          obtain ⟨e, he, h⟩ := h
          rcases List.mem_cons.mp he with rfl | he
          · omega
          · exact ⟨e, he, h⟩
        unfold mkInst at ih ⊢
        rw [if_pos hx, ih this]
        rfl
      · unfold mkInst
        rw [if_neg hx]
        rfl
  intro p
  induction p with
  | nil => rintro _ ⟨_, h, _⟩; exact absurd h List.not_mem_nil
  | cons q p ih =>
    intro r h
    rw [List.map_cons]
    unfold loadInto
    rw [readInt_decimal]
    simp only [bind, Except.bind]
    by_cases hq : ∃ i ∈ q.2, 2 ^ 32 ≤ i.encoding
    · obtain ⟨i, hi, hb⟩ := hq
      rw [hm _ _ ⟨_, List.mem_map_of_mem hi, hb⟩]
    · rw [mapM_mkInst _ _ (by
        intro c hc
        obtain ⟨i, hi, rfl⟩ := List.mem_map.mp hc
        by_contra hn
        exact hq ⟨i, hi, by omega⟩)]
      obtain ⟨q', hq', h⟩ := h
      rcases List.mem_cons.mp hq' with rfl | hq'
      · exact absurd h hq
      · exact ih _ ⟨q', hq', h⟩

example : loadJson (saveJson [(8, [⟨1, 8⟩]), (4, [⟨2, 4⟩, ⟨2 ^ 32, 4⟩])]) = .error .overflow := by decide +kernel

/-- C48: an address that has lost its original makes the construction raise RuntimeError. -/
theorem C48_missing (pa : List FInst) (o : FInst) : findIndex pa o = .error .runtime ↔ ∀ c ∈ pa, c.str ≠ o.str := by
  constructor
  · intro h c hc e
    obtain ⟨i, _, h', _⟩ := findIndex_ok (pa := pa) (ori := o) ⟨c, hc, e⟩
    rw [h] at h'
    cases h'
  · intro h
    unfold findIndex
    have : pa.findIdx (fun c => decide (c.str = o.str)) = pa.length :=
      List.findIdx_eq_length.mpr fun c hc => by simpa using h c hc
    simp only [this, if_true]

example : findIndex [fwdSample 11 1 14 0, fwdSample 12 1 14 0] (fwdSample 10 1 14 0) = .error .runtime := by decide +kernel

end Verif
