import Verif.Model.PacketCorruptor
import Verif.Proof.Corruption
import Verif.Proof.Predict

/-! Lemmas about packet-loss corruption. -/

namespace Verif
open Spec

theorem mapM_mkInst (addr : Nat) : ∀ cs : List Nat, (∀ c ∈ cs, c < 2 ^ 32) →
    cs.mapM (fun c => mkInst c addr) = .ok (cs.map fun c => ⟨c, addr⟩) := by
  intro cs
  induction cs with
  | nil => intro _; rfl
  | cons c cs ih =>
    intro h
    rw [List.mapM_cons, ih fun x hx => h x (by simp [hx])]
    unfold mkInst
    rw [if_pos (h c (by simp))]
    rfl

theorem lt_of_agree {S : Nat → Prop} (hS : ∀ i, S i → i < 32) {v w : Nat} (hv : v < 2 ^ 32)
    (h : agreeOutside S v w) : w < 2 ^ 32 := by
  apply Nat.lt_pow_two_of_testBit
  intro i hi
  rw [← h i fun hs => by have := hS i hs; omega]
  exact Nat.testBit_lt_two_pow (lt_of_lt_of_le hv (Nat.pow_le_pow_right (by omega) hi))

/-- The result of `corruptInsts`. -/
def cornered (ts : List (Nat × Nat)) (addr : Nat) (l : List CInst) : List CInst :=
  l.flatMap fun i => (combosFrom [i.encoding] (tuplesBits ts)).map fun c => ⟨c, addr⟩

theorem corruptInsts_ok (ts : List (Nat × Nat)) (addr : Nat) (ht : ∀ t ∈ ts, t.1 ≤ t.2 ∧ t.2 ≤ 31) :
    ∀ l : List CInst, (∀ i ∈ l, i.encoding < 2 ^ 32) →
      corruptInsts ts addr l = .ok (cornered ts addr l) := by
  intro l
  induction l with
  | nil => intro _; rfl
  | cons i l ih =>
    intro h
    have hb : ∀ c ∈ combosFrom [i.encoding] (tuplesBits ts), c < 2 ^ 32 := by
      intro c hc
      rw [mem_combosFrom] at hc
      obtain ⟨v, hv, hag⟩ := hc
      rw [List.mem_singleton] at hv
      subst hv
      refine lt_of_agree ?_ (h i (by simp)) hag
      intro j hj
      obtain ⟨t, ht', h1, h2⟩ := (mem_tuplesBits ts j).1 hj
      have := ht t ht'
      omega
    simp only [corruptInsts, bind, Except.bind, corruptTuples_ok ts _ ht, mapM_mkInst addr _ hb,
      ih fun x hx => h x (by simp [hx])]
    rfl

/-- The candidates of an address after corruption with the ranges `ts`. -/
def cornerAll (ts : List (Nat × Nat)) (l : List CInst) : List CInst :=
  cornered ts ((l.head?.map (·.address)).getD 0) l

theorem length_tuplesBits (ts : List (Nat × Nat)) : (tuplesBits ts).length = (ts.map fun t => t.2 - t.1).sum := by
  induction ts with
  | nil => rfl
  | cons t ts ih =>
    have : tuplesBits (t :: ts) = List.range' t.1 (t.2 - t.1) ++ tuplesBits ts := by
      simp [tuplesBits]
    rw [this]
    simp [ih]

theorem length_cornerAll (ts : List (Nat × Nat)) (l : List CInst) :
    (cornerAll ts l).length = l.length * 2 ^ (ts.map fun t => t.2 - t.1).sum := by
  unfold cornerAll cornered
  generalize (l.head?.map (·.address)).getD 0 = a
  induction l with
  | nil => simp
  | cons i l ih =>
    rw [List.flatMap_cons, List.length_append, ih, List.length_map, length_combosFrom, length_tuplesBits]
    simp only [List.length_cons, List.length_nil, Nat.add_mul]
    omega

theorem corruptAddress_ok {ts : List (Nat × Nat)} (ht : ∀ t ∈ ts, t.1 ≤ t.2 ∧ t.2 ≤ 31)
    {prog : Program} {a : Nat} {l : List CInst} (hl : dictGet prog a = some l)
    (hb : ∀ i ∈ l, i.encoding < 2 ^ 32) :
    corruptAddress ts a prog = .ok (dictSet prog a (cornerAll ts l)) := by
  simp only [corruptAddress, hl, bind, Except.bind, corruptInsts_ok ts _ ht l hb]
  rfl

/-- The ranges listed for word `w`. -/
def wordRanges (bpi w : Nat) (es : List ErrT) : List (Nat × Nat) :=
  (es.filter fun e => decide (e.1 = w)).map (errRange bpi)

theorem wordRanges_nil_of_lt {bpi w : Nat} {es : List ErrT} (h : ∀ e ∈ es, w < e.1) :
    wordRanges bpi w es = [] := by
  unfold wordRanges
  rw [List.map_eq_nil_iff, List.filter_eq_nil_iff]
  intro e he
  have := h e he
  simp; omega

/-- Past the last address nothing happens any more. -/
theorem groupLoop_past (bpi : Nat) (addrs : List Nat) : ∀ (es : List ErrT) (current : Nat)
    (ts : List (Nat × Nat)) (prog : Program), addrs.length ≤ current →
    (∀ e ∈ es, addrs.length ≤ e.1) → groupLoop bpi addrs es current ts prog = .ok prog := by
  intro es
  induction es with
  | nil =>
    intro current ts prog h _
    simp only [groupLoop, flushRanges, List.getElem?_eq_none h]
    rfl
  | cons e es ih =>
    intro current ts prog h he
    have h1 := he e (by simp)
    have h2 : ∀ e ∈ es, addrs.length ≤ e.1 := fun x hx => he x (by simp [hx])
    unfold groupLoop
    split
    · simp only [flushRanges, List.getElem?_eq_none h, bind, Except.bind]
      exact ih _ _ _ h1 h2
    · exact ih _ _ _ h h2

theorem groupLoop_ok (bpi : Nat) (addrs : List Nat) (hn : addrs.Nodup) :
    ∀ (es : List ErrT) (current : Nat) (ts : List (Nat × Nat)) (prog : Program),
    es.Pairwise (fun a b => a.1 ≤ b.1) → (∀ e ∈ es, current ≤ e.1) →
    (∀ t ∈ ts ++ es.map (errRange bpi), t.1 ≤ t.2 ∧ t.2 ≤ 31) →
    (ts = [] → ∃ e es', es = e :: es' ∧ e.1 = current) →
    (∀ w a, addrs[w]? = some a → ∃ l, dictGet prog a = some l ∧ (current ≤ w → ∀ i ∈ l, i.encoding < 2 ^ 32)) →
    ∃ prog', groupLoop bpi addrs es current ts prog = .ok prog' ∧
      prog'.map (·.1) = prog.map (·.1) ∧
      (∀ a, a ∉ addrs → dictGet prog' a = dictGet prog a) ∧
      ∀ w a, addrs[w]? = some a →
        dictGet prog' a = if w < current then dictGet prog a
          else if w = current then (dictGet prog a).map (cornerAll (ts ++ wordRanges bpi w es))
          else if wordRanges bpi w es = [] then dictGet prog a
          else (dictGet prog a).map (cornerAll (wordRanges bpi w es)) := by
  intro es
  induction es with
  | nil =>
    intro current ts prog _ _ hts hne hp
    have hts' : ts ≠ [] := by
      rintro rfl
      obtain ⟨_, _, h, _⟩ := hne rfl
      simp at h
    simp only [List.map_nil, List.append_nil] at hts
    cases hc : addrs[current]? with
    | none =>
      refine ⟨prog, by simp only [groupLoop, flushRanges, hc]; rfl, rfl, fun _ _ => rfl, ?_⟩
      intro w a hw
      have : w < addrs.length := (List.getElem?_eq_some_iff.1 hw).1
      have := List.getElem?_eq_none_iff.1 hc
      rw [if_pos (by omega)]
    | some a0 =>
      obtain ⟨l, hl, hb⟩ := hp current a0 hc
      refine ⟨dictSet prog a0 (cornerAll ts l), ?_, ?_, ?_, ?_⟩
      · simp only [groupLoop, flushRanges, hc, if_pos hts', bind, Except.bind,
          corruptAddress_ok hts hl (hb (Nat.le_refl _))]
        rfl
      · rw [keys_dictSet, if_pos ((dictGet_isSome prog a0).1 (by rw [hl]; rfl))]
      · intro a ha
        rw [dictGet_dictSet, if_neg (by rintro rfl; exact ha (List.mem_of_getElem? hc))]
      · intro w a hw
        rw [dictGet_dictSet]
        by_cases hwc : w = current
        · subst hwc
          rw [hc, Option.some.injEq] at hw
          subst hw
          rw [if_pos rfl, if_neg (by omega), if_pos rfl, hl]
          simp [wordRanges]
        · have : a0 ≠ a := by
            rintro rfl
            obtain ⟨h1, h2⟩ := List.getElem?_eq_some_iff.1 hw
            obtain ⟨h3, h4⟩ := List.getElem?_eq_some_iff.1 hc
            exact hwc ((List.Nodup.getElem_inj_iff hn).1 (h2.trans h4.symm))
          rw [if_neg this, if_neg hwc]
          simp [wordRanges]
  | cons e es ih =>
    intro current ts prog hs hge hts hne hp
    rw [List.pairwise_cons] at hs
    by_cases hce : current = e.1
    · obtain ⟨prog', h1, h2, h3, h4⟩ := ih current (ts ++ [errRange bpi e]) prog hs.2
        (fun x hx => hge x (by simp [hx])) (by simpa using hts) (by simp) hp
      refine ⟨prog', by rw [groupLoop, if_neg (by simpa using hce)]; exact h1, h2, h3, ?_⟩
      intro w a hw
      rw [h4 w a hw]
      have hwr : wordRanges bpi w (e :: es) =
          if e.1 = w then errRange bpi e :: wordRanges bpi w es else wordRanges bpi w es := by
        unfold wordRanges
        rw [List.filter_cons]
        by_cases h : e.1 = w <;> simp [h]
      rw [hwr]
      by_cases hwc : w = current
      · rw [if_pos (show e.1 = w by omega), if_pos hwc, if_pos hwc]
        simp
      · rw [if_neg (show ¬ e.1 = w by omega)]
        simp only [if_neg hwc]
    · have hlt : current < e.1 := by have := hge e (by simp); omega
      have hts' : ts ≠ [] := by
        rintro rfl
        obtain ⟨e', es', h, h'⟩ := hne rfl
        simp only [List.cons.injEq] at h
        exact hce (by rw [h.1, h'])
      have hval : ∀ t ∈ ts, t.1 ≤ t.2 ∧ t.2 ≤ 31 := fun t ht => hts t (by simp [ht])
      cases hc : addrs[current]? with
      | none =>
        have hlen := List.getElem?_eq_none_iff.1 hc
        refine ⟨prog, ?_, rfl, fun _ _ => rfl, ?_⟩
        · apply groupLoop_past _ _ _ _ _ _ hlen
          intro x hx
          have := hge x hx
          omega
        · intro w a hw
          have : w < addrs.length := (List.getElem?_eq_some_iff.1 hw).1
          rw [if_pos (by omega)]
      | some a0 =>
        obtain ⟨l, hl, hb⟩ := hp current a0 hc
        have hother : ∀ w a, addrs[w]? = some a → w ≠ current → a0 ≠ a := by
          rintro w a hw hwc rfl
          obtain ⟨h1, h2⟩ := List.getElem?_eq_some_iff.1 hw
          obtain ⟨h3, h4⟩ := List.getElem?_eq_some_iff.1 hc
          exact hwc ((List.Nodup.getElem_inj_iff hn).1 (h2.trans h4.symm))
        obtain ⟨prog', h1, h2, h3, h4⟩ := ih e.1 ([] ++ [errRange bpi e])
          (dictSet prog a0 (cornerAll ts l)) hs.2 hs.1
          (by
            intro t ht
            apply hts t
            simp only [List.nil_append, List.singleton_append, List.mem_cons] at ht
            simp only [List.map_cons, List.mem_append, List.mem_cons]
            exact Or.inr ht)
          (by simp)
          (by
            intro w a hw
            rw [dictGet_dictSet]
            by_cases hwc : w = current
            · subst hwc
              rw [hc, Option.some.injEq] at hw
              subst hw
              rw [if_pos rfl]
              exact ⟨_, rfl, fun h => by omega⟩
            · rw [if_neg (hother w a hw hwc)]
              obtain ⟨l', hl', hb'⟩ := hp w a hw
              exact ⟨l', hl', fun h => hb' (by omega)⟩)
        refine ⟨prog', ?_, ?_, ?_, ?_⟩
        · rw [groupLoop, if_pos hce]
          simp only [flushRanges, hc, if_pos hts', bind, Except.bind,
            corruptAddress_ok hval hl (hb (Nat.le_refl _))]
          exact h1
        · rw [h2, keys_dictSet, if_pos ((dictGet_isSome prog a0).1 (by rw [hl]; rfl))]
        · intro a ha
          rw [h3 a ha, dictGet_dictSet, if_neg (by rintro rfl; exact ha (List.mem_of_getElem? hc))]
        · intro w a hw
          rw [h4 w a hw, dictGet_dictSet]
          have hwr : wordRanges bpi w (e :: es) =
              if e.1 = w then errRange bpi e :: wordRanges bpi w es else wordRanges bpi w es := by
            unfold wordRanges
            rw [List.filter_cons]
            by_cases h : e.1 = w <;> simp [h]
          by_cases hwc : w = current
          · subst hwc
            rw [hc, Option.some.injEq] at hw
            subst hw
            rw [if_pos hlt, if_pos rfl, if_neg (by omega), if_pos rfl, hl]
            rw [wordRanges_nil_of_lt, List.append_nil]
            · rfl
            · intro x hx
              rcases List.mem_cons.1 hx with rfl | hx
              · exact hlt
              · have := hs.1 x hx; omega
          · rw [if_neg (hother w a hw hwc), if_neg hwc, hwr]
            by_cases hw1 : w < current
            · rw [if_pos hw1, if_pos (by omega)]
            · rw [if_neg hw1]
              by_cases hw2 : w < e.1
              · rw [if_neg (show ¬ e.1 = w by omega), if_pos hw2, if_pos]
                apply wordRanges_nil_of_lt
                intro x hx
                have := hs.1 x hx
                omega
              · rw [if_neg hw2]
                by_cases hw3 : w = e.1
                · rw [if_pos hw3, if_pos hw3.symm, if_neg (by simp)]
                  simp
                · rw [if_neg (show ¬ e.1 = w by omega), if_neg hw3]

theorem sortErrors_words {es : List ErrT} (h : ∀ e ∈ es, e.2.1 < 100) :
    (sortErrors es).Pairwise fun a b => a.1 ≤ b.1 := by
  unfold sortErrors
  cases hes : es with
  | nil => simp
  | cons e0 es0 =>
    rw [← hes]
    have hlen : 1 ≤ es.length := by rw [hes]; simp
    generalize hv : es.length * 100 = vv
    have hvv : 100 ≤ vv := by omega
    have hp : (es.insertionSort fun a b => errKey vv a ≤ errKey vv b).Pairwise
        (fun a b => errKey vv a ≤ errKey vv b) := by
      haveI : Std.Total (fun a b : ErrT => errKey vv a ≤ errKey vv b) := ⟨fun a b => Nat.le_total _ _⟩
      haveI : IsTrans ErrT (fun a b : ErrT => errKey vv a ≤ errKey vv b) :=
        ⟨fun a b c => Nat.le_trans⟩
      exact List.pairwise_insertionSort _ _
    apply List.Pairwise.imp_of_mem _ hp
    intro a b ha hb hab
    rw [List.mem_insertionSort] at ha hb
    have h1 := h a ha
    have h2 := h b hb
    unfold errKey at hab
    by_contra hc
    have : (b.1 + 1) * vv ≤ a.1 * vv := Nat.mul_le_mul_right _ (by omega)
    rw [Nat.add_mul] at this
    omega

theorem mem_sortErrors {es : List ErrT} {e : ErrT} : e ∈ sortErrors es ↔ e ∈ es :=
  List.mem_insertionSort _

/-- The errors predicted lie inside their word. -/
theorem errTuples_valid {bpi b : Nat} (h : bpi ≤ 31 ∨ (bpi = 32 ∧ 32 ∣ b)) :
    ∀ e ∈ errTuples bpi b, (errRange bpi e).1 ≤ (errRange bpi e).2 ∧ (errRange bpi e).2 ≤ 31 := by
  intro e he
  have h2 := Nat.mod_lt b (show 32 > 0 by omega)
  unfold errTuples at he
  dsimp only at he
  unfold errRange
  split at he
  · simp only [List.mem_cons, List.not_mem_nil, or_false] at he
    rcases he with rfl | rfl
    · simp only [Option.getD_some]; omega
    · simp only [Option.getD_some]
      rcases h with h | ⟨h, h'⟩
      · omega
      · have := Nat.mod_eq_zero_of_dvd h'; omega
  · rw [List.mem_singleton] at he
    subst he
    simp only [Option.getD_none]
    omega

theorem predict_valid {fuel count bpi size : Nat} {order lost : List Nat} {es : List ErrT}
    (hb : bpi ≤ 32) (h : predictCorruption fuel count bpi size order lost = some (.ok es)) :
    ∀ e ∈ es, (errRange bpi e).1 ≤ (errRange bpi e).2 ∧ (errRange bpi e).2 ≤ 31 := by
  unfold predictCorruption at h
  split at h
  · simp at h
  · simp at h
  · rename_i x b hsb
    have hdvd : ∀ y ∈ x :: b, bpi ∣ y := by
      have : ∀ (lost : List Nat) (l : List Nat), startBits bpi order lost = .ok l →
          ∀ y ∈ l, bpi ∣ y := by
        intro lost
        induction lost with
        | nil => intro l h; simp [startBits] at h; subst h; simp
        | cons p ps ih =>
          intro l h
          simp only [startBits, bind, Except.bind] at h
          split at h
          · simp at h
          · split at h
            · simp at h
            · rename_i rest hr
              simp only [pure, Except.pure, Except.ok.injEq] at h
              subst h
              intro y hy
              rcases List.mem_cons.1 hy with rfl | hy
              · exact Nat.dvd_mul_right _ _
              · exact ih _ hr y hy
      exact this lost _ hsb
    have key : ∀ (fuel : Nat) (s s' : PCState),
        whileLoop (firstBelow (size * 32))
          (fun s => .ok (predictTurn bpi (bpi * count) (size * 32) s)) fuel s = some (.ok s') →
        (∀ y ∈ s.b, bpi ∣ y) →
        (∀ e ∈ s.errors, (errRange bpi e).1 ≤ (errRange bpi e).2 ∧ (errRange bpi e).2 ≤ 31) →
        ∀ e ∈ s'.errors, (errRange bpi e).1 ≤ (errRange bpi e).2 ∧ (errRange bpi e).2 ≤ 31 := by
      intro fuel
      induction fuel with
      | zero => intro s s' h; simp [whileLoop] at h
      | succ fuel ih =>
        intro s s' h hb' he
        rw [whileLoop] at h
        split at h
        · refine ih _ _ h ?_ ?_
          · intro y hy
            simp only [predictTurn, List.mem_map] at hy
            obtain ⟨z, hz, rfl⟩ := hy
            exact Nat.dvd_add (hb' z hz) (Nat.dvd_mul_right _ _)
          · simp only [predictTurn]
            have add : ∀ (ts es : List ErrT),
                (∀ e ∈ es, (errRange bpi e).1 ≤ (errRange bpi e).2 ∧ (errRange bpi e).2 ≤ 31) →
                (∀ e ∈ ts, (errRange bpi e).1 ≤ (errRange bpi e).2 ∧ (errRange bpi e).2 ≤ 31) →
                ∀ e ∈ ts.foldl addErr es,
                  (errRange bpi e).1 ≤ (errRange bpi e).2 ∧ (errRange bpi e).2 ≤ 31 := by
              intro ts
              induction ts with
              | nil => intro es h _; exact h
              | cons t ts ih =>
                intro es h1 h2
                rw [List.foldl_cons]
                refine ih _ ?_ fun e he => h2 e (by simp [he])
                unfold addErr
                split
                · exact h1
                · intro e he
                  rcases List.mem_append.1 he with he | he
                  · exact h1 e he
                  · rw [List.mem_singleton] at he
                    subst he
                    exact h2 e (by simp)
            have : ∀ (bs : List Nat) (es : List ErrT), (∀ y ∈ bs, bpi ∣ y) →
                (∀ e ∈ es, (errRange bpi e).1 ≤ (errRange bpi e).2 ∧ (errRange bpi e).2 ≤ 31) →
                ∀ e ∈ bs.foldl (fun es x =>
                    if x < size * 32 then (errTuples bpi x).foldl addErr es else es) es,
                  (errRange bpi e).1 ≤ (errRange bpi e).2 ∧ (errRange bpi e).2 ≤ 31 := by
              intro bs
              induction bs with
              | nil => intro es _ h; exact h
              | cons y bs ih =>
                intro es h1 h2
                rw [List.foldl_cons]
                refine ih _ (fun z hz => h1 z (by simp [hz])) ?_
                split
                · refine add _ _ h2 (errTuples_valid ?_)
                  by_cases h31 : bpi ≤ 31
                  · exact Or.inl h31
                  · right
                    have : bpi = 32 := by omega
                    exact ⟨this, this ▸ h1 y (by simp)⟩
                · exact h2
            exact this _ _ hb' he
        · simp only [Option.some.injEq, Except.ok.injEq] at h
          subst h
          exact he
    cases hw : whileLoop (firstBelow (size * 32))
          (fun s => .ok (predictTurn bpi (bpi * count) (size * 32) s)) fuel ⟨x :: b, []⟩ with
    | none => rw [hw] at h; simp at h
    | some o =>
      rw [hw] at h
      cases o with
      | error e => simp [Except.map] at h
      | ok s =>
        simp only [Option.map_some, Except.map, Option.some.injEq, Except.ok.injEq] at h
        subst h
        exact key fuel _ s hw hdvd (by simp)

theorem sorted_sortInsts (l : List CInst) :
    (sortInsts l).Pairwise fun a b => a.encoding ≤ b.encoding := by
  haveI : Std.Total (fun a b : CInst => a.encoding ≤ b.encoding) := ⟨fun a b => Nat.le_total _ _⟩
  haveI : IsTrans CInst (fun a b : CInst => a.encoding ≤ b.encoding) := ⟨fun a b c => Nat.le_trans⟩
  exact List.pairwise_insertionSort _ _

theorem dictGet_mapValues {β γ : Type} (f : β → γ) (a : Nat) : ∀ p : List (Nat × β),
    dictGet (p.map fun q => (q.1, f q.2)) a = (dictGet p a).map f := by
  intro p
  induction p with
  | nil => rfl
  | cons q p ih =>
    rw [List.map_cons, dictGet_cons, dictGet_cons]
    split
    · rfl
    · exact ih

theorem mem_cornerAll (ts : List (Nat × Nat)) (l : List CInst) (c : CInst) :
    c ∈ cornerAll ts l ↔ c.address = (l.head?.map (·.address)).getD 0 ∧
      ∃ i ∈ l, agreeOutside (fun k => ∃ t ∈ ts, t.1 ≤ k ∧ k < t.2) i.encoding c.encoding := by
  unfold cornerAll cornered
  rw [List.mem_flatMap]
  constructor
  · rintro ⟨i, hi, hc⟩
    obtain ⟨w, hw, rfl⟩ := List.mem_map.1 hc
    rw [mem_combosFrom] at hw
    obtain ⟨v, hv, hag⟩ := hw
    rw [List.mem_singleton] at hv
    subst hv
    refine ⟨rfl, i, hi, fun k hk => hag k ?_⟩
    exact fun h => hk ((mem_tuplesBits ts k).1 h)
  · rintro ⟨ha, i, hi, hag⟩
    refine ⟨i, hi, List.mem_map.2 ⟨c.encoding, ?_, by rw [← ha]⟩⟩
    rw [mem_combosFrom]
    refine ⟨_, by simp, fun k hk => hag k ?_⟩
    exact fun h => hk ((mem_tuplesBits ts k).2 h)

end Verif
