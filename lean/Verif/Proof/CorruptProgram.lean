import Verif.Spec.Corruption
import Verif.Proof.Corruption

/-! Lemmas about whole-program corruption. -/

namespace Verif
open Spec

/-! ### Distribution -/

theorem sum_set (l : List Nat) : ∀ (k : Nat) (x : Nat) (h : k < l.length),
    (l.set k x).sum + l[k] = l.sum + x := by
  induction l with
  | nil => intro k x h; simp at h
  | cons a l ih =>
    intro k x h
    cases k with
    | zero => simp; omega
    | succ k =>
      simp only [List.length_cons] at h
      have := ih k x (by omega)
      simp only [List.set_cons_succ, List.sum_cons, List.getElem_cons_succ]
      omega

theorem spread_ok : ∀ (ks result : List Nat) (amount : Nat) (ds : Draws) (r : List Nat × Draws),
    spread ks result amount ds = some (.ok r) → ks.Nodup →
    (∀ k ∈ ks, result[k]? = some 0) →
    r.1.length = result.length ∧ r.1.sum ≤ result.sum + amount ∧ r.2.length ≤ ds.length := by
  intro ks
  induction ks with
  | nil =>
    intro result amount ds r h _ _
    rw [spread, rnd_pure_ok] at h
    subst h
    exact ⟨rfl, by dsimp only; omega, Nat.le_refl _⟩
  | cons k ks ih =>
    intro result amount ds r h hn hz
    rw [spread, rnd_bind_ok] at h
    obtain ⟨x, ds1, h1, h2⟩ := h
    rw [rnd_bind_ok] at h2
    obtain ⟨res, ds2, h2, h3⟩ := h2
    rw [rnd_lift_ok] at h2
    obtain ⟨res', h2, h4⟩ := h2
    simp only [Prod.mk.injEq] at h4
    obtain ⟨rfl, rfl⟩ := h4
    obtain ⟨_, hx, d, hd⟩ := randint_ok h1
    dsimp only at hx hd
    rw [List.nodup_cons] at hn
    have hk0 := hz k (by simp)
    obtain ⟨hk, hk0⟩ := List.getElem?_eq_some_iff.1 hk0
    rw [pySet_nat _ _ _ hk] at h2
    simp only [Except.ok.injEq] at h2
    subst h2
    have hs := sum_set result k x hk
    rw [hk0] at hs
    have hlen : ds2.length ≤ ds.length := by rw [hd]; simp
    split at h3
    · rw [rnd_pure_ok] at h3
      subst h3
      exact ⟨by simp, by dsimp only; omega, hlen⟩
    · obtain ⟨a, b, c⟩ := ih _ _ _ _ h3 hn.2 (by
        intro k' hk'
        rw [List.getElem?_set_ne]
        · exact hz k' (by simp [hk'])
        · rintro rfl; exact hn.1 hk')
      exact ⟨by rw [a]; simp, by omega, by omega⟩

theorem distribute_ok {amount bins : Nat} {ds : Draws} {r : List Nat × Draws}
    (h : distribute amount bins ds = some (.ok r)) :
    r.1.length = bins ∧ r.1.sum ≤ amount ∧ r.2.length ≤ ds.length := by
  unfold distribute at h
  split at h
  · rename_i hb
    rw [rnd_pure_ok] at h
    subst h
    exact ⟨by simp [hb], by simp, Nat.le_refl _⟩
  · rw [rnd_bind_ok] at h
    obtain ⟨index, ds1, h1, h2⟩ := h
    obtain ⟨a, b, c, d⟩ := pickBits_ok ds [] _ h1 (by simp) (by simp) (by simp)
    obtain ⟨e, f, g⟩ := spread_ok _ _ _ _ _ h2 a (by
      intro k hk
      have := c k hk
      have hb : 0 < bins := by
        dsimp only at b
        have := List.length_pos_of_mem hk
        omega
      rw [List.getElem?_replicate, if_pos (by omega)])
    refine ⟨by simpa using e, by simpa using f, ?_⟩
    dsimp only at d
    omega

/-! ### `corrupt_program` -/

theorem addNew_spec (address : Nat) : ∀ (rs : List Nat) (l : List CInst), rs.Nodup →
    (∀ r ∈ rs, ∀ c ∈ l, c.encoding ≠ r) →
    addNew address l rs = l ++ rs.map fun r => ⟨r, address⟩ := by
  intro rs
  induction rs with
  | nil => intro l _ _; simp [addNew]
  | cons r rs ih =>
    intro l hn h
    rw [List.nodup_cons] at hn
    have hno : (l.any fun c => c.encoding == r) = false := by
      rw [List.any_eq_false]
      intro c hc
      simpa using h r (by simp) c hc
    unfold addNew at *
    rw [List.foldl_cons, hno]
    simp only [Bool.false_eq_true, if_false]
    rw [ih _ hn.2]
    · simp
    · intro r' hr' c hc
      rcases List.mem_append.1 hc with hc | hc
      · exact h r' (by simp [hr']) c hc
      · rw [List.mem_singleton] at hc
        subst hc
        dsimp only
        rintro rfl
        exact hn.1 hr'

theorem addNew_original (c : CInst) (extra : List Nat) (hn : (c.encoding :: extra).Nodup) :
    addNew c.address [c] (c.encoding :: extra) = c :: extra.map fun r => ⟨r, c.address⟩ := by
  rw [List.nodup_cons] at hn
  have : addNew c.address [c] (c.encoding :: extra) = addNew c.address [c] extra := by
    unfold addNew
    rw [List.foldl_cons]
    simp
  rw [this, addNew_spec _ _ _ hn.2]
  · simp
  · intro r hr c' hc'
    rw [List.mem_singleton] at hc'
    subst hc'
    rintro rfl
    exact hn.1 hr

theorem corruptBits_length_two {hi lo amount inst : Nat} {ds : Draws} {r : List Nat × Draws}
    (h : corruptBits hi lo amount inst ds = some (.ok r)) (ha : 1 ≤ amount) :
    ∃ w ∈ r.1, w ≠ inst := by
  obtain ⟨bits, _, h2, h3, _, _, _, _, hw⟩ := corruptBits_spec h
  have h0 : 0 < bits.length := by omega
  refine ⟨flip bits[0] inst, (hw _).2 (Or.inr ⟨1, by omega, ?_, ?_⟩), ?_⟩
  · exact Nat.one_lt_two_pow (by omega)
  · intro x
    rw [show inst ^^^ flip bits[0] inst = 2 ^ bits[0] by
      unfold flip; rw [← Nat.xor_assoc, Nat.xor_self, Nat.zero_xor]]
    rw [Nat.testBit_two_pow, decide_eq_true_eq]
    constructor
    · rintro rfl
      exact ⟨0, by simp, by decide, by simp [h0]⟩
    · rintro ⟨e, h4, _, h6⟩
      have hl : Nat.log2 1 = 0 := by decide
      rw [hl] at h4
      have he : e = 0 := by
        by_contra hne
        have : 2 ^ 1 ≤ 2 ^ e := Nat.pow_le_pow_right (by omega) (by omega)
        omega
      subst he
      rw [List.getElem?_eq_getElem (by omega), Option.some.injEq] at h6
      exact h6
  · intro e
    have := congrArg (fun n => n.testBit bits[0]) e
    rw [testBit_flip, if_pos rfl] at this
    cases hh : inst.testBit bits[0] <;> simp [hh] at this

theorem corruptBits_agree {hi lo amount inst : Nat} {ds : Draws} {r : List Nat × Draws}
    (h : corruptBits hi lo amount inst ds = some (.ok r)) :
    ∀ w ∈ r.1, agreeOutside (fun i => lo ≤ i ∧ i ≤ hi) inst w := by
  obtain ⟨bits, _, h2, h3, h4, _, _, _, hw⟩ := corruptBits_spec h
  intro w hm i hi
  rcases (hw w).1 hm with rfl | ⟨j, _, _, hx⟩
  · rfl
  · have : ¬ (inst ^^^ w).testBit i = true := by
      rw [hx]
      rintro ⟨e, _, _, h6⟩
      exact hi (h4 i (List.mem_of_getElem? h6))
    rw [Nat.testBit_xor] at this
    revert this
    cases inst.testBit i <;> cases w.testBit i <;> simp

theorem countP_toggle {α : Type} [DecidableEq α] (P Q : α → Bool) (p : α) : ∀ l : List α, l.Nodup →
    p ∈ l → P p = false → Q p = true → (∀ a, a ≠ p → Q a = P a) → l.countP Q = l.countP P + 1 := by
  intro l
  induction l with
  | nil => intro _ h; simp at h
  | cons a l ih =>
    intro hn hp h1 h2 h3
    rw [List.nodup_cons] at hn
    by_cases hap : a = p
    · subst hap
      rw [List.countP_cons_of_pos h2, List.countP_cons_of_neg (by simp [h1])]
      congr 1
      apply List.countP_congr
      intro b hb
      rw [h3 b (by rintro rfl; exact hn.1 hb)]
    · have hp' : p ∈ l := by
        rcases List.mem_cons.1 hp with rfl | h
        · exact absurd rfl hap
        · exact h
      rw [List.countP_cons, List.countP_cons, ih hn.2 hp' h1 h2 h3, h3 a hap]
      omega

/-- The invariant between the initial and the current program. -/
structure CPInv (bound : Nat) (prog cur : Program) (done : Nat) : Prop where
  keys : cur.map (·.1) = prog.map (·.1)
  each : ∀ a cs, dictGet prog a = some cs → ∃ cs', dictGet cur a = some cs' ∧
    (cs' = cs ∨ corruptedFrom bound cs cs')
  count : (prog.map (·.1)).countP (fun a => decide (dictGet cur a ≠ dictGet prog a)) = done

theorem cpLoop_ok {maxA len mn : Nat} {prog : Program}
    (hk : (prog.map (·.1)).Nodup) : ∀ (fuel n : Nat) (cur : Program) (done : Nat) (ds : Draws)
    (r : Program × Draws), CPInv (2 ^ maxA) prog cur done →
    cpLoop maxA len mn fuel n cur ds = some (.ok r) → CPInv (2 ^ maxA) prog r.1 (done + n) := by
  intro fuel
  induction fuel with
  | zero =>
    intro n cur done ds r hI h
    cases n with
    | zero =>
      unfold cpLoop at h
      rw [rnd_pure_ok] at h
      subst h
      exact hI
    | succ n => unfold cpLoop at h; simp at h
  | succ fuel ih =>
    intro n cur done ds r hI h
    cases n with
    | zero =>
      unfold cpLoop at h
      rw [rnd_pure_ok] at h
      subst h
      exact hI
    | succ n =>
      unfold cpLoop at h
      rw [rnd_bind_ok] at h
      obtain ⟨x, ds1, _, h⟩ := h
      rcases hc : dictGet cur (x * 4 + mn) with _ | (_ | ⟨c, _ | ⟨_, _⟩⟩)
      · rw [hc] at h; exact ih (n + 1) cur done ds1 r hI h
      · rw [hc] at h; exact ih (n + 1) cur done ds1 r hI h
      · rw [hc] at h
        dsimp only at h
        rw [rnd_bind_ok] at h
        obtain ⟨a, ds2, ha, h⟩ := h
        rw [rnd_bind_ok] at h
        obtain ⟨rs, ds3, hrs, h⟩ := h
        obtain ⟨ha1, ha2, _⟩ := randint_ok ha
        dsimp only at ha1 ha2
        obtain ⟨bits, _, _, _, _, ⟨extra, hex, hle⟩, hnd, _, hw⟩ := corruptBits_spec hrs
        dsimp only at hex hnd hw
        subst hex
        rw [addNew_original c extra hnd] at h
        generalize x * 4 + mn = p at *
        -- p is untouched so far
        have hpk : p ∈ prog.map (·.1) := by
          rw [← hI.keys, ← dictGet_isSome, hc]; rfl
        obtain ⟨cs0, hcs0⟩ := Option.isSome_iff_exists.1 ((dictGet_isSome prog p).2 hpk)
        have hsame : cs0 = [c] := by
          obtain ⟨cs', h1, h2⟩ := hI.each p cs0 hcs0
          rw [hc, Option.some.injEq] at h1
          rcases h2 with h2 | ⟨c', l, _, h4, h5, _⟩
          · rw [← h2, ← h1]
          · exfalso
            rw [← h1] at h4
            simp only [List.cons.injEq] at h4
            exact h5 h4.2.symm
        subst hsame
        have hne : extra ≠ [] := by
          rintro rfl
          obtain ⟨w, h1, h2⟩ := corruptBits_length_two hrs ha1
          simp at h1
          exact h2 h1
        have hcf : corruptedFrom (2 ^ maxA) [c] (c :: extra.map fun r => ⟨r, c.address⟩) := by
          refine ⟨c, _, rfl, rfl, by simpa using hne, ?_, ?_, ?_⟩
          · have := Nat.two_pow_pos a
            have : 2 ^ a ≤ 2 ^ maxA := Nat.pow_le_pow_right (by omega) ha2
            simp only [List.length_cons, List.length_map]
            omega
          · have : (c :: extra.map fun r => (⟨r, c.address⟩ : CInst)).map (·.encoding) =
                c.encoding :: extra := by simp [Function.comp_def]
            rw [this]; exact hnd
          · intro d hd
            obtain ⟨e, he, rfl⟩ := List.mem_map.1 hd
            refine ⟨rfl, ?_⟩
            intro i hi
            exact corruptBits_agree hrs e (by simp [he]) i (by omega)
        have := ih n _ (done + 1) ds3 r ?_ h
        · rw [show done + (n + 1) = done + 1 + n by omega]; exact this
        · exact {
            keys := by
              rw [keys_dictSet, if_pos (by rw [hI.keys]; exact hpk), hI.keys]
            each := by
              intro a' cs hcs
              rw [dictGet_dictSet]
              by_cases hap : p = a'
              · subst hap
                rw [if_pos rfl]
                rw [hcs0, Option.some.injEq] at hcs
                subst hcs
                exact ⟨_, rfl, Or.inr hcf⟩
              · rw [if_neg hap]
                exact hI.each a' cs hcs
            count := by
              rw [← hI.count]
              refine countP_toggle _ _ p _ hk hpk ?_ ?_ ?_
              · simp only [decide_eq_false_iff_not, not_not]
                rw [hc, hcs0]
              · simp only [decide_eq_true_eq]
                rw [dictGet_dictSet, if_pos rfl, hcs0]
                intro e
                simp only [Option.some.injEq, List.cons.injEq, List.map_eq_nil_iff] at e
                exact hne e.2
              · intro b hb
                have : ¬ p = b := fun e => hb e.symm
                simp only [dictGet_dictSet, if_neg this] }
      · rw [hc] at h; exact ih (n + 1) cur done ds1 r hI h

/-- More fuel than draws changes nothing: the fuel of the model is not a limit
of its own. -/
theorem cpLoop_fuel {maxA len mn : Nat} : ∀ (fuel n : Nat) (cur : Program) (ds : Draws),
    ds.length ≤ fuel → cpLoop maxA len mn fuel n cur ds = cpLoop maxA len mn (fuel + 1) n cur ds := by
  intro fuel
  induction fuel with
  | zero =>
    intro n cur ds h
    cases n with
    | zero => simp [cpLoop]
    | succ n =>
      have : ds = [] := List.length_eq_zero_iff.1 (by omega)
      subst this
      simp [cpLoop, bind, Rnd.seq, randint]
  | succ fuel ih =>
    intro n cur ds h
    cases n with
    | zero => simp [cpLoop]
    | succ n =>
      conv_lhs => unfold cpLoop
      conv_rhs => unfold cpLoop
      simp only [bind, Rnd.seq]
      cases hr : randint 0 len ds with
      | none => rfl
      | some o =>
        cases o with
        | error e => rfl
        | ok p =>
          obtain ⟨x, ds1⟩ := p
          obtain ⟨_, _, d, hd⟩ := randint_ok hr
          have hl : ds1.length ≤ fuel := by rw [hd] at h; simp at h; omega
          dsimp only
          have key : ∀ c : CInst, ∀ (q : Nat),
              ((randint 1 maxA).seq fun a => (corruptBits 31 0 a c.encoding).seq fun rs =>
                cpLoop maxA len mn fuel n (dictSet cur q (addNew c.address [c] rs))) ds1 =
              ((randint 1 maxA).seq fun a => (corruptBits 31 0 a c.encoding).seq fun rs =>
                cpLoop maxA len mn (fuel + 1) n (dictSet cur q (addNew c.address [c] rs))) ds1 := by
            intro c q
            simp only [Rnd.seq]
            cases ha : randint 1 maxA ds1 with
            | none => rfl
            | some o =>
              cases o with
              | error e => rfl
              | ok q =>
                obtain ⟨a, ds2⟩ := q
                obtain ⟨_, _, d', hd'⟩ := randint_ok ha
                dsimp only at hd' ⊢
                cases hc : corruptBits 31 0 a c.encoding ds2 with
                | none => rfl
                | some o =>
                  cases o with
                  | error e => rfl
                  | ok q =>
                    obtain ⟨rs, ds3⟩ := q
                    obtain ⟨_, _, _, _, _, _, _, hl3, _⟩ := corruptBits_spec hc
                    dsimp only at hl3 ⊢
                    apply ih
                    rw [hd'] at hl
                    simp at hl
                    omega
          rcases dictGet cur (x * 4 + mn) with _ | (_ | ⟨c, _ | ⟨_, _⟩⟩)
          · exact ih _ _ _ hl
          · exact ih _ _ _ hl
          · exact key c _
          · exact ih _ _ _ hl

/-! ### `corrupt_instruction` -/

/-- A list of corrupted encodings of `inst`: itself first, no repetition, and
only the bits of `F` changed. -/
def goodList (F : Nat → Prop) (inst : Nat) (l : List Nat) : Prop :=
  l.head? = some inst ∧ l.Nodup ∧ ∀ w ∈ l, agreeOutside F inst w

theorem corruptBits_good {hi lo amount inst : Nat} {ds : Draws} {r : List Nat × Draws}
    (h : corruptBits hi lo amount inst ds = some (.ok r)) :
    goodList (fun i => lo ≤ i ∧ i ≤ hi) inst r.1 := by
  obtain ⟨bits, _, h2, h3, h4, ⟨extra, he, _⟩, hn, _, hw⟩ := corruptBits_spec h
  exact ⟨by rw [he]; rfl, hn, corruptBits_agree h⟩

theorem extendAll_ok {f : Nat → Rnd (List Nat)} {F : Nat → Prop}
    (hf : ∀ c ds r, f c ds = some (.ok r) → goodList F c r.1) :
    ∀ (cs r : List Nat) (ds : Draws) (o : List Nat × Draws),
      extendAll f cs r ds = some (.ok o) → r.Nodup →
      o.1.Nodup ∧ (∃ t, o.1 = r ++ t) ∧
      (∀ w ∈ o.1, w ∈ r ∨ ∃ c ∈ cs, agreeOutside F c w) ∧
      (r = [] → o.1.head? = cs.head?) := by
  intro cs
  induction cs with
  | nil =>
    intro r ds o h hn
    rw [extendAll, rnd_pure_ok] at h
    subst h
    exact ⟨hn, ⟨[], by simp⟩, fun w hw => Or.inl hw, fun e => by rw [e]⟩
  | cons c cs ih =>
    intro r ds o h hn
    rw [extendAll, rnd_bind_ok] at h
    obtain ⟨l, ds1, h1, h2⟩ := h
    obtain ⟨g1, g2, g3⟩ := hf c ds _ h1
    dsimp only at g1 g2 g3
    have hn' : (r ++ l.filter fun cc => decide (cc ∉ r)).Nodup := by
      rw [List.nodup_append]
      refine ⟨hn, g2.filter _, ?_⟩
      rintro a ha b hb rfl
      rw [List.mem_filter, decide_eq_true_eq] at hb
      exact hb.2 ha
    obtain ⟨a1, ⟨t, a2⟩, a3, _⟩ := ih _ _ _ h2 hn'
    refine ⟨a1, ⟨_, by rw [a2, List.append_assoc]⟩, ?_, ?_⟩
    · intro w hw
      rcases a3 w hw with hw | ⟨c', hc', hag⟩
      · rcases List.mem_append.1 hw with hw | hw
        · exact Or.inl hw
        · exact Or.inr ⟨c, by simp, g3 w (List.mem_filter.1 hw).1⟩
      · exact Or.inr ⟨c', by simp [hc'], hag⟩
    · rintro rfl
      rw [a2]
      have : (l.filter fun cc => decide (cc ∉ ([] : List Nat))) = l := by simp
      rw [this, List.nil_append, List.head?_append, g1]
      rfl

theorem extendAll_good {f : Nat → Rnd (List Nat)} {F G : Nat → Prop} {inst : Nat} {cs : List Nat}
    (hf : ∀ c ds r, f c ds = some (.ok r) → goodList F c r.1) (hg : goodList G inst cs)
    {ds : Draws} {o : List Nat × Draws} (h : extendAll f cs [] ds = some (.ok o)) :
    goodList (fun i => G i ∨ F i) inst o.1 := by
  obtain ⟨a1, _, a3, a4⟩ := extendAll_ok hf cs [] ds o h (by simp)
  refine ⟨by rw [a4 rfl]; exact hg.1, a1, ?_⟩
  intro w hw i hi
  rcases a3 w hw with h' | ⟨c, hc, hag⟩
  · simp at h'
  · rw [hg.2.2 c hc i fun x => hi (Or.inl x)]
    exact hag i fun x => hi (Or.inr x)

theorem goodList_mono {F G : Nat → Prop} {inst : Nat} {l : List Nat} (h : goodList F inst l)
    (hFG : ∀ i, F i → G i) : goodList G inst l :=
  ⟨h.1, h.2.1, fun w hw i hi => h.2.2 w hw i fun x => hi (hFG i x)⟩

theorem pickBits_range (bins : Nat) (rest : Draws) : ∀ (m j : Nat), j + m = bins →
    pickBits 0 (bins - 1) bins (List.range j) (List.range' j m ++ rest) = some (.ok (List.range bins, rest)) := by
  intro m
  induction m with
  | zero =>
    intro j hj
    obtain rfl : j = bins := by omega
    cases rest with
    | nil => simp [pickBits]
    | cons d ds => simp [pickBits]
  | succ m ih =>
    intro j hj
    rw [List.range'_succ, List.cons_append]
    unfold pickBits
    rw [if_pos (by simp; omega), if_neg (by omega)]
    have hx : 0 + j % (bins - 1 - 0 + 1) = j := by rw [Nat.mod_eq_of_lt (by omega)]; omega
    simp only [hx]
    rw [if_neg (by simp), ← List.range_succ]
    exact ih (j + 1) (by omega)

theorem spread_reaches (l : List Nat) : ∀ (m j amount : Nat), j + m = l.length → (l.drop j).sum ≤ amount →
    ∃ ds', spread (List.range' j m) (l.take j ++ List.replicate m 0) amount (l.drop j) = some (.ok (l, ds')) := by
  intro m
  induction m with
  | zero =>
    intro j amount hj _
    obtain rfl : j = l.length := by omega
    refine ⟨[], ?_⟩
    rw [List.range'_zero, spread, rnd_pure_ok]
    simp
  | succ m ih =>
    intro j amount hj hs
    have hlt : j < l.length := by omega
    rw [List.drop_eq_getElem_cons hlt] at hs ⊢
    rw [List.sum_cons] at hs
    rw [List.range'_succ]
    unfold spread
    have hr : randint 0 amount (l[j] :: l.drop (j + 1)) = some (.ok (l[j], l.drop (j + 1))) := by
      unfold randint
      rw [if_neg (by omega)]
      simp only
      rw [show 0 + l[j] % (amount - 0 + 1) = l[j] by rw [Nat.mod_eq_of_lt (by omega)]; omega]
    have hset : pySet (l.take j ++ List.replicate (m + 1) 0) j l[j] =
        .ok (l.take (j + 1) ++ List.replicate m 0) := by
      rw [pySet_nat _ _ _ (by simp; omega), List.replicate_succ, List.set_append_right _ _ (by simp),
        List.length_take, Nat.min_eq_left (by omega), Nat.sub_self, List.set_cons_zero]
      congr 1
      rw [← List.take_concat_get' l j hlt, List.append_assoc]
      rfl
    obtain ⟨ds', hd⟩ := ih (j + 1) (amount - l[j]) (by omega) (by omega)
    by_cases ha : amount - l[j] ≤ 0
    · refine ⟨l.drop (j + 1), ?_⟩
      have hz : l.drop (j + 1) = List.replicate m 0 := by
        rw [List.eq_replicate_iff]
        refine ⟨by simp; omega, fun x hx => ?_⟩
        obtain ⟨a, b, hab⟩ := List.append_of_mem hx
        have := congrArg List.sum hab
        rw [List.sum_append, List.sum_cons] at this
        omega
      rw [rnd_bind_ok]
      refine ⟨_, _, hr, rnd_bind_ok.2 ⟨_, _, rnd_lift_ok.2 ⟨_, hset, rfl⟩, ?_⟩⟩
      rw [if_pos ha, rnd_pure_ok, ← hz, List.take_append_drop]
    · refine ⟨ds', ?_⟩
      rw [rnd_bind_ok]
      refine ⟨_, _, hr, rnd_bind_ok.2 ⟨_, _, rnd_lift_ok.2 ⟨_, hset, rfl⟩, ?_⟩⟩
      rw [if_neg ha]
      exact hd

end Verif
