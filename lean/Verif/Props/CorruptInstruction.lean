import Verif.Props.Corruption

/-!
# C22, one instruction: how many bits change, and that nothing is raised
-/

namespace Verif
open Spec

namespace Spec

/-- The two words differ in at most `n` bits. -/
def WithinBits (n : Nat) (a b : Nat) : Prop := ∃ places : List Nat, places.length ≤ n ∧ agreeOutside (· ∈ places) a b

end Spec

theorem withinBits_refl (n a : Nat) : WithinBits n a a := ⟨[], by simp, fun _ _ => rfl⟩

theorem withinBits_trans {m n a b c : Nat} (h1 : WithinBits m a b) (h2 : WithinBits n b c) : WithinBits (m + n) a c := by
  obtain ⟨s, hs, ha⟩ := h1
  obtain ⟨t, ht, hb⟩ := h2
  refine ⟨s ++ t, by simp; omega, fun i hi => ?_⟩
  have hi : ¬ i ∈ s ++ t := hi
  rw [List.mem_append, not_or] at hi
  rw [ha i hi.1, hb i hi.2]

theorem withinBits_mono {m n a b : Nat} (h : WithinBits m a b) (hmn : m ≤ n) : WithinBits n a b := by
  obtain ⟨s, hs, ha⟩ := h
  exact ⟨s, by omega, ha⟩

theorem corruptBits_within {hi lo amount inst : Nat} {ds : Draws} {r : List Nat × Draws}
    (h : corruptBits hi lo amount inst ds = some (.ok r)) : ∀ w ∈ r.1, WithinBits amount inst w := by
  rcases Nat.eq_zero_or_pos amount with rfl | hp
  · obtain ⟨a, b, c, d⟩ := C19_random_bits hi lo 0 inst ds r.1 r.2 h
    intro w hw
    cases hr : r.1 with
    | nil => rw [hr] at hw; simp at hw
    | cons x t =>
      rw [hr] at hw a c
      simp only [List.length_cons, Nat.pow_zero] at c
      have : t = [] := List.length_eq_zero_iff.1 (by omega)
      subst this
      simp only [List.head?_cons, Option.some.injEq] at a
      rw [List.mem_singleton] at hw
      rw [hw, a]
      exact withinBits_refl 0 inst
  · obtain ⟨bits, used, hn, hl, _, hu, hun, hul, hw, _⟩ := C20_exact hi lo amount inst hp ds r.1 r.2 h
    intro w hwm
    refine ⟨used, ?_, (hw w).1 hwm⟩
    have hsub : used ⊆ bits := by
      intro x hx
      obtain ⟨e, he⟩ := (hu x).1 hx
      exact List.mem_of_getElem? he
    rw [← hl]
    exact (List.subperm_of_subset hun hsub).length_le

theorem extendAll_mem {f : Nat → Rnd (List Nat)} : ∀ (cs r : List Nat) (ds : Draws) (o : List Nat × Draws),
    extendAll f cs r ds = some (.ok o) →
    ∀ w ∈ o.1, w ∈ r ∨ ∃ c ∈ cs, ∃ ds1 l, f c ds1 = some (.ok l) ∧ w ∈ l.1 := by
  intro cs
  induction cs with
  | nil =>
    intro r ds o h w hw
    rw [extendAll, rnd_pure_ok] at h
    subst h
    exact .inl hw
  | cons c cs ih =>
    intro r ds o h w hw
    rw [extendAll, rnd_bind_ok] at h
    obtain ⟨l, ds1, h1, h2⟩ := h
    rcases ih _ _ _ h2 w hw with h | ⟨c', hc', ds2, l', h3, h4⟩
    · rcases List.mem_append.1 h with h | h
      · exact .inl h
      · exact .inr ⟨c, by simp, ds, (l, ds1), h1, (List.mem_filter.1 h).1⟩
    · exact .inr ⟨c', by simp [hc'], ds2, l', h3, h4⟩

theorem extendAll_no_error {f : Nat → Rnd (List Nat)} (hf : ∀ c ds e, f c ds ≠ some (.error e)) :
    ∀ (cs r : List Nat) (ds : Draws) (e : Err), extendAll f cs r ds ≠ some (.error e) := by
  intro cs
  induction cs with
  | nil =>
    intro r ds e h
    simp [extendAll, pure, Rnd.ret] at h
  | cons c cs ih =>
    intro r ds e h
    rw [extendAll] at h
    rcases rnd_bind_err h with h | ⟨l, ds1, _, h⟩
    · exact hf _ _ _ h
    · exact ih _ _ _ h

theorem spread_no_error : ∀ (ks result : List Nat) (amount : Nat) (ds : Draws) (e : Err),
    (∀ k ∈ ks, k < result.length) → spread ks result amount ds ≠ some (.error e) := by
  intro ks
  induction ks with
  | nil =>
    intro result amount ds e _ h
    simp [spread, pure, Rnd.ret] at h
  | cons k ks ih =>
    intro result amount ds e hk h
    rw [spread] at h
    rcases rnd_bind_err h with h | ⟨x, ds1, _, h⟩
    · simp only [randint] at h
      rw [if_neg (by omega)] at h
      cases ds <;> simp at h
    · rcases rnd_bind_err h with h | ⟨res, ds2, h2, h⟩
      · rw [pySet_nat _ _ _ (hk k (by simp))] at h
        simp [Rnd.lift, Except.map] at h
      · rw [pySet_nat _ _ _ (hk k (by simp)), rnd_lift_ok] at h2
        obtain ⟨y, h2, h3⟩ := h2
        simp only [Except.ok.injEq] at h2
        simp only [Prod.mk.injEq] at h3
        split at h
        · simp [pure, Rnd.ret] at h
        · refine ih _ _ _ _ ?_ h
          intro k' hk'
          have := hk k' (by simp [hk'])
          rw [h3.1, ← h2]
          simpa using this

theorem distribute_no_error (amount bins : Nat) (ds : Draws) (e : Err) : distribute amount bins ds ≠ some (.error e) := by
  intro h
  unfold distribute at h
  split at h
  · simp [pure, Rnd.ret] at h
  · rcases rnd_bind_err h with h | ⟨ix, ds1, h1, h⟩
    · have hp : ∀ (ds : Draws) (bits : List Nat) (e : Err), pickBits 0 (bins - 1) bins bits ds ≠ some (.error e) := by
        intro ds
        induction ds with
        | nil =>
          intro bits e
          unfold pickBits
          split
          · rw [if_neg (by omega)]; simp
          · simp
        | cons d ds ih =>
          intro bits e
          unfold pickBits
          split
          · rw [if_neg (by omega)]; exact ih _ _
          · simp
      exact hp _ _ _ h
    · obtain ⟨_, hl, hb, _⟩ := pickBits_ok ds [] _ h1 (by simp) (by simp) (by simp)
      refine spread_no_error _ _ _ _ _ ?_ h
      intro k hk
      rw [List.length_replicate]
      have h2 := hb k hk
      have h3 : 0 < ix.length := List.length_pos_of_mem hk
      simp only at hl
      omega

/-- What one of the three steps does to a list of words. -/
theorem corruptStep_within {flag : Bool} {am : List Nat} {k n : Nat} {hi lo : Nat} {f : Nat → List Nat → Rnd (List Nat)}
    {cs : List Nat} {ds : Draws} {o : List Nat × Draws} (hk : flag = true → am[k]? = some n)
    (hf : ∀ a ds o, f a cs ds = some (.ok o) →
      ∀ w ∈ o.1, ∃ c ∈ cs, ∃ ds1 l, corruptBits hi lo a c ds1 = some (.ok l) ∧ w ∈ l.1)
    (h : corruptStep flag am k f cs ds = some (.ok o)) :
    ∀ w ∈ o.1, ∃ c ∈ cs, WithinBits (if flag then n else 0) c w := by
  intro w hw
  cases flag with
  | false =>
    simp only [corruptStep, Bool.false_eq_true, if_false] at h ⊢
    rw [rnd_pure_ok] at h
    subst h
    exact ⟨w, hw, withinBits_refl _ _⟩
  | true =>
    simp only [corruptStep, if_true] at h ⊢
    rw [rnd_bind_ok] at h
    obtain ⟨a, ds1, h1, h⟩ := h
    rw [rnd_lift_ok] at h1
    obtain ⟨a', h1, h2⟩ := h1
    simp only [Prod.mk.injEq] at h2
    have hkn := hk rfl
    obtain ⟨hlt, hget⟩ := List.getElem?_eq_some_iff.1 hkn
    rw [pyGet_nat _ _ hlt] at h1
    simp only [Except.ok.injEq] at h1
    obtain ⟨c, hc, ds2, l, h3, h4⟩ := hf a ds1 o h w hw
    refine ⟨c, hc, ?_⟩
    rw [← hget, h1, ← h2.1]
    exact corruptBits_within h3 w h4

theorem corruptStep_no_error {flag : Bool} {am : List Nat} {k : Nat} {f : Nat → List Nat → Rnd (List Nat)}
    {cs : List Nat} {ds : Draws} {e : Err} (hk : flag = true → k < am.length)
    (hf : ∀ a ds e, f a cs ds ≠ some (.error e)) : corruptStep flag am k f cs ds ≠ some (.error e) := by
  intro h
  cases flag with
  | false => simp [corruptStep, pure, Rnd.ret] at h
  | true =>
    simp only [corruptStep, if_true] at h
    rcases rnd_bind_err h with h | ⟨a, ds1, _, h⟩
    · rw [pyGet_nat _ _ (hk rfl)] at h
      simp [Rnd.lift, Except.map] at h
    · exact hf _ _ _ h

theorem bin_indexes (conditional registers opcode : Bool) :
    ∃ k1 k2 k3 : Nat, 
      (if conditional then ((conditional.toNat + registers.toNat + opcode.toNat : Nat) : Int) - 1
        else ((conditional.toNat + registers.toNat + opcode.toNat : Nat) : Int)) = k1 ∧
      (if registers then (k1 : Int) - 1 else k1) = k2 ∧ (if opcode then (k2 : Int) - 1 else k2) = k3 ∧
      k3 = 0 ∧ k2 = opcode.toNat ∧ k1 = opcode.toNat + registers.toNat := by
  refine ⟨opcode.toNat + registers.toNat, opcode.toNat, 0, ?_, ?_, ?_, rfl, rfl, rfl⟩
  · cases conditional <;> cases registers <;> cases opcode <;> rfl
  · cases registers <;> cases opcode <;> rfl
  · cases opcode <;> rfl

/-- **C22, one instruction: nothing is raised.**  Whatever the fields, the amount and the
draws, corrupting an instruction raises no error. -/
theorem C22_instruction_no_error (ignore : Nat → Bool) (existing : List CInst) (orig : CInst)
    (conditional registers opcode : Bool) (amount : Nat) (ds : Draws) (e : Err) :
    corruptInstruction ignore existing orig conditional registers opcode amount ds ≠ some (.error e) := by
  intro h
  unfold corruptInstruction at h
  rcases rnd_bind_err h with h | ⟨am, ds1, ham, h⟩
  · exact distribute_no_error _ _ _ _ h
  obtain ⟨hl, _, _⟩ := distribute_ok ham
  dsimp only at h hl
  obtain ⟨k1, k2, k3, e1, e2, e3, rfl, rfl, rfl⟩ := bin_indexes conditional registers opcode
  simp only [e1, e2, e3] at h
  have hb : ∀ hi lo : Nat, lo ≤ hi → ∀ (a : Nat) (cs : List Nat) (ds : Draws) (e : Err),
      extendAll (corruptBits hi lo a) cs [] ds ≠ some (.error e) := fun hi lo hlo a cs ds e =>
    extendAll_no_error (fun c ds e => (C19_no_error hi lo a c ds).1 hlo e) _ _ _ _
  rcases rnd_bind_err h with h | ⟨l1, ds2, h1, h⟩
  · exact corruptStep_no_error (flag := conditional) (am := am) (k := opcode.toNat + registers.toNat) (by intro hc; rw [hc] at hl; rw [hl]; simp; omega)
      (fun a ds e => (C19_no_error 31 28 a orig.encoding ds).1 (by omega) e) h
  rcases rnd_bind_err h with h | ⟨l2, ds3, h2, h⟩
  · exact corruptStep_no_error (flag := registers) (am := am) (k := opcode.toNat) (cs := l1) (f := fun a cs => extendAll (corruptRegisters a) cs []) (by intro hc; rw [hc] at hl; rw [hl]; simp)
      (fun a ds e => hb 10 0 (by omega) a l1 ds e) h
  rcases rnd_bind_err h with h | ⟨l3, ds4, h3, h⟩
  · exact corruptStep_no_error (flag := opcode) (am := am) (k := 0) (cs := l2) (f := fun a cs => extendAll (corruptOpcode a) cs []) (by intro hc; rw [hc] at hl; rw [hl]; simp)
      (fun a ds e => hb 27 20 (by omega) a l2 ds e) h
  simp [pure, Rnd.ret] at h

/-- **C22, one instruction: the budget.**  Every word added differs from the original in
at most `amount` bits. -/
theorem C22_instruction_budget (ignore : Nat → Bool) (existing : List CInst) (orig : CInst)
    (conditional registers opcode : Bool) (amount : Nat) (ds : Draws) (r : List CInst) (ds' : Draws)
    (h : corruptInstruction ignore existing orig conditional registers opcode amount ds = some (.ok (r, ds'))) :
    ∃ new, r = existing ++ new ∧ ∀ c ∈ new, WithinBits amount orig.encoding c.encoding := by
  unfold corruptInstruction at h
  rw [rnd_bind_ok] at h
  obtain ⟨am, ds1, ham, h⟩ := h
  obtain ⟨hl, hs, _⟩ := distribute_ok ham
  dsimp only at h hl hs
  obtain ⟨k1, k2, k3, e1, e2, e3, rfl, rfl, rfl⟩ := bin_indexes conditional registers opcode
  simp only [e1, e2, e3] at h
  rw [rnd_bind_ok] at h
  obtain ⟨l1, ds2, h1, h⟩ := h
  rw [rnd_bind_ok] at h
  obtain ⟨l2, ds3, h2, h⟩ := h
  rw [rnd_bind_ok] at h
  obtain ⟨l3, ds4, h3, h⟩ := h
  rw [rnd_pure_ok] at h
  simp only [Prod.mk.injEq] at h
  obtain ⟨rfl, rfl⟩ := h
  have hex : ∀ (hi lo a : Nat) (cs : List Nat) (ds : Draws) (o : List Nat × Draws),
      extendAll (corruptBits hi lo a) cs [] ds = some (.ok o) →
      ∀ w ∈ o.1, ∃ c ∈ cs, ∃ ds1 l, corruptBits hi lo a c ds1 = some (.ok l) ∧ w ∈ l.1 := by
    intro hi lo a cs ds o h w hw
    rcases extendAll_mem _ _ _ _ h w hw with h | h
    · simp at h
    · exact h
  have g1 := corruptStep_within (hi := 31) (lo := 28) (n := am.getD (opcode.toNat + registers.toNat) 0)
    (by rintro rfl; rw [List.getD_eq_getElem?_getD, List.getElem?_eq_getElem (by rw [hl]; simp; omega)]; rfl)
    (fun a ds o h w hw => ⟨orig.encoding, by simp, ds, o, h, hw⟩) h1
  have g2 := corruptStep_within (flag := registers) (am := am) (cs := l1) (f := fun a cs => extendAll (corruptRegisters a) cs []) (k := opcode.toNat) (hi := 10) (lo := 0) (n := am.getD opcode.toNat 0)
    (by rintro rfl; rw [List.getD_eq_getElem?_getD, List.getElem?_eq_getElem (by rw [hl]; simp)]; rfl)
    (fun a ds o h w hw => hex 10 0 a l1 ds o h w hw) h2
  have g3 := corruptStep_within (flag := opcode) (am := am) (cs := l2) (f := fun a cs => extendAll (corruptOpcode a) cs []) (k := 0) (hi := 27) (lo := 20) (n := am.getD 0 0)
    (by rintro rfl; rw [List.getD_eq_getElem?_getD, List.getElem?_eq_getElem (by rw [hl]; simp)]; rfl)
    (fun a ds o h w hw => hex 27 20 a l2 ds o h w hw) h3
  refine ⟨_, rfl, ?_⟩
  intro c hc
  obtain ⟨w, hw, rfl⟩ := List.mem_map.1 hc
  have hw := List.mem_of_mem_tail (List.mem_filter.1 hw).1
  obtain ⟨x, hx, wx⟩ := g3 w hw
  obtain ⟨y, hy, wy⟩ := g2 x hx
  obtain ⟨z, hz, wz⟩ := g1 y hy
  rw [List.mem_singleton] at hz
  subst hz
  refine withinBits_mono (withinBits_trans (withinBits_trans wz wy) wx) (le_trans ?_ hs)
  clear h1 h2 h3 ham g1 g2 g3 wx wy wz
  rcases am with _ | ⟨a, _ | ⟨b, _ | ⟨d, _ | ⟨u, v⟩⟩⟩⟩ <;> revert hl <;>
    cases conditional <;> cases registers <;> cases opcode <;> simp <;> omega

/-- Two fields, three bits to flip, of which two go to the condition and one to the
registers. -/
example : (corruptInstruction (fun _ => false) [] ⟨0, 100⟩ true true false 3 [0, 1, 1, 2, 0, 1, 3, 3, 3, 3]).bind
    Except.toOption = some ([⟨8, 100⟩, ⟨2 ^ 28, 100⟩, ⟨2 ^ 28 + 8, 100⟩, ⟨2 ^ 29, 100⟩, ⟨2 ^ 29 + 8, 100⟩,
      ⟨2 ^ 28 + 2 ^ 29, 100⟩, ⟨2 ^ 28 + 2 ^ 29 + 8, 100⟩], []) := by decide +kernel

theorem minAddr_least (prog : Program) : ∀ (m b : Nat), (∀ p ∈ prog, b ≤ p.1) → b ≤ m → (b = m ∨ ∃ p ∈ prog, p.1 = b) →
    prog.foldl (fun m p => if m > p.1 then p.1 else m) m = b := by
  induction prog with
  | nil =>
    intro m b _ _ h
    rcases h with h | ⟨p, hp, _⟩
    · exact h.symm
    · simp at hp
  | cons q t ih =>
    intro m b h1 h2 h3
    rw [List.foldl_cons]
    have hq := h1 q (by simp)
    apply ih _ _ (fun p hp => h1 p (by simp [hp]))
    · split <;> omega
    · rcases h3 with h3 | ⟨p, hp, h3⟩
      · left; split <;> omega
      · rcases List.mem_cons.1 hp with rfl | hp
        · left; split <;> omega
        · exact .inr ⟨p, hp, h3⟩

/-- **C22: every address and every bit can be hit.**  In a program of consecutive
words, each address with one candidate can be the one that is corrupted, and in each of
its 32 bits. -/
theorem C22_reaches (prog : Program) (base i b : Nat) (c : CInst) (percent prod : Rat) (maxAmount : Int)
    (hmin : ∀ p ∈ prog, base ≤ p.1) (hbase : ∃ p ∈ prog, p.1 = base) (hb63 : base < 2 ^ 63)
    (hc : dictGet prog (i * 4 + base) = some [c]) (hi : i ≤ prog.length) (hprod : prod ≤ 1) (hb : b < 32) :
    ∃ ds, corruptProgram prog percent prod maxAmount ds =
      some (.ok (dictSet prog (i * 4 + base) [c, ⟨c.encoding ^^^ 2 ^ b, c.address⟩], [])) := by
  refine ⟨[i, 0, b], ?_⟩
  have hbad : badPercent percent = false := by
    unfold badPercent
    rw [Bool.and_eq_false_iff]
    by_cases h : 0 > percent
    · right
      rw [decide_eq_false_iff_not]
      intro h2
      have : (0 : Rat) > 100 := lt_trans h2 h
      revert this; decide
    · left; simpa using h
  have hm : minAddr prog = base := minAddr_least prog _ _ hmin (by omega) (.inr hbase)
  have ha : corruptedAmount prod = 1 := by
    unfold corruptedAmount
    rw [max_eq_left hprod]
    decide
  have hmx : 1 ≤ (max 1 maxAmount).toNat := by omega
  have hne : c.encoding ^^^ 2 ^ b ≠ c.encoding := by
    intro h
    have := congrArg (fun x => x.testBit b) h
    simp [Nat.testBit_two_pow_self] at this
  have hbits : corruptBits 31 0 1 c.encoding [b] = some (.ok ([c.encoding, c.encoding ^^^ 2 ^ b], [])) := by
    have h1 : pickBits 0 31 1 [] [b] = some (.ok ([b], [])) := by
      have : b % 32 = b := Nat.mod_eq_of_lt hb
      simp [pickBits, this]
    have h2 : noise 1 [b] = .ok (2 ^ b) := by
      unfold noise
      have hr : List.range ((Nat.log2 1 + 1).log2 + 1) = [0] := by decide +kernel
      rw [hr]
      simp [pyGet, bitsOn, bind, Except.bind, pure, Except.pure, Nat.shiftLeft_eq]
    refine rnd_bind_ok.2 ⟨_, _, h1, ?_⟩
    rw [rnd_lift_ok]
    refine ⟨_, ?_, rfl⟩
    show noiseAll c.encoding [b] [1] [c.encoding] = _
    unfold noiseAll
    rw [h2]
    show noiseAll c.encoding [b] [] _ = _
    rw [if_neg (by simpa using hne)]
    rfl
  unfold corruptProgram
  rw [hbad, if_neg (by simp), hm, ha]
  show cpLoop _ _ _ 3 1 prog [i, 0, b] = _
  unfold cpLoop
  refine rnd_bind_ok.2 ⟨i, [0, b], ?_, ?_⟩
  · simp [randint, Nat.mod_eq_of_lt (show i < prog.length + 1 by omega)]
  · simp only [hc]
    refine rnd_bind_ok.2 ⟨1, [b], ?_, ?_⟩
    · rw [randint, if_neg (by omega)]
      simp
    · refine rnd_bind_ok.2 ⟨_, _, hbits, ?_⟩
      unfold cpLoop
      rw [rnd_pure_ok]
      simp [addNew, hne, hne.symm]

example : ∃ ds, corruptProgram [(100, [⟨7, 100⟩]), (104, [⟨8, 104⟩])] 20 (2 / 5) 2 ds =
    some (.ok ([(100, [⟨7, 100⟩]), (104, [⟨8, 104⟩, ⟨2 ^ 31 + 8, 104⟩])], [])) :=
  C22_reaches [(100, [⟨7, 100⟩]), (104, [⟨8, 104⟩])] 100 1 31 ⟨8, 104⟩ 20 (2 / 5) 2 (by decide) (by decide)
    (by decide) (by decide) (by decide) (by decide +kernel) (by decide)

end Verif
