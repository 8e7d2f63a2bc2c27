import Verif.Spec.CorruptEnds
import Verif.Proof.CorruptProgram
import Verif.Props.Corruption

/-! # Lemmas on the end of random program corruption -/

namespace Verif
open Spec

/-- The addresses left to hit. -/
def leftToHit (len mn : Nat) (cur : Program) : Nat :=
  (List.range (len + 1)).countP fun k => isSingle (dictGet cur (k * 4 + mn))

theorem leftToHit_step {len mn x : Nat} {cur : Program} {c : CInst} {l : List CInst} (hx : x ≤ len)
    (hc : dictGet cur (x * 4 + mn) = some [c]) (hl : isSingle (some l) = false) :
    leftToHit len mn cur = leftToHit len mn (dictSet cur (x * 4 + mn) l) + 1 := by
  unfold leftToHit
  refine countP_toggle _ _ x _ List.nodup_range (List.mem_range.2 (by omega)) ?_ ?_ ?_
  · rw [dictGet_dictSet, if_pos rfl]; exact hl
  · rw [hc]; rfl
  · intro b hb
    rw [dictGet_dictSet, if_neg (by omega)]

/-- What a hit leaves is not a single instruction. -/
theorem hit_not_single {a : Nat} {c : CInst} {ds : Draws} {rs : List Nat} {ds' : Draws}
    (ha : 1 ≤ a) (h : corruptBits 31 0 a c.encoding ds = some (.ok (rs, ds'))) :
    isSingle (some (addNew c.address [c] rs)) = false := by
  obtain ⟨bits, _, _, _, _, ⟨extra, hex, _⟩, hnd, _, _⟩ := corruptBits_spec h
  dsimp only at hex hnd
  subst hex
  rw [addNew_original c extra hnd]
  cases extra with
  | nil =>
    obtain ⟨w, h1, h2⟩ := corruptBits_length_two h ha
    simp at h1
    exact absurd h1 h2
  | cons x t => rfl

/-- A run that returns had enough addresses. -/
theorem cpLoop_enough {maxA len mn : Nat} : ∀ (fuel n : Nat) (cur : Program) (ds : Draws) (r : Program × Draws),
    cpLoop maxA len mn fuel n cur ds = some (.ok r) → n ≤ leftToHit len mn cur := by
  intro fuel
  induction fuel with
  | zero =>
    intro n cur ds r h
    cases n with
    | zero => omega
    | succ n => unfold cpLoop at h; simp at h
  | succ fuel ih =>
    intro n cur ds r h
    cases n with
    | zero => omega
    | succ n =>
      unfold cpLoop at h
      rw [rnd_bind_ok] at h
      obtain ⟨x, ds1, hx, h⟩ := h
      rcases hc : dictGet cur (x * 4 + mn) with _ | (_ | ⟨c, _ | ⟨_, _⟩⟩)
      · rw [hc] at h; exact ih (n + 1) cur ds1 r h
      · rw [hc] at h; exact ih (n + 1) cur ds1 r h
      · rw [hc] at h
        dsimp only at h
        rw [rnd_bind_ok] at h
        obtain ⟨a, ds2, ha, h⟩ := h
        rw [rnd_bind_ok] at h
        obtain ⟨rs, ds3, hrs, h⟩ := h
        have := ih n _ ds3 r h
        have h2 := leftToHit_step (randint_ok hx).2.1 hc (hit_not_single (randint_ok ha).1 hrs)
        dsimp only at h2
        omega
      · rw [hc] at h; exact ih (n + 1) cur ds1 r h

/-- More draws do not change a result. -/
theorem pickBits_append {lo hi amount : Nat} (ext : Draws) : ∀ (ds : Draws) (bits : List Nat) (r : List Nat) (ds' : Draws),
    pickBits lo hi amount bits ds = some (.ok (r, ds')) →
    pickBits lo hi amount bits (ds ++ ext) = some (.ok (r, ds' ++ ext)) := by
  intro ds
  induction ds with
  | nil =>
    intro bits r ds' h
    unfold pickBits at h
    split at h
    · split at h <;> simp at h
    · rename_i hb
      simp only [Option.some.injEq, Except.ok.injEq, Prod.mk.injEq] at h
      obtain ⟨rfl, rfl⟩ := h
      cases ext <;> simp [pickBits, hb]
  | cons d ds ih =>
    intro bits r ds' h
    rw [List.cons_append]
    unfold pickBits at h ⊢
    split at h
    · rename_i hb
      rw [if_pos hb]
      split at h
      · simp at h
      · rename_i hl
        rw [if_neg hl]
        exact ih _ _ _ h
    · rename_i hb
      rw [if_neg hb]
      simp only [Option.some.injEq, Except.ok.injEq, Prod.mk.injEq] at h
      obtain ⟨rfl, rfl⟩ := h
      rfl

theorem corruptBits_append {hi lo amount inst : Nat} {ds : Draws} {r : List Nat} {ds' : Draws} (ext : Draws)
    (h : corruptBits hi lo amount inst ds = some (.ok (r, ds'))) :
    corruptBits hi lo amount inst (ds ++ ext) = some (.ok (r, ds' ++ ext)) := by
  unfold corruptBits at h ⊢
  rw [rnd_bind_ok] at h ⊢
  obtain ⟨bits, ds1, h1, h2⟩ := h
  rw [rnd_lift_ok] at h2
  obtain ⟨R, h2, h3⟩ := h2
  simp only [Prod.mk.injEq] at h3
  obtain ⟨rfl, rfl⟩ := h3
  exact ⟨bits, _, pickBits_append ext _ _ _ _ h1, rnd_lift_ok.2 ⟨_, h2, rfl⟩⟩

/-- The choice of positions can always be completed. -/
theorem pickBits_completes {lo hi amount : Nat} (ham : amount ≤ hi + 1 - lo) : ∀ (m : Nat) (bits : List Nat),
    amount - bits.length = m → bits.Nodup → (∀ x ∈ bits, lo ≤ x ∧ x ≤ hi) →
    ∃ ext r, pickBits lo hi amount bits ext = some (.ok (r, [])) := by
  intro m
  induction m with
  | zero =>
    intro bits hm _ _
    exact ⟨[], bits, by unfold pickBits; rw [if_neg (by omega)]⟩
  | succ m ih =>
    intro bits hm hn hb
    obtain ⟨x, hx1, hx2⟩ : ∃ x ∈ List.range' lo (hi + 1 - lo), x ∉ bits := by
      by_contra hc
      push Not at hc
      have := (List.subperm_of_subset (List.nodup_range' (s := lo) (n := hi + 1 - lo)) hc).length_le
      rw [List.length_range'] at this
      omega
    rw [List.mem_range'_1] at hx1
    obtain ⟨ext, r, h⟩ := ih (bits ++ [x]) (by simp; omega) (by
      rw [List.nodup_append]
      refine ⟨hn, by simp, ?_⟩
      rintro a ha b hb rfl
      rw [List.mem_singleton] at hb
      subst hb; exact hx2 ha) (by
      intro y hy
      rcases List.mem_append.1 hy with hy | hy
      · exact hb y hy
      · rw [List.mem_singleton] at hy; omega)
    refine ⟨(x - lo) :: ext, r, ?_⟩
    unfold pickBits
    rw [if_pos (by omega), if_neg (by omega)]
    have : lo + (x - lo) % (hi - lo + 1) = x := by
      rw [Nat.mod_eq_of_lt (by omega)]; omega
    dsimp only
    rw [this, if_neg hx2]
    exact h

theorem pickBits_extends {lo hi amount : Nat} (ham : amount ≤ hi + 1 - lo) : ∀ (ds : Draws) (bits : List Nat),
    bits.Nodup → (∀ x ∈ bits, lo ≤ x ∧ x ≤ hi) → pickBits lo hi amount bits ds = none →
    ∃ ext r, pickBits lo hi amount bits (ds ++ ext) = some (.ok (r, [])) := by
  intro ds
  induction ds with
  | nil =>
    intro bits hn hb _
    exact pickBits_completes ham _ bits rfl hn hb
  | cons d ds ih =>
    intro bits hn hb h
    unfold pickBits at h
    split at h
    · rename_i h1
      split at h
      · simp at h
      · rename_i h2
        dsimp only at h
        have hx := Nat.mod_lt d (show 0 < hi - lo + 1 by omega)
        obtain ⟨ext, r, h'⟩ := ih _ (by
          split
          · exact hn
          · rename_i hm
            rw [List.nodup_append]
            refine ⟨hn, by simp, ?_⟩
            rintro a ha b hb rfl
            rw [List.mem_singleton] at hb
            subst hb; exact hm ha) (by
          intro y hy
          split at hy
          · exact hb y hy
          · rcases List.mem_append.1 hy with hy | hy
            · exact hb y hy
            · rw [List.mem_singleton] at hy; omega) h
        refine ⟨ext, r, ?_⟩
        rw [List.cons_append]
        unfold pickBits
        rw [if_pos h1, if_neg h2]
        exact h'
    · simp at h

theorem corruptBits_of_pick {hi lo amount inst : Nat} {ds : Draws} {bits : List Nat} (hlo : lo ≤ hi)
    (h : pickBits lo hi amount [] ds = some (.ok (bits, []))) :
    ∃ r, corruptBits hi lo amount inst ds = some (.ok (r, [])) := by
  cases hc : corruptBits hi lo amount inst ds with
  | none =>
    exfalso
    simp only [corruptBits, bind, Rnd.seq, h, Rnd.lift] at hc
    simp at hc
  | some o =>
    cases o with
    | error e => exact absurd hc ((C19_no_error hi lo amount inst ds).1 hlo e)
    | ok p =>
      obtain ⟨bits', h1, _⟩ := corruptBits_spec hc
      rw [h] at h1
      simp only [Option.some.injEq, Except.ok.injEq, Prod.mk.injEq] at h1
      obtain ⟨r, ds'⟩ := p
      dsimp only at h1
      rw [← h1.2]
      exact ⟨r, rfl⟩

theorem corruptBits_extends {hi lo amount inst : Nat} {ds : Draws} (hlo : lo ≤ hi) (ham : amount ≤ hi + 1 - lo)
    (h : corruptBits hi lo amount inst ds = none) :
    ∃ ext r, corruptBits hi lo amount inst (ds ++ ext) = some (.ok (r, [])) := by
  have hp : pickBits lo hi amount [] ds = none := by
    cases hp : pickBits lo hi amount [] ds with
    | none => rfl
    | some o =>
      exfalso
      simp only [corruptBits, bind, Rnd.seq, hp, Rnd.lift] at h
      cases o <;> simp at h
  obtain ⟨ext, bits, h'⟩ := pickBits_extends ham ds [] (by simp) (by simp) hp
  obtain ⟨r, hr⟩ := corruptBits_of_pick (inst := inst) hlo h'
  exact ⟨ext, r, hr⟩

/-- From any state with enough addresses left there are draws that end. -/
theorem cpLoop_can_end {maxA len mn : Nat} (hm : 1 ≤ maxA) : ∀ (n : Nat) (cur : Program), n ≤ leftToHit len mn cur →
    ∃ ds, ∀ fuel, ds.length ≤ fuel → ∃ r, cpLoop maxA len mn fuel n cur ds = some (.ok (r, [])) := by
  intro n
  induction n with
  | zero => intro cur _; exact ⟨[], fun fuel _ => ⟨cur, by cases fuel <;> rfl⟩⟩
  | succ n ih =>
    intro cur hn
    have hpos : 0 < leftToHit len mn cur := by omega
    unfold leftToHit at hpos
    rw [List.countP_pos_iff] at hpos
    obtain ⟨x, hx, hs⟩ := hpos
    rw [List.mem_range] at hx
    obtain ⟨c, hc⟩ : ∃ c, dictGet cur (x * 4 + mn) = some [c] := by
      revert hs
      rcases dictGet cur (x * 4 + mn) with _ | (_ | ⟨c, _ | ⟨_, _⟩⟩) <;> simp [isSingle]
    obtain ⟨ext, bits, hp⟩ := pickBits_completes (lo := 0) (hi := 31) (amount := 1) (by omega) 1 [] rfl (by simp) (by simp)
    obtain ⟨rs, hrs⟩ := corruptBits_of_pick (inst := c.encoding) (by omega) hp
    have hle : n ≤ leftToHit len mn (dictSet cur (x * 4 + mn) (addNew c.address [c] rs)) := by
      have := leftToHit_step (len := len) (by omega) hc (hit_not_single (by omega) hrs)
      omega
    obtain ⟨ds, hds⟩ := ih _ hle
    refine ⟨x :: 0 :: (ext ++ ds), ?_⟩
    intro fuel hf
    obtain ⟨fuel, rfl⟩ : ∃ k, fuel = k + 1 := ⟨fuel - 1, by simp at hf; omega⟩
    obtain ⟨r, hr⟩ := hds fuel (by simp at hf; omega)
    refine ⟨r, ?_⟩
    unfold cpLoop
    rw [rnd_bind_ok]
    refine ⟨x, 0 :: (ext ++ ds), ?_, ?_⟩
    · simp only [randint]
      rw [if_neg (by omega), Nat.mod_eq_of_lt (by omega)]
      simp
    · rw [hc]
      dsimp only
      rw [rnd_bind_ok]
      refine ⟨1, ext ++ ds, ?_, ?_⟩
      · simp only [randint]
        rw [if_neg (by omega)]
        simp
      · rw [rnd_bind_ok]
        exact ⟨rs, ds, by simpa using corruptBits_append ds hrs, hr⟩

/-- A run that has not ended can still end. -/
theorem cpLoop_extends {maxA len mn : Nat} (hm : 1 ≤ maxA) (h32 : maxA ≤ 32) : ∀ (fuel n : Nat) (cur : Program) (ds : Draws),
    ds.length ≤ fuel → n ≤ leftToHit len mn cur → cpLoop maxA len mn fuel n cur ds = none →
    ∃ ext, ∀ fuel', (ds ++ ext).length ≤ fuel' → ∃ r, cpLoop maxA len mn fuel' n cur (ds ++ ext) = some (.ok (r, [])) := by
  intro fuel
  induction fuel with
  | zero =>
    intro n cur ds hf hn _
    have : ds = [] := List.length_eq_zero_iff.1 (by omega)
    subst this
    exact cpLoop_can_end hm n cur hn
  | succ fuel ih =>
    intro n cur ds hf hn h
    cases n with
    | zero => unfold cpLoop at h; simp [pure, Rnd.ret] at h
    | succ n =>
      cases ds with
      | nil => exact cpLoop_can_end hm (n + 1) cur hn
      | cons d ds =>
        have hr : ∀ tl : Draws, randint 0 len (d :: tl) = some (.ok (0 + d % (len - 0 + 1), tl)) := by
          intro tl
          simp only [randint]
          rw [if_neg (by omega)]
        have hx : 0 + d % (len - 0 + 1) ≤ len := (randint_ok (hr [])).2.1
        generalize 0 + d % (len - 0 + 1) = x at hr hx
        unfold cpLoop at h
        simp only [bind, Rnd.seq, hr] at h
        have hskip : (∀ c, dictGet cur (x * 4 + mn) ≠ some [c]) → cpLoop maxA len mn fuel (n + 1) cur ds = none →
            ∃ ext, ∀ fuel', (d :: ds ++ ext).length ≤ fuel' →
              ∃ r, cpLoop maxA len mn fuel' (n + 1) cur (d :: ds ++ ext) = some (.ok (r, [])) := by
          intro hc h
          obtain ⟨ext, he⟩ := ih (n + 1) cur ds (by simp at hf; omega) hn h
          refine ⟨ext, ?_⟩
          intro fuel' hf'
          obtain ⟨fuel', rfl⟩ : ∃ k, fuel' = k + 1 := ⟨fuel' - 1, by simp at hf'; omega⟩
          obtain ⟨r, hr'⟩ := he fuel' (by simp at hf' ⊢; omega)
          refine ⟨r, ?_⟩
          rw [List.cons_append]
          unfold cpLoop
          rw [rnd_bind_ok]
          refine ⟨x, ds ++ ext, hr _, ?_⟩
          rcases hc' : dictGet cur (x * 4 + mn) with _ | (_ | ⟨c, _ | ⟨c', l⟩⟩)
          · exact hr'
          · exact hr'
          · exact absurd hc' (hc c)
          · exact hr'
        rcases hc : dictGet cur (x * 4 + mn) with _ | (_ | ⟨c, _ | ⟨c', l⟩⟩)
        · rw [hc] at h; exact hskip (by simp [hc]) h
        · rw [hc] at h; exact hskip (by simp [hc]) h
        · rw [hc] at h
          dsimp only at h
          have hbuild : ∀ (a : Nat) (d2 : Nat) (ds2 ext rs : List Nat) (tl : Draws), ds ++ ext = d2 :: ds2 →
              (∀ tl : Draws, randint 1 maxA (d2 :: tl) = some (.ok (a, tl))) →
              corruptBits 31 0 a c.encoding ds2 = some (.ok (rs, tl)) →
              (∀ fuel', tl.length ≤ fuel' → ∃ r, cpLoop maxA len mn fuel' n
                (dictSet cur (x * 4 + mn) (addNew c.address [c] rs)) tl = some (.ok (r, []))) →
              ∀ fuel', (d :: ds ++ ext).length ≤ fuel' →
                ∃ r, cpLoop maxA len mn fuel' (n + 1) cur (d :: ds ++ ext) = some (.ok (r, [])) := by
            intro a d2 ds2 ext rs tl he ha hrs hr' fuel' hf'
            rw [List.cons_append, he] at hf' ⊢
            obtain ⟨fuel', rfl⟩ : ∃ k, fuel' = k + 1 := ⟨fuel' - 1, by simp at hf'; omega⟩
            obtain ⟨_, _, _, _, _, _, _, hlen, _⟩ := corruptBits_spec hrs
            obtain ⟨r, hr''⟩ := hr' fuel' (by simp at hf' hlen ⊢; omega)
            refine ⟨r, ?_⟩
            unfold cpLoop
            rw [rnd_bind_ok]
            refine ⟨x, d2 :: ds2, hr _, ?_⟩
            rw [hc]
            dsimp only
            rw [rnd_bind_ok]
            refine ⟨a, ds2, ha _, ?_⟩
            rw [rnd_bind_ok]
            exact ⟨rs, tl, hrs, hr''⟩
          cases ds with
          | nil =>
            -- the amount is to be drawn
            obtain ⟨ext, bits, hp⟩ := pickBits_completes (lo := 0) (hi := 31) (amount := 1) (by omega) 1 [] rfl (by simp) (by simp)
            obtain ⟨rs, hrs⟩ := corruptBits_of_pick (inst := c.encoding) (by omega) hp
            have hle : n ≤ leftToHit len mn (dictSet cur (x * 4 + mn) (addNew c.address [c] rs)) := by
              have := leftToHit_step hx hc (hit_not_single (by omega) hrs)
              omega
            obtain ⟨ds3, h3⟩ := cpLoop_can_end hm n _ hle
            refine ⟨0 :: (ext ++ ds3), hbuild 1 0 (ext ++ ds3) _ rs ds3 rfl ?_ (by simpa using corruptBits_append ds3 hrs) h3⟩
            intro tl
            simp only [randint]
            rw [if_neg (by omega)]
            simp
          | cons d2 ds =>
            have hra : ∀ tl : Draws, randint 1 maxA (d2 :: tl) = some (.ok (1 + d2 % (maxA - 1 + 1), tl)) := by
              intro tl
              simp only [randint]
              rw [if_neg (by omega)]
            have ha1 := (randint_ok (hra [])).1
            have ha2 := (randint_ok (hra [])).2.1
            dsimp only at ha1 ha2
            generalize 1 + d2 % (maxA - 1 + 1) = a at hra ha1 ha2
            simp only [Rnd.seq, hra] at h
            cases hb : corruptBits 31 0 a c.encoding ds with
            | none =>
              obtain ⟨ext, rs, hrs⟩ := corruptBits_extends (by omega) (by omega) hb
              have hle : n ≤ leftToHit len mn (dictSet cur (x * 4 + mn) (addNew c.address [c] rs)) := by
                have := leftToHit_step hx hc (hit_not_single ha1 hrs)
                omega
              obtain ⟨ds3, h3⟩ := cpLoop_can_end hm n _ hle
              refine ⟨ext ++ ds3, hbuild a d2 (ds ++ (ext ++ ds3)) _ rs ds3 rfl hra ?_ h3⟩
              have := corruptBits_append ds3 hrs
              rw [List.append_assoc] at this
              simpa using this
            | some o =>
              cases o with
              | error e => rw [hb] at h; simp at h
              | ok p =>
                obtain ⟨rs, ds3⟩ := p
                rw [hb] at h
                dsimp only at h
                have hle : n ≤ leftToHit len mn (dictSet cur (x * 4 + mn) (addNew c.address [c] rs)) := by
                  have := leftToHit_step hx hc (hit_not_single ha1 hb)
                  omega
                obtain ⟨_, _, _, _, _, _, _, hlen, _⟩ := corruptBits_spec hb
                obtain ⟨ext, he⟩ := ih n _ ds3 (by simp at hf hlen; omega) hle h
                exact ⟨ext, hbuild a d2 (ds ++ ext) _ rs (ds3 ++ ext) rfl hra (corruptBits_append ext hb) he⟩
        · rw [hc] at h; exact hskip (by simp [hc]) h

end Verif
