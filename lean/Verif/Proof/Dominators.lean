import Verif.Model.Dominators
import Verif.Proof.DfsTree

/-! # Building the dominator tree: the two passes -/

namespace Verif

open Spec (Path)

theorem run_bind_ok {α β : Type} {m : Run α} {a : α} (h : m = pure a) (f : α → Run β) : (m >>= f) = f a := by
  subst h
  rfl

theorem put_same {α : Type} (f : Nat → α) (k : Nat) (v : α) : put f k v k = v := by
  unfold put
  rw [if_pos rfl]

theorem put_ne {α : Type} (f : Nat → α) (k : Nat) (v : α) {x : Nat} (h : x ≠ k) : put f k v x = f x := by
  unfold put
  rw [if_neg h]

/-- Processed vertices. -/
def Linked (root : Nat) (V : Nat → Prop) (num : Nat → Nat) (i x : Nat) : Prop := V x ∧ x ≠ root ∧ i ≤ num x

/-- The ancestor links of the processed vertices. -/
structure AncOk (root : Nat) (V : Nat → Prop) (num : Nat → Nat) (par : Nat → Option Nat) (i : Nat) (s : DomSt) :
    Prop where
  yes : ∀ x, Linked root V num i x → s.anc x = par x
  no : ∀ x, ¬ Linked root V num i x → s.anc x = none

section
variable {succ : Nat → List Nat} {root : Nat} {V : Nat → Prop} {num : Nat → Nat} {par : Nat → Option Nat}
  {dep : Nat → Int} (T : DfsTree succ root V num par dep)
include T

theorem semiIdx_ok {s : DomSt} (hi : s.idx = dep) {v : Nat} (hv : V (s.semi v)) :
    semiIdx s v = pure (dep (s.semi v)) := by
  unfold semiIdx
  rw [hi, if_neg]
  have := T.dep_nonneg hv
  omega

theorem DfsTree.par_of_linked {i x : Nat} (h : Linked root V num i x) :
    ∃ p, par x = some p ∧ V p ∧ num p < num x ∧ Anc par p x := by
  obtain ⟨h1, h2, _⟩ := h
  obtain ⟨p, g1, g2, _, g4, _⟩ := T.par_spec x h1 h2
  exact ⟨p, g1, g2, g4, .step g1 (.refl _)⟩

/-- The loop of `dominator_eval` finds the ancestor with the highest
semidominator. -/
theorem evalLoop_ok {i : Nat} {s : DomSt} (hi : s.idx = dep) (ha : AncOk root V num par i s)
    (hsemi : ∀ x, Linked root V num i x → V (s.semi x)) {v : Nat} (hv : V v) :
    ∀ (fuel a v0 : Nat), num a < fuel → Anc par a v → Anc par v0 v → Linked root V num i v0 →
      (∀ x, Linked root V num i x → Anc par x v → Anc par a x → x ≠ a → dep (s.semi v0) ≤ dep (s.semi x)) →
      ∃ u, evalLoop s fuel v0 a = pure u ∧ Anc par u v ∧ Linked root V num i u ∧
        ∀ x, Linked root V num i x → Anc par x v → dep (s.semi u) ≤ dep (s.semi x) := by
  classical
  intro fuel
  induction fuel with
  | zero => intro a v0 h; omega
  | succ fuel ih =>
    intro a v0 hf hav h0v hl0 hmin
    by_cases hla : Linked root V num i a
    · obtain ⟨b, g1, g2, g3, g4⟩ := T.par_of_linked hla
      have e : evalLoop s (fuel + 1) v0 a
          = evalLoop s fuel (if dep (s.semi a) < dep (s.semi v0) then a else v0) b := by
        rw [evalLoop, ha.yes a hla, g1]
        simp only
        rw [run_bind_ok (semiIdx_ok T hi (hsemi v0 hl0)), run_bind_ok (semiIdx_ok T hi (hsemi a hla))]
      rw [e]
      apply ih
      · omega
      · exact g4.trans hav
      · split
        · exact hav
        · exact h0v
      · split
        · exact hla
        · exact hl0
      · intro x hx hxv hbx hne
        have hax : Anc par a x := by
          rcases Anc.line hxv hav with h | h
          · cases h with
            | refl => exact .refl _
            | step hp hd =>
              rw [g1] at hp
              cases hp
              exact absurd (T.anc_antisymm hd hbx g2) hne
          · exact h
        have hle : dep (s.semi (if dep (s.semi a) < dep (s.semi v0) then a else v0)) ≤ dep (s.semi a) ∧
            dep (s.semi (if dep (s.semi a) < dep (s.semi v0) then a else v0)) ≤ dep (s.semi v0) := by
          split <;> constructor <;> omega
        by_cases hxa : x = a
        · rw [hxa]; exact hle.1
        · have := hmin x hx hxv hax hxa
          omega
    · refine ⟨v0, ?_, h0v, hl0, ?_⟩
      · rw [evalLoop, ha.no a hla]
      · intro x hx hxv
        rcases Anc.line hxv hav with h | h
        · exfalso
          apply hla
          refine ⟨T.anc_mem hav hv, ?_, ?_⟩
          · rintro rfl
            exact hx.2.1 (T.anc_antisymm h (T.root_anc hx.1) T.root_mem)
          · rcases T.anc_num h (T.anc_mem hav hv) with h' | ⟨h', _⟩
            · rw [← h']; exact hx.2.2
            · have := hx.2.2
              omega
        · apply hmin x hx hxv h
          rintro rfl
          exact hla hx

/-- `dominator_eval` of a processed vertex. -/
theorem eval_linked {i : Nat} {s : DomSt} (hi : s.idx = dep) (ha : AncOk root V num par i s)
    (hsemi : ∀ x, Linked root V num i x → V (s.semi x)) {v fuel : Nat} (hv : Linked root V num i v)
    (hf : num v < fuel) :
    ∃ u, dominatorEval fuel s v = pure u ∧ Anc par u v ∧ Linked root V num i u ∧
      ∀ x, Linked root V num i x → Anc par x v → dep (s.semi u) ≤ dep (s.semi x) := by
  obtain ⟨p, g1, g2, g3, g4⟩ := T.par_of_linked hv
  unfold dominatorEval
  rw [ha.yes v hv, g1]
  apply evalLoop_ok T hi ha hsemi hv.1 fuel p v (by omega) g4 (.refl _) hv
  intro x _ hxv hpx hne
  cases hxv with
  | refl => exact Int.le_refl _
  | step hp hd =>
    rw [g1] at hp
    cases hp
    exact absurd (T.anc_antisymm hd hpx g2) hne

omit T in
/-- `dominator_eval` of another. -/
theorem eval_unlinked {i : Nat} {s : DomSt} (ha : AncOk root V num par i s) {v : Nat} (fuel : Nat)
    (hv : ¬ Linked root V num i v) : dominatorEval fuel s v = pure v := by
  unfold dominatorEval
  rw [ha.no v hv]

/-- The highest processed ancestor. -/
theorem DfsTree.top {i v : Nat} (hv : Linked root V num i v) :
    ∃ x q, Anc par x v ∧ Linked root V num i x ∧ par x = some q ∧ V q ∧ Anc par q v ∧ ¬ Linked root V num i q := by
  classical
  have : ∀ n v, num v = n → Linked root V num i v →
      ∃ x q, Anc par x v ∧ Linked root V num i x ∧ par x = some q ∧ V q ∧ Anc par q v ∧
        ¬ Linked root V num i q := by
    intro n
    induction n using Nat.strongRecOn with
    | _ n ih =>
      intro v hn hv
      obtain ⟨p, g1, g2, g3, g4⟩ := T.par_of_linked hv
      by_cases hp : Linked root V num i p
      · obtain ⟨x, q, h1, h2, h3, h4, h5, h6⟩ := ih (num p) (by omega) p rfl hp
        exact ⟨x, q, h1.trans g4, h2, h3, h4, h5.trans g4, h6⟩
      · exact ⟨v, p, .refl _, hv, g1, g2, g4, hp⟩
  exact this _ v rfl hv

/-- What the scan of some predecessors of `w` has found. -/
structure ScanOk (succ : Nat → List Nat) (root : Nat) (V : Nat → Prop) (num : Nat → Nat) (par : Nat → Option Nat)
    (dep : Nat → Int) (semi : Nat → Nat) (w c : Nat) (done : List Nat) : Prop where
  cand : c = w ∨ (SemiPath succ num c w ∧ Anc par c w ∧ c ≠ w)
  before : ∀ v ∈ done, num v < num w → dep c ≤ dep v
  after : ∀ v ∈ done, ∀ x, Linked root V num (num w + 1) x → Anc par x v → dep c ≤ dep (semi x)

/-- One predecessor. -/
theorem scanPred_ok {s : DomSt} (hi : s.idx = dep) {w : Nat} (hw : V w) (hr : w ≠ root)
    (ha : AncOk root V num par (num w + 1) s)
    (hun : ∀ x, ¬ Linked root V num (num w + 1) x → s.semi x = x)
    (hok : ∀ x, Linked root V num (num w + 1) x → SemiOk succ V num par dep s.semi x)
    {c : Nat} {done : List Nat} (hc : ScanOk succ root V num par dep s.semi w c done) {v fuel : Nat} (hv : V v)
    (hvw : w ∈ succ v) (hf : num v < fuel) :
    ∃ c', scanPred fuel w { s with semi := put s.semi w c } v = pure { s with semi := put s.semi w c' } ∧
      ScanOk succ root V num par dep s.semi w c' (done ++ [v]) := by
  classical
  have hwl : ¬ Linked root V num (num w + 1) w := fun h => by
    have := h.2.2
    omega
  have hVc : V c := by
    rcases hc.cand with rfl | ⟨_, h, _⟩
    · exact hw
    · exact T.anc_mem h hw
  have hcw : dep c ≤ dep w := by
    rcases hc.cand with rfl | ⟨_, h, _⟩
    · exact Int.le_refl _
    · rcases T.anc_num h hw with rfl | ⟨_, h⟩
      · exact Int.le_refl _
      · omega
  let t : DomSt := { s with semi := put s.semi w c }
  have hit : t.idx = dep := hi
  have hat : AncOk root V num par (num w + 1) t := ⟨ha.yes, ha.no⟩
  have hsl : ∀ x, Linked root V num (num w + 1) x → t.semi x = s.semi x := by
    intro x hx
    exact put_ne _ _ _ (fun e => hwl (e ▸ hx))
  have htl : ∀ x, Linked root V num (num w + 1) x → V (t.semi x) := by
    intro x hx
    rw [hsl x hx]
    exact T.anc_mem (hok x hx).anc hx.1
  have hw' : semiIdx t w = pure (dep c) := by
    have e : t.semi w = c := put_same _ _ _
    rw [semiIdx_ok T hit (by rw [e]; exact hVc), e]
  have hput : ∀ y, ({ t with semi := put t.semi w y } : DomSt) = { s with semi := put s.semi w y } := by
    intro y
    have : put t.semi w y = put s.semi w y := by
      funext x
      unfold put
      by_cases h : x = w
      · rw [if_pos h, if_pos h]
      · rw [if_neg h, if_neg h]
        exact put_ne _ _ _ h
    show DomSt.mk _ _ _ _ _ _ = DomSt.mk _ _ _ _ _ _
    rw [this]
  have run : ∀ u, dominatorEval fuel t v = pure u → V (t.semi u) →
      scanPred fuel w t v = pure (if dep (t.semi u) < dep c then { t with semi := put t.semi w (t.semi u) } else t) := by
    intro u hu hVu
    unfold scanPred
    rw [run_bind_ok hu, run_bind_ok (semiIdx_ok T hit hVu), run_bind_ok hw']
  by_cases hl : Linked root V num (num w + 1) v
  · obtain ⟨u, h1, h2, h3, h4⟩ := eval_linked T hit hat htl hl hf
    have hr' := run u h1 (htl u h3)
    rw [hsl u h3] at hr'
    have hsu := hok u h3
    have hmin : ∀ x, Linked root V num (num w + 1) x → Anc par x v → dep (s.semi u) ≤ dep (s.semi x) := by
      intro x hx hxv
      have := h4 x hx hxv
      rwa [hsl u h3, hsl x hx] at this
    have hnv : ∀ d, num v < num w → dep d ≤ dep v := fun d h => by
      have := hl.2.2
      omega
    by_cases hlt : dep (s.semi u) < dep c
    · refine ⟨s.semi u, ?_, ?_, ?_, ?_⟩
      · rw [if_pos hlt, hput] at hr'
        exact hr'
      · right
        have hanc : Anc par (s.semi u) w := by
          obtain ⟨x0, q, g1, g2, g3, g4, g5, g6⟩ := T.top hl
          have k1 : Anc par (s.semi x0) q := by
            have S := hok x0 g2
            have := S.anc
            have hne := S.ne
            revert this hne
            generalize s.semi x0 = y
            intro hy hne
            cases hy with
            | refl => exact absurd rfl hne
            | step hp hd =>
              rw [g3] at hp
              cases hp
              exact hd
          have k2 : dep (s.semi x0) ≤ dep q := by
            rcases T.anc_num k1 g4 with h | ⟨_, h⟩
            · rw [h]; exact Int.le_refl _
            · omega
          have k3 : Anc par (s.semi u) q :=
            T.anc_of_dep (hsu.anc.trans h2) g5 hv (by have := hmin x0 g2 g1; omega)
          have k4 : Anc par q w := by
            by_cases hq : q = root
            · rw [hq]; exact T.root_anc hw
            · have : num q ≤ num w := by
                by_contra h
                exact g6 ⟨g4, hq, by omega⟩
              exact T.interval q w v g4 hw hv this (by have := hl.2.2; omega) g5
          exact k3.trans k4
        refine ⟨?_, hanc, ?_⟩
        · obtain ⟨b, l, e1, e2, e3⟩ := hsu.path
          obtain ⟨l2, e4, e5⟩ := T.tree_path h2 hv
          obtain ⟨n1, e6, e7⟩ := Path.append e4 (.step hvw (.single w))
          obtain ⟨n2, e8, e9⟩ := Path.append e2 e6
          refine ⟨b, n2, e1, e8, ?_⟩
          have hu : num w + 1 ≤ num u := h3.2.2
          intro z hz
          rcases (e9 z).1 hz with hz | hz
          · have := e3 z hz
            omega
          · rcases (e7 z).1 hz with hz | hz
            · rcases T.anc_num (e5 z hz).1 (T.anc_mem (e5 z hz).2 hv) with h | ⟨h, _⟩
              · rw [← h]; omega
              · omega
            · rcases List.mem_cons.1 hz with rfl | hz
              · have := hl.2.2
                omega
              · rw [List.mem_singleton.1 hz]
                exact Nat.le_refl _
        · intro e
          rw [e] at hlt
          omega
      · intro x hx hxw
        rcases List.mem_append.1 hx with hx | hx
        · have := hc.before x hx hxw
          omega
        · rw [List.mem_singleton.1 hx] at hxw ⊢
          exact hnv _ hxw
      · intro x hx y hy hyx
        rcases List.mem_append.1 hx with hx | hx
        · have := hc.after x hx y hy hyx
          omega
        · rw [List.mem_singleton.1 hx] at hyx
          exact hmin y hy hyx
    · refine ⟨c, ?_, hc.cand, ?_, ?_⟩
      · rw [if_neg hlt] at hr'
        exact hr'
      · intro x hx hxw
        rcases List.mem_append.1 hx with hx | hx
        · exact hc.before x hx hxw
        · rw [List.mem_singleton.1 hx] at hxw ⊢
          exact hnv _ hxw
      · intro x hx y hy hyx
        rcases List.mem_append.1 hx with hx | hx
        · exact hc.after x hx y hy hyx
        · rw [List.mem_singleton.1 hx] at hyx
          have := hmin y hy hyx
          omega
  · have h1 := eval_unlinked hat fuel hl
    have hno : ∀ y, Linked root V num (num w + 1) y → ¬ Anc par y v := by
      intro y hy hyv
      apply hl
      refine ⟨hv, ?_, ?_⟩
      · rintro rfl
        exact hy.2.1 (T.anc_antisymm hyv (T.root_anc hy.1) T.root_mem)
      · rcases T.anc_num hyv hv with h | ⟨h, _⟩
        · rw [← h]; exact hy.2.2
        · have := hy.2.2
          omega
    by_cases hvw' : v = w
    · subst hvw'
      have e : t.semi v = c := put_same _ _ _
      have hr' := run v h1 (by rw [e]; exact hVc)
      rw [e, if_neg (by omega)] at hr'
      refine ⟨c, hr', hc.cand, ?_, ?_⟩
      · intro x hx hxw
        rcases List.mem_append.1 hx with hx | hx
        · exact hc.before x hx hxw
        · rw [List.mem_singleton.1 hx] at hxw
          omega
      · intro x hx y hy hyx
        rcases List.mem_append.1 hx with hx | hx
        · exact hc.after x hx y hy hyx
        · rw [List.mem_singleton.1 hx] at hyx
          exact absurd hyx (hno y hy)
    · have e : t.semi v = v := by
        show put s.semi w c v = v
        rw [put_ne _ _ _ hvw', hun v hl]
      have hr' := run v h1 (by rw [e]; exact hv)
      rw [e] at hr'
      have hvn : num v < num w := by
        by_cases hvr : v = root
        · subst hvr
          rcases T.anc_num (T.root_anc hw) hw with h | ⟨h, _⟩
          · exact absurd h hvw'
          · exact h
        · rcases Nat.lt_trichotomy (num v) (num w) with h | h | h
          · exact h
          · exact absurd (T.inj _ _ hv hw h) hvw'
          · exact absurd ⟨hv, hvr, h⟩ hl
      by_cases hlt : dep v < dep c
      · refine ⟨v, ?_, ?_, ?_, ?_⟩
        · rw [if_pos hlt, hput] at hr'
          exact hr'
        · right
          exact ⟨⟨w, [w], hvw, .single w, fun z hz => by rw [List.mem_singleton.1 hz]; exact Nat.le_refl _⟩,
            T.forward v w hv hvw hvn, hvw'⟩
        · intro x hx hxw
          rcases List.mem_append.1 hx with hx | hx
          · have := hc.before x hx hxw
            omega
          · rw [List.mem_singleton.1 hx]
            exact Int.le_refl _
        · intro x hx y hy hyx
          rcases List.mem_append.1 hx with hx | hx
          · have := hc.after x hx y hy hyx
            omega
          · rw [List.mem_singleton.1 hx] at hyx
            exact absurd hyx (hno y hy)
      · refine ⟨c, ?_, hc.cand, ?_, ?_⟩
        · rw [if_neg hlt] at hr'
          exact hr'
        · intro x hx hxw
          rcases List.mem_append.1 hx with hx | hx
          · exact hc.before x hx hxw
          · rw [List.mem_singleton.1 hx] at hxw ⊢
            omega
        · intro x hx y hy hyx
          rcases List.mem_append.1 hx with hx | hx
          · exact hc.after x hx y hy hyx
          · rw [List.mem_singleton.1 hx] at hyx
            exact absurd hyx (hno y hy)

/-- All predecessors. -/
theorem scan_ok {s : DomSt} (hi : s.idx = dep) {w : Nat} (hw : V w) (hr : w ≠ root)
    (ha : AncOk root V num par (num w + 1) s)
    (hun : ∀ x, ¬ Linked root V num (num w + 1) x → s.semi x = x)
    (hok : ∀ x, Linked root V num (num w + 1) x → SemiOk succ V num par dep s.semi x) (fuel : Nat)
    (vs : List Nat) : ∀ (done : List Nat) (c : Nat), ScanOk succ root V num par dep s.semi w c done →
      (∀ v ∈ vs, V v ∧ w ∈ succ v ∧ num v < fuel) →
      ∃ c', vs.foldlM (scanPred fuel w) { s with semi := put s.semi w c } = (pure { s with semi := put s.semi w c' } : Run DomSt) ∧
        ScanOk succ root V num par dep s.semi w c' (done ++ vs) := by
  induction vs with
  | nil =>
    intro done c hc _
    exact ⟨c, rfl, by rwa [List.append_nil]⟩
  | cons v vs ih =>
    intro done c hc hvs
    obtain ⟨h1, h2, h3⟩ := hvs v (by simp)
    obtain ⟨c1, g1, g2⟩ := scanPred_ok T hi hw hr ha hun hok hc h1 h2 h3
    obtain ⟨c2, g3, g4⟩ := ih (done ++ [v]) c1 g2 fun x hx => hvs x (List.mem_cons_of_mem _ hx)
    refine ⟨c2, ?_, ?_⟩
    · rw [List.foldlM_cons, run_bind_ok g1, g3]
    · rwa [List.append_assoc, List.singleton_append] at g4

/-- The scan finds the semidominator. -/
theorem scan_semi {semi : Nat → Nat} {w c : Nat} (hw : V w) (hr : w ≠ root)
    (hok : ∀ x, Linked root V num (num w + 1) x → SemiOk succ V num par dep semi x)
    {done : List Nat} (hall : ∀ v, V v → w ∈ succ v → v ∈ done)
    (hc : ScanOk succ root V num par dep semi w c done) : SemiOk succ V num par dep (put semi w c) w := by
  obtain ⟨p, g1, g2, g3, g4, g5⟩ := T.par_spec w hw hr
  have h1 := hc.before p (hall p g2 g3) g4
  have hne : c ≠ w := by
    rintro rfl
    omega
  rcases hc.cand with h | ⟨k1, k2, k3⟩
  · exact absurd h hne
  refine ⟨?_, ?_, ?_, ?_⟩
  · rw [put_same]; exact k1
  · rw [put_same]; exact k2
  · rw [put_same]; exact k3
  · rw [put_same]
    intro x hx hxw hsp
    obtain ⟨b, l, e1, e2, e3⟩ := hsp
    have hVb := T.closed _ _ hx e1
    rcases Path.first_edge e2 (fun z => z = w) rfl with h | ⟨v, y, m, p1, p2, p3, p4, p5⟩
    · subst h
      exact hc.before x (hall x hx e1) hxw
    · subst p3
      have hVm := T.path_mem p1 hVb
      have hgt : ∀ z ∈ m, num y < num z := by
        intro z hz
        rcases Nat.lt_or_ge (num y) (num z) with h | h
        · exact h
        · have := e3 z (p5 z hz)
          exact absurd (T.inj _ _ (hVm z hz) hw (by omega)) (p4 z hz)
      have hv := hVm v (Path.mem_end p1)
      obtain ⟨u, m', q1, q2, q3, q4⟩ := Path.first p1 (fun z => Anc par z v) (.refl v)
      have hVu := T.anc_mem q2 hv
      have hu : num y < num u := hgt u (q4 u (Path.mem_end q1))
      have hsp : SemiPath succ num x u := by
        refine ⟨b, m', e1, q1, ?_⟩
        intro z hz
        by_contra hlt
        obtain ⟨m2, pz, hz2⟩ := Path.suffix q1 hz
        have hVz := T.path_mem q1 hVb z hz
        obtain ⟨d, hd1, hd2, hd3⟩ := T.common pz hVz (by omega)
        have hdu : d ≠ u := by
          rintro rfl
          rcases T.anc_num hd2 hVz with h3 | ⟨h3, _⟩
          · rw [h3] at hlt; omega
          · omega
        exact q3 d (hz2 d hd1) hdu (hd3.trans q2)
      have hlu : Linked root V num (num y + 1) u := by
        refine ⟨hVu, ?_, hu⟩
        rintro rfl
        rcases T.anc_num (T.root_anc hw) hw with h | ⟨h, _⟩
        · exact hr h.symm
        · omega
      have h2 := (hok u hlu).least x hx (by omega) hsp
      have h3 := hc.after v (hall v hv p2) u hlu q2
      omega

/-! ### The buckets -/

/-- What the first pass leaves in `idom`: the semidominator, if no vertex in
between has a higher one, and otherwise the vertex in between with the highest
one. -/
def KOk (root : Nat) (V : Nat → Prop) (num : Nat → Nat) (par : Nat → Option Nat) (dep : Nat → Int) (i : Nat)
    (semi : Nat → Nat) (idom : Option Nat) (x : Nat) : Prop :=
  ∃ k, idom = some k ∧ (∀ u, Anc par (semi x) u → u ≠ semi x → Anc par u x → Linked root V num i u) ∧
    ((k = semi x ∧ ∀ u, Anc par (semi x) u → u ≠ semi x → Anc par u x → dep (semi x) ≤ dep (semi u)) ∨
     (Anc par (semi x) k ∧ k ≠ semi x ∧ Anc par k x ∧ dep (semi k) < dep (semi x) ∧
      ∀ u, Anc par (semi x) u → u ≠ semi x → Anc par u x → dep (semi k) ≤ dep (semi u)))

/-- One block of the bucket. -/
theorem popOne_ok {i p w : Nat} {s : DomSt} (hi : s.idx = dep) (ha : AncOk root V num par i s)
    (hok : ∀ x, Linked root V num i x → SemiOk succ V num par dep s.semi x)
    (hpw : par w = some p) (hwi : num w = i) {v fuel : Nat} (hv : Linked root V num i v) (hsv : s.semi v = p)
    (hwv : Anc par w v) (hf : num v < fuel) :
    ∃ k, popOne fuel p s v = pure { s with idom := put s.idom v (some k) } ∧
      KOk root V num par dep i s.semi (some k) v := by
  have hVw := T.anc_mem hwv hv.1
  have hwr : w ≠ root := by
    rintro rfl
    rw [T.root_par] at hpw
    cases hpw
  obtain ⟨p', g1, g2, _, g4, _⟩ := T.par_spec w hVw hwr
  rw [hpw] at g1
  cases g1
  have hsemi : ∀ x, Linked root V num i x → V (s.semi x) := fun x hx => T.anc_mem (hok x hx).anc hx.1
  obtain ⟨u, h1, h2, h3, h4⟩ := eval_linked T hi ha hsemi hv hf
  have hlink : ∀ x, Anc par p x → x ≠ p → Anc par x v → Linked root V num i x := by
    intro x k1 k2 k3
    have hwx : Anc par w x := by
      rcases Anc.line k3 hwv with h | h
      · cases h with
        | refl => exact .refl _
        | step hp hd =>
          rw [hpw] at hp
          cases hp
          exact absurd (T.anc_antisymm hd k1 g2) k2
      · exact h
    have hVx := T.anc_mem k3 hv.1
    refine ⟨hVx, ?_, ?_⟩
    · rintro rfl
      exact k2 (T.anc_antisymm (T.root_anc g2) k1 g2)
    · rcases T.anc_num hwx hVx with h | ⟨h, _⟩
      · rw [← h]; omega
      · omega
  have hpv : Anc par p v := (Anc.step hpw (.refl p)).trans hwv
  have hpu : Anc par p u ∧ u ≠ p := by
    have hn : num p < num u := by
      have := h3.2.2
      omega
    refine ⟨T.anc_of_num hpv h2 hv.1 (by omega), ?_⟩
    rintro rfl
    omega
  refine ⟨if dep (s.semi u) < dep (s.semi v) then u else p, ?_, ?_⟩
  · unfold popOne
    rw [run_bind_ok h1, run_bind_ok (semiIdx_ok T hi (hsemi u h3)), run_bind_ok (semiIdx_ok T hi (hsemi v hv))]
  · refine ⟨_, rfl, ?_, ?_⟩
    · rw [hsv]
      exact hlink
    · rw [hsv]
      by_cases hlt : dep (s.semi u) < dep p
      · rw [if_pos hlt]
        right
        exact ⟨hpu.1, hpu.2, h2, hlt, fun x k1 k2 k3 => h4 x (hlink x k1 k2 k3) k3⟩
      · rw [if_neg hlt]
        left
        refine ⟨rfl, ?_⟩
        intro x k1 k2 k3
        have := h4 x (hlink x k1 k2 k3) k3
        omega

/-- The whole bucket. -/
theorem pops_ok {i p w : Nat} {s : DomSt} (hi : s.idx = dep) (ha : AncOk root V num par i s)
    (hok : ∀ x, Linked root V num i x → SemiOk succ V num par dep s.semi x)
    (hpw : par w = some p) (hwi : num w = i) {fuel : Nat} (vs : List Nat) :
    ∀ (f : Nat → Option Nat), (∀ v ∈ vs, Linked root V num i v ∧ s.semi v = p ∧ Anc par w v ∧ num v < fuel) →
      ∃ f', vs.foldlM (popOne fuel p) { s with idom := f } = (pure { s with idom := f' } : Run DomSt) ∧
        (∀ v ∈ vs, KOk root V num par dep i s.semi (f' v) v) ∧ ∀ v, v ∉ vs → f' v = f v := by
  classical
  induction vs with
  | nil => intro f _; exact ⟨f, rfl, fun v hv => (by cases hv), fun v _ => rfl⟩
  | cons v vs ih =>
    intro f hvs
    obtain ⟨h1, h2, h3, h4⟩ := hvs v (by simp)
    obtain ⟨k, g1, g2⟩ := popOne_ok (s := { s with idom := f }) T hi ⟨ha.yes, ha.no⟩ hok hpw hwi h1 h2 h3 h4
    obtain ⟨f', g3, g4, g5⟩ := ih (put f v (some k)) fun x hx => hvs x (List.mem_cons_of_mem _ hx)
    refine ⟨f', ?_, ?_, ?_⟩
    · rw [List.foldlM_cons, run_bind_ok g1]
      exact g3
    · intro x hx
      by_cases hxs : x ∈ vs
      · exact g4 x hxs
      · rcases List.mem_cons.1 hx with rfl | hx
        · rw [g5 x hxs, put_same]
          exact g2
        · exact absurd hx hxs
    · intro x hx
      simp only [List.mem_cons, not_or] at hx
      rw [g5 x hx.2, put_ne _ _ _ hx.1]

/-- The state when the vertices numbered `i` or more have been processed. -/
structure Inv (succ : Nat → List Nat) (root : Nat) (V : Nat → Prop) (num : Nat → Nat) (par : Nat → Option Nat)
    (dep : Nat → Int) (i : Nat) (s : DomSt) : Prop where
  idx : s.idx = dep
  parent : s.parent = par
  anc : AncOk root V num par i s
  unl : ∀ x, ¬ Linked root V num i x → s.semi x = x
  ok : ∀ x, Linked root V num i x → SemiOk succ V num par dep s.semi x
  done : ∀ x, Linked root V num i x → x ∈ s.bucket (s.semi x) ∨ KOk root V num par dep i s.semi (s.idom x) x
  bucket : ∀ p v, v ∈ s.bucket p → Linked root V num i v ∧ s.semi v = p ∧
    ∀ c, par c = some p → Anc par c v → num c < i
  fresh : ∀ x, ¬ Linked root V num i x → s.idom x = none

/-- The scan, from the state before. -/
theorem Inv.scan {s : DomSt} {w : Nat} (hw : V w) (hr : w ≠ root)
    (I : Inv succ root V num par dep (num w + 1) s) (fuel : Nat) (vs : List Nat)
    (hvs : ∀ v ∈ vs, V v ∧ w ∈ succ v ∧ num v < fuel) :
    ∃ c, vs.foldlM (scanPred fuel w) s = (pure { s with semi := put s.semi w c } : Run DomSt) ∧
      ScanOk succ root V num par dep s.semi w c vs := by
  have hwl : ¬ Linked root V num (num w + 1) w := fun h => by
    have := h.2.2
    omega
  have e : ({ s with semi := put s.semi w w } : DomSt) = s := by
    have : put s.semi w w = s.semi := by
      funext x
      unfold put
      by_cases h : x = w
      · rw [if_pos h, h, I.unl w hwl]
      · rw [if_neg h]
    rw [this]
  obtain ⟨c, h1, h2⟩ := scan_ok T I.idx hw hr I.anc I.unl I.ok fuel vs [] w
    ⟨Or.inl rfl, fun v hv => (by cases hv), fun v hv => (by cases hv)⟩ hvs
  rw [e] at h1
  exact ⟨c, h1, by simpa using h2⟩

/-- One vertex of the first pass. -/
theorem Inv.step {g : FlowGraph} {s : DomSt} {w : Nat} (hw : V w) (hr : w ≠ root)
    (I : Inv succ root V num par dep (num w + 1) s) (fuel : Nat) (hfuel : ∀ v, V v → num v < fuel)
    (hg : ∀ v, v ∈ g.pred w ↔ w ∈ succ v) (hV : ∀ v ∈ g.pred w, V v) :
    ∃ s', domStep g fuel s w = pure s' ∧ Inv succ root V num par dep (num w) s' := by
  classical
  obtain ⟨c, h1, h2⟩ := I.scan T hw hr fuel (g.pred w)
    fun v hv => ⟨hV v hv, (hg v).1 hv, hfuel v (hV v hv)⟩
  have hS := scan_semi T hw hr I.ok (fun v _ hv => (hg v).2 hv) h2
  obtain ⟨p, g1, g2, g3, g4, g5⟩ := T.par_spec w hw hr
  have hwl : ¬ Linked root V num (num w + 1) w := fun h => by
    have := h.2.2
    omega
  have hlw : Linked root V num (num w) w := ⟨hw, hr, Nat.le_refl _⟩
  have hsplit : ∀ x, Linked root V num (num w) x ↔ x = w ∨ Linked root V num (num w + 1) x := by
    intro x
    constructor
    · rintro ⟨a, b, c⟩
      by_cases h : x = w
      · exact Or.inl h
      · right
        refine ⟨a, b, ?_⟩
        rcases Nat.lt_or_ge (num w) (num x) with h' | h'
        · exact h'
        · exact absurd (T.inj _ _ a hw (by omega)) h
    · rintro (rfl | ⟨a, b, c⟩)
      · exact hlw
      · exact ⟨a, b, by omega⟩
  -- the state before the bucket is emptied
  let semi := put s.semi w c
  have esw : semi w = c := put_same _ _ _
  have esl : ∀ x, Linked root V num (num w + 1) x → semi x = s.semi x :=
    fun x hx => put_ne _ _ _ (fun e => hwl (e ▸ hx))
  let bk := put s.bucket c (s.bucket c ++ [w])
  let s1 : DomSt := { s with semi := semi, bucket := put bk p [], anc := put s.anc w (some p) }
  have hanc1 : AncOk root V num par (num w) s1 := by
    constructor
    · intro x hx
      show put s.anc w (some p) x = par x
      rcases (hsplit x).1 hx with rfl | hx'
      · rw [put_same, g1]
      · have hxw : x ≠ w := fun e => hwl (e ▸ hx')
        rw [put_ne _ _ _ hxw, I.anc.yes x hx']
    · intro x hx
      show put s.anc w (some p) x = none
      have : x ≠ w := by
        rintro rfl
        exact hx hlw
      rw [put_ne _ _ _ this, I.anc.no x fun h => hx ((hsplit x).2 (Or.inr h))]
  have hok1 : ∀ x, Linked root V num (num w) x → SemiOk succ V num par dep semi x := by
    intro x hx
    rcases (hsplit x).1 hx with rfl | hx'
    · exact hS
    · have S := I.ok x hx'
      have e := esl x hx'
      exact ⟨by rw [e]; exact S.path, by rw [e]; exact S.anc, by rw [e]; exact S.ne, by rw [e]; exact S.least⟩
  have hbk : ∀ q v, v ∈ bk q → Linked root V num (num w) v ∧ semi v = q ∧
      ((v ∈ s.bucket q) ∨ v = w) := by
    intro q v hv
    by_cases hq : q = c
    · subst hq
      rw [show bk q = s.bucket q ++ [w] from put_same _ _ _] at hv
      rcases List.mem_append.1 hv with hv | hv
      · obtain ⟨k1, k2, _⟩ := I.bucket q v hv
        exact ⟨(hsplit v).2 (Or.inr k1), by rw [esl v k1, k2], Or.inl hv⟩
      · rw [List.mem_singleton.1 hv]
        exact ⟨hlw, esw, Or.inr rfl⟩
    · rw [show bk q = s.bucket q from put_ne _ _ _ hq] at hv
      obtain ⟨k1, k2, _⟩ := I.bucket q v hv
      exact ⟨(hsplit v).2 (Or.inr k1), by rw [esl v k1, k2], Or.inl hv⟩
  have hpop : ∀ v ∈ (bk p).reverse, Linked root V num (num w) v ∧ semi v = p ∧ Anc par w v ∧ num v < fuel := by
    intro v hv
    obtain ⟨k1, k2, k3⟩ := hbk p v (List.mem_reverse.1 hv)
    refine ⟨k1, k2, ?_, hfuel v k1.1⟩
    rcases k3 with k3 | rfl
    · obtain ⟨k4, k5, k6⟩ := I.bucket p v k3
      have S := I.ok v k4
      have Sa : Anc par p v := k5 ▸ S.anc
      have Sn : p ≠ v := k5 ▸ S.ne
      obtain ⟨d, c1, c2⟩ := T.child Sa Sn
      have c3 := k6 d c1 c2
      have hVd := T.anc_mem c2 k4.1
      have c4 : Anc par d w := T.interval d w v hVd hw k4.1 (by omega) (by have := k4.2.2; omega) c2
      have hdr : d ≠ root := by
        rintro rfl
        rw [T.root_par] at c1
        cases c1
      obtain ⟨q, d1, d2, _, _, d5⟩ := T.par_spec d hVd hdr
      rw [c1] at d1
      cases d1
      rcases T.anc_num c4 hw with h | ⟨_, h⟩
      · rw [← h]; exact c2
      · omega
    · exact .refl _
  obtain ⟨f, f1, f2, f3⟩ := pops_ok (s := s1) (fuel := fuel) T I.idx hanc1 hok1 g1 rfl (bk p).reverse s.idom hpop
  refine ⟨{ s1 with idom := f }, ?_, ?_⟩
  · unfold domStep
    rw [run_bind_ok h1]
    have hp : s.parent w = some p := by rw [I.parent, g1]
    simp only [hp, put_same]
    exact f1
  · refine ⟨I.idx, I.parent, ⟨hanc1.yes, hanc1.no⟩, ?_, hok1, ?_, ?_, ?_⟩
    · intro x hx
      show put s.semi w c x = x
      have : x ≠ w := by
        rintro rfl
        exact hx hlw
      rw [put_ne _ _ _ this, I.unl x fun h => hx ((hsplit x).2 (Or.inr h))]
    · intro x hx
      show x ∈ put bk p [] (semi x) ∨ KOk root V num par dep (num w) semi (f x) x
      by_cases hxp : x ∈ bk p
      · right
        exact f2 x (List.mem_reverse.2 hxp)
      · have hfx := f3 x (fun h => hxp (List.mem_reverse.1 h))
        rcases (hsplit x).1 hx with rfl | hx'
        · left
          have hxc : x ∈ bk c := by
            rw [show bk c = s.bucket c ++ [x] from put_same _ _ _]
            simp
          have hcp : c ≠ p := by
            rintro rfl
            exact hxp hxc
          rw [esw, put_ne _ _ _ hcp]
          exact hxc
        · rcases I.done x hx' with h | ⟨k, k1, k2, k3⟩
          · left
            have hxc : x ∈ bk (s.semi x) := by
              by_cases hq : s.semi x = c
              · rw [hq, show bk c = s.bucket c ++ [w] from put_same _ _ _, ← hq]
                exact List.mem_append_left _ h
              · rw [show bk (s.semi x) = s.bucket (s.semi x) from put_ne _ _ _ hq]
                exact h
            have hcp : s.semi x ≠ p := by
              intro e
              rw [e] at hxc
              exact hxp hxc
            rw [esl x hx', put_ne _ _ _ hcp]
            exact hxc
          · right
            rw [hfx]
            refine ⟨k, k1, ?_, ?_⟩
            · rw [esl x hx']
              intro u a b c
              exact (hsplit u).2 (Or.inr (k2 u a b c))
            · rw [esl x hx']
              rcases k3 with ⟨k4, k5⟩ | ⟨k4, k5, k6, k7, k8⟩
              · left
                refine ⟨k4, ?_⟩
                intro u a b c
                rw [esl u (k2 u a b c)]
                exact k5 u a b c
              · right
                rw [esl k (k2 k k4 k5 k6)]
                refine ⟨k4, k5, k6, k7, ?_⟩
                intro u a b c
                rw [esl u (k2 u a b c)]
                exact k8 u a b c
    · intro q v hv
      have hv : v ∈ put bk p [] q := hv
      by_cases hqp : q = p
      · rw [hqp, put_same] at hv
        cases hv
      · rw [put_ne _ _ _ hqp] at hv
        obtain ⟨k1, k2, k3⟩ := hbk q v hv
        refine ⟨k1, k2, ?_⟩
        intro d c1 c2
        have hne : d ≠ w := by
          rintro rfl
          rw [g1] at c1
          exact hqp (Option.some.inj c1).symm
        have hVd := T.anc_mem c2 k1.1
        rcases k3 with k3 | rfl
        · obtain ⟨_, _, k6⟩ := I.bucket q v k3
          have := k6 d c1 c2
          rcases Nat.lt_or_ge (num d) (num w) with h | h
          · exact h
          · exact absurd (T.inj _ _ hVd hw (by omega)) hne
        · rcases T.anc_num c2 hw with h | ⟨h, _⟩
          · exact absurd h hne
          · exact h
    · intro x hx
      show f x = none
      rw [f3 x fun h => hx (hpop x h).1]
      exact I.fresh x fun h => hx ((hsplit x).2 (Or.inr h))

/-- One vertex with a predecessor that was not found. -/
theorem Inv.step_error {g : FlowGraph} {s : DomSt} {w : Nat} (hw : V w) (hr : w ≠ root)
    (I : Inv succ root V num par dep (num w + 1) s) (fuel : Nat) (hfuel : ∀ v, V v → num v < fuel)
    (hg : ∀ v, v ∈ g.pred w ↔ w ∈ succ v) (hneg : ∀ v, ¬ V v → dep v < 0) (hV : ∃ v ∈ g.pred w, ¬ V v) :
    domStep g fuel s w = raiseRun .runtime := by
  classical
  obtain ⟨v, hv, hn⟩ := hV
  -- the first such predecessor
  have hsplit : ∀ l : List Nat, (∃ v ∈ l, ¬ V v) → ∃ l1 v l2, l = l1 ++ v :: l2 ∧ ¬ V v ∧ ∀ x ∈ l1, V x := by
    intro l
    induction l with
    | nil => rintro ⟨v, hv, _⟩; cases hv
    | cons a l ih =>
      rintro ⟨v, hv, hn⟩
      by_cases ha : V a
      · rcases List.mem_cons.1 hv with rfl | hv
        · exact absurd ha hn
        · obtain ⟨l1, v', l2, h1, h2, h3⟩ := ih ⟨v, hv, hn⟩
          refine ⟨a :: l1, v', l2, by rw [h1]; rfl, h2, ?_⟩
          intro x hx
          rcases List.mem_cons.1 hx with rfl | hx
          · exact ha
          · exact h3 x hx
      · exact ⟨[], a, l, rfl, ha, fun x hx => by cases hx⟩
  obtain ⟨l1, v', l2, h1, h2, h3⟩ := hsplit _ ⟨v, hv, hn⟩
  have hl1 : ∀ x ∈ l1, V x ∧ w ∈ succ x ∧ num x < fuel := by
    intro x hx
    have : x ∈ g.pred w := by
      rw [h1]
      exact List.mem_append_left _ hx
    exact ⟨h3 x hx, (hg x).1 this, hfuel x (h3 x hx)⟩
  obtain ⟨c, g1, _⟩ := I.scan T hw hr fuel l1 hl1
  have hbad : scanPred fuel w { s with semi := put s.semi w c } v' = raiseRun .runtime := by
    have hnl : ¬ Linked root V num (num w + 1) v' := fun h => h2 h.1
    have hvw : v' ≠ w := by
      rintro rfl
      exact h2 hw
    have e : dominatorEval fuel { s with semi := put s.semi w c } v' = pure v' :=
      eval_unlinked (i := num w + 1) (par := par) (s := { s with semi := put s.semi w c }) ⟨I.anc.yes, I.anc.no⟩ fuel hnl
    unfold scanPred
    rw [run_bind_ok e]
    have e2 : semiIdx { s with semi := put s.semi w c } v' = raiseRun .runtime := by
      unfold semiIdx
      simp only
      rw [put_ne _ _ _ hvw, I.unl v' hnl, I.idx, if_pos (hneg v' h2)]
    rw [e2]
    rfl
  unfold domStep
  rw [h1, List.foldlM_append]
  have : (l1.foldlM (scanPred fuel w) s >>= fun s' => (v' :: l2).foldlM (scanPred fuel w) s')
      = raiseRun .runtime := by
    rw [run_bind_ok g1, List.foldlM_cons, hbad]
    rfl
  rw [this]
  rfl

end

end Verif
