import Verif.Proof.RunRecovery
import Verif.Props.ForwardBuilder

/-! # Lemmas about runs that keep the originals -/

namespace Verif
open Verif.Spec

/-! ### Where candidates come from -/

theorem cameFrom_refl (a : List (List (RInst Scored))) : CameFrom a a :=
  List.forall₂_same.2 fun _ _ => ⟨le_refl _, fun y hy => ⟨y, hy, rfl, rfl, rfl⟩⟩

theorem CameFrom.trans {a b c : List (List (RInst Scored))} (h : CameFrom a b) (h' : CameFrom b c) :
    CameFrom a c := by
  induction h generalizing c with
  | nil => cases h'; exact List.Forall₂.nil
  | cons hvw _ ih =>
    cases h' with
    | cons hwu h'' =>
      refine List.Forall₂.cons ⟨hvw.1.trans hwu.1, ?_⟩ (ih h'')
      intro x hx
      obtain ⟨y, hy, e1, e2, e3⟩ := hvw.2 x hx
      obtain ⟨z, hz, e4, e5, e6⟩ := hwu.2 y hy
      exact ⟨z, hz, e1.trans e4, e2.trans e5, e3.trans e6⟩

theorem cameFrom_perm {a b : List (List (RInst Scored))} (h : List.Forall₂ List.Perm a b) : CameFrom a b :=
  h.imp fun _ _ hp => ⟨hp.length_eq.le, fun y hy => ⟨y, hp.mem_iff.1 hy, rfl, rfl, rfl⟩⟩

theorem cameFrom_rel {a b : List (List (RInst Scored))}
    (h : List.Forall₂ (List.Forall₂ fun y x : RInst Scored =>
      y.enc = x.enc ∧ y.str = x.str ∧ y.data = x.data) a b) : CameFrom a b :=
  h.imp fun v w hvw => by
    refine ⟨hvw.length_eq.le, fun y hy => ?_⟩
    obtain ⟨i, hi, rfl⟩ := List.mem_iff_getElem.1 hy
    have hi' : i < w.length := by rw [← hvw.length_eq]; exact hi
    obtain ⟨e1, e2, e3⟩ := forall₂_getElem hvw i hi hi'
    exact ⟨w[i], List.getElem_mem _, e1, e2, by rw [e3]⟩

/-! ### The loop -/

theorem loop_safe {cs : List Cand} {fns : Fns} {addrs : List Int} (orig : List (RInst Scored)) :
    ∀ (fuel p : Nat) (b : Bool) (prog : List (List (RInst Scored)))
      (res : Py (Nat × List (List (RInst Scored)) × Bool)), RecInv cs fns addrs prog →
      orig.length = prog.length →
      whileLoop (fun s => s.2.2) (recoveryPass (fun _ p => recuperate (collectMeta {} (cs.map (·.m))) fns addrs p)
        orig) fuel (p, prog, b) = some res →
      (res = .error .zeroDiv) ∨ ∃ s, res = .ok s ∧ RecInv cs fns addrs s.2.1 ∧ CameFrom s.2.1 prog := by
  intro fuel
  induction fuel with
  | zero => intro p b prog res _ _ h; simp [whileLoop] at h
  | succ fuel ih =>
    intro p b prog res hinv hl h
    rw [whileLoop] at h
    split at h
    · rcases pass_keeps hinv orig hl p b with he | ⟨prog', b', he, hi, hl', hcf⟩
      · rw [he] at h
        simp only [Option.some.injEq] at h
        exact Or.inl h.symm
      · rw [he] at h
        rcases ih _ _ _ _ hi (by omega) h with h | ⟨s, h1, h2, h3⟩
        · exact Or.inl h
        · exact Or.inr ⟨s, h1, h2, h3.trans hcf⟩
    · simp only [Option.some.injEq] at h
      subst h
      exact Or.inr ⟨_, rfl, hinv, cameFrom_refl _⟩

/-! ### The end -/

theorem continuous_ok (v : List (RInst Scored)) (h : ∀ x ∈ v, Stored x.data) :
    ∃ v', continuous v = .ok v' ∧ List.Forall₂ (fun y x : RInst Scored =>
      y.enc = x.enc ∧ y.str = x.str ∧ y.data = x.data) v' v := by
  unfold continuous
  split
  · obtain ⟨v', h1, h2⟩ := mapM_ok (R := fun x y : RInst Scored => y.enc = x.enc ∧ y.str = x.str ∧ y.data = x.data)
      (fun x : RInst Scored => (do
        let p ← probRules x.data.scores x.data.c
        pure { x with score := p } : Py (RInst Scored))) v (by
        intro x hx
        obtain ⟨f, hf, _⟩ := C39_final x.data.scores x.data.c (h x hx).ok.range
        refine ⟨{ x with score := f }, ?_, rfl, rfl, rfl⟩
        rw [hf]
        rfl)
    exact ⟨v', h1, h2.flip⟩
  · exact ⟨v, rfl, List.forall₂_same.2 fun _ _ => ⟨rfl, rfl, rfl⟩⟩

/-- What the builder left is found again. -/
theorem leftOf_map (dec : Nat → Nat → Answers) (a : Nat) : ∀ (v : List (RInst Scored)) (fs : List FInst),
    fs.Sublist (v.map (toForward dec a)) →
    (leftOf dec a v fs).map (toForward dec a) = fs ∧ (leftOf dec a v fs).Sublist v := by
  intro v
  induction v with
  | nil =>
    intro fs h
    rw [List.map_nil, List.sublist_nil] at h
    subst h
    exact ⟨rfl, List.Sublist.refl _⟩
  | cons x v ih =>
    intro fs h
    cases fs with
    | nil => exact ⟨rfl, List.nil_sublist _⟩
    | cons f fs =>
      rw [leftOf]
      split
      · rename_i hf
        subst hf
        have h' : fs.Sublist (v.map (toForward dec a)) := by
          rw [List.map_cons] at h
          exact List.cons_sublist_cons.1 h
        obtain ⟨h1, h2⟩ := ih fs h'
        exact ⟨by rw [List.map_cons, h1], h2.cons_cons x⟩
      · rename_i hf
        have h' : (f :: fs).Sublist (v.map (toForward dec a)) := by
          rw [List.map_cons] at h
          cases h with
          | cons _ h => exact h
          | cons_cons _ h => exact absurd rfl hf
        obtain ⟨h1, h2⟩ := ih _ h'
        exact ⟨h1, h2.cons x⟩

theorem dictGet_map_key {α β : Type} (k : α → Nat) (g : α → β) (l : List α) (a : Nat) :
    dictGet (l.map fun i => (k i, g i)) a = (dictGet (l.map fun i => (k i, i)) a).map g := by
  induction l with
  | nil => rfl
  | cons i l ih =>
    simp only [List.map_cons, dictGet_cons]
    split
    · rfl
    · exact ih

theorem originalAt_eq (dec : Nat → Nat → Answers) (orig : List CInst) (h : (orig.map (·.address)).Nodup) :
    originalAt dec orig = dictGet (orig.map fun i =>
      (i.address, toForward dec i.address (decoded dec i.address i.encoding))) := by
  funext a
  unfold originalAt
  rw [toDict_map orig h, dictGet_map_key (fun i : CInst => i.address) (fun i : CInst => [i]),
    dictGet_map_key (fun i : CInst => i.address) (fun i : CInst => toForward dec i.address (decoded dec i.address i.encoding))]
  cases dictGet (orig.map fun i => (i.address, i)) a <;> rfl

/-- What is known of the candidates of the address of an original. -/
structure Known (dec : Nat → Nat → Answers) (i : CInst) (v : List (RInst Scored)) : Prop where
  str : ∀ x ∈ v, x.str = (dec i.address x.enc).str
  c : ∀ x ∈ v, x.data.c = (dec i.address x.enc).cand
  alike : ∀ x ∈ v, x.str = (dec i.address i.encoding).str →
    Alike (toForward dec i.address x) (toForward dec i.address (decoded dec i.address i.encoding))

theorem Known.from {dec : Nat → Nat → Answers} {orig : List CInst} {a b : List (List (RInst Scored))}
    (h : CameFrom a b) (hk : List.Forall₂ (Known dec) orig b) : List.Forall₂ (Known dec) orig a := by
  have hl := hk.length_eq
  have hl' : a.length = b.length := h.length_eq
  apply forall₂_of_getElem (by omega)
  intro i h1 h2
  have k := forall₂_getElem hk i h1 (by omega)
  have c := (forall₂_getElem h i h2 (by omega)).2
  refine ⟨?_, ?_, ?_⟩
  · intro x hx
    obtain ⟨y, hy, e1, e2, e3⟩ := c x hx
    rw [e1, e2, k.str y hy]
  · intro x hx
    obtain ⟨y, hy, e1, e2, e3⟩ := c x hx
    rw [e1, e3, k.c y hy]
  · intro x hx hs
    obtain ⟨y, hy, e1, e2, e3⟩ := c x hx
    have := k.alike y hy (by rw [← e2]; exact hs)
    unfold toForward at this ⊢
    rw [e1, e2, e3]
    exact this

theorem known_enc {dec : Nat → Nat → Answers} (henc : ∀ a e, (dec a e).cand.m.encoding = e) {i : CInst}
    {v : List (RInst Scored)} (h : Known dec i v) {x : RInst Scored} (hx : x ∈ v)
    (hm : x.data.c.m = (dec i.address i.encoding).cand.m) : x.enc = i.encoding := by
  have := congrArg MInst.encoding hm
  rwa [h.c x hx, henc, henc] at this

/-- The end of a run for a program whose originals are there: only the last report can
raise, and the originals are still there. -/
theorem finish_safe (dec : Nat → Nat → Answers) (orig : List CInst) (hn : (orig.map (·.address)).Nodup)
    (prog : List (List (RInst Scored))) (hst : ∀ v ∈ prog, ∀ x ∈ v, Stored x.data)
    (hdefd : ∀ i ∈ orig, (dec i.address i.encoding).cand.m.ignore = false)
    (hpres : List.Forall₂ (fun (i : CInst) v => ∃ x ∈ v, x.data.c = (dec i.address i.encoding).cand) orig prog)
    (henc : ∀ a e, (dec a e).cand.m.encoding = e)
    (hregs : ∀ i ∈ orig, ∀ r ∈ (dec i.address i.encoding).regs, r ∈ (dec i.address i.encoding).cand.m.used)
    (hk : List.Forall₂ (Known dec) orig prog) (hsev : ∃ v ∈ prog, 1 < v.length) :
    finishRun dec orig (orig.map (·.address)) prog = some (.error .zeroDiv) ∨
    ∃ prog', finishRun dec orig (orig.map (·.address)) prog = some (.ok prog') ∧ CameFrom prog' prog ∧
      List.Forall₂ (fun (i : CInst) v => ∃ x ∈ v, x.enc = i.encoding) orig prog' := by
  have hlen : orig.length = prog.length := hk.length_eq
  obtain ⟨prog1, h1, r1⟩ := mapM_ok (R := fun v v' : List (RInst Scored) => List.Forall₂ (fun y x : RInst Scored =>
      y.enc = x.enc ∧ y.str = x.str ∧ y.data = x.data) v' v) continuous prog
    (fun v hv => continuous_ok v (hst v hv))
  have c1 : CameFrom prog1 prog := cameFrom_rel r1.flip
  have hl1 : prog1.length = prog.length := c1.length_eq
  have p1 : ∀ (i : Nat) (h1 : i < orig.length) (h2 : i < prog1.length), ∃ x ∈ prog1[i],
      x.data.c = (dec orig[i].address orig[i].encoding).cand := by
    intro i h1 h2
    obtain ⟨x, hx, hxo⟩ := forall₂_getElem hpres i h1 (by omega)
    obtain ⟨j, hj, rfl⟩ := List.mem_iff_getElem.1 hx
    have hr := forall₂_getElem r1 i (by omega) h2
    have hj' : j < prog1[i].length := by rw [hr.length_eq]; exact hj
    refine ⟨prog1[i][j], List.getElem_mem _, ?_⟩
    rw [(forall₂_getElem hr j hj' hj).2.2, hxo]
  have hos : (orig.map fun i => decoded dec i.address i.encoding).length = prog1.length := by
    rw [List.length_map]; omega
  have hrep : ∃ r, printReport (orig.map fun i => decoded dec i.address i.encoding) prog1 =
      .ok (r, prog1.map (fun l => if 1 < l.length then sortScore l else l)) := by
    rcases printReport_eq (orig.map fun i => decoded dec i.address i.encoding) prog1 hos with
      ⟨r, e, _⟩ | ⟨hle, _⟩
    · exact ⟨r, e⟩
    · exfalso
      obtain ⟨v, hv, hv1⟩ := hsev
      obtain ⟨i, hi, rfl⟩ := List.mem_iff_getElem.1 hv
      have hr := (forall₂_getElem r1 i hi (by omega)).length_eq
      have := hle prog1[i] (List.getElem_mem _)
      omega
  obtain ⟨r, hr⟩ := hrep
  generalize hp2 : prog1.map (fun l => if 1 < l.length then sortScore l else l) = prog2 at hr
  obtain ⟨_, perm2, _⟩ := printReport_perm hr
  have c2 : CameFrom prog2 prog := (cameFrom_perm perm2).trans c1
  have hl2 : prog2.length = prog.length := c2.length_eq
  have k2 : List.Forall₂ (Known dec) orig prog2 := Known.from c2 hk
  have p2 : ∀ (i : Nat) (h1 : i < orig.length) (h2 : i < prog2.length), ∃ x ∈ prog2[i],
      x.data.c = (dec orig[i].address orig[i].encoding).cand := by
    intro i h1 h2
    obtain ⟨x, hx, hxo⟩ := p1 i h1 (by omega)
    exact ⟨x, (forall₂_getElem perm2 i h2 (by omega)).mem_iff.2 hx, hxo⟩
  -- the forward enumeration
  have hcor : Corrupted (orig.map fun i => (i.address, toForward dec i.address (decoded dec i.address i.encoding)))
      (((orig.map (·.address)).zip prog2).map fun q => (q.1, q.2.map (toForward dec q.1))) := by
    have hzip : ∀ a pa, (a, pa) ∈ (((orig.map (·.address)).zip prog2).map fun q =>
        (q.1, q.2.map (toForward dec q.1))) → ∃ (i : Nat) (h1 : i < orig.length) (h2 : i < prog2.length),
        a = orig[i].address ∧ pa = prog2[i].map (toForward dec orig[i].address) := by
      intro a pa h
      obtain ⟨q, hq, e⟩ := List.mem_map.1 h
      obtain ⟨i, hi, rfl⟩ := List.mem_iff_getElem.1 hq
      simp only [List.length_zip, List.length_map] at hi
      simp only [List.getElem_zip, List.getElem_map, Prod.mk.injEq] at e
      exact ⟨i, by omega, by omega, e.1.symm, e.2.symm⟩
    have hkeys : (((orig.map (·.address)).zip prog2).map fun q =>
        (q.1, q.2.map (toForward dec q.1))).map (·.1) = orig.map (·.address) := by
      rw [List.map_map]
      exact List.map_fst_zip (by rw [List.length_map]; omega)
    refine ⟨?_, by rw [hkeys]; exact hn, ?_, ?_, ?_⟩
    · rw [List.map_map]; exact hn
    · intro a pa h
      obtain ⟨i, h1, h2, rfl, rfl⟩ := hzip a pa h
      obtain ⟨x, hx, hxo⟩ := p2 i h1 h2
      have he := known_enc henc (forall₂_getElem k2 i h1 h2) hx (by rw [hxo])
      refine ⟨_, List.mem_map.2 ⟨orig[i], List.getElem_mem _, rfl⟩, List.mem_map.2 ⟨x, hx, ?_⟩⟩
      unfold toForward decoded
      rw [hxo, (forall₂_getElem k2 i h1 h2).str x hx, he]
    · intro a pa o h ho c hc hs
      obtain ⟨i, h1, h2, rfl, rfl⟩ := hzip a pa h
      obtain ⟨x, hx, rfl⟩ := List.mem_map.1 hc
      obtain ⟨j, hj, e⟩ := List.mem_map.1 ho
      simp only [Prod.mk.injEq] at e
      have hij : j = orig[i] := by
        have := List.inj_on_of_nodup_map hn hj (List.getElem_mem h1) e.1
        exact this
      subst hij
      obtain ⟨_, rfl⟩ := e
      exact (forall₂_getElem k2 i h1 h2).alike x hx hs
    · intro a o ho r hr
      obtain ⟨j, hj, e⟩ := List.mem_map.1 ho
      simp only [Prod.mk.injEq] at e
      obtain ⟨_, rfl⟩ := e
      exact hregs j hj r hr
  obtain ⟨s, e1, e2, _⟩ := C48_enumerator _ _ hcor ((orig.map (·.address)).length + 1) (by simp)
  have hbud : (orig.map fun i => (i.address, toForward dec i.address (decoded dec i.address i.encoding))).map (·.2) =
      orig.map fun i => toForward dec i.address (decoded dec i.address i.encoding) := by
    rw [List.map_map]; rfl
  rw [hbud, ← originalAt_eq dec orig hn] at e1
  generalize hp3 : (((orig.map (·.address)).zip prog2).map fun q =>
              leftOf dec q.1 q.2 ((dictGet s.program q.1).getD [])) = prog3
  have hl3 : prog3.length = prog.length := by rw [← hp3]; simp; omega
  have f3 : ∀ (i : Nat) (h1 : i < orig.length) (h2 : i < prog2.length) (h3 : i < prog3.length),
      prog3[i].Sublist prog2[i] ∧ ∃ x ∈ prog3[i], x.enc = orig[i].encoding := by
    intro i h1 h2 h3
    have hmem : (orig[i].address, prog2[i].map (toForward dec orig[i].address)) ∈
        (((orig.map (·.address)).zip prog2).map fun q => (q.1, q.2.map (toForward dec q.1))) := by
      refine List.mem_map.2 ⟨(orig[i].address, prog2[i]), ?_, rfl⟩
      rw [List.mem_iff_getElem]
      exact ⟨i, by simp; omega, by simp⟩
    obtain ⟨pa', g1, g2⟩ := e2.shrunk _ _ hmem
    have hdef : (toForward dec orig[i].address (decoded dec orig[i].address orig[i].encoding)).meta.ignore = false :=
      hdefd _ (List.getElem_mem h1)
    obtain ⟨pa'', g3, g4⟩ := e2.kept _ _ _ hmem (List.mem_map.2 ⟨orig[i], List.getElem_mem _, rfl⟩) hdef
    rw [g1] at g3
    simp only [Option.some.injEq] at g3
    subst g3
    obtain ⟨m1, m2⟩ := leftOf_map dec orig[i].address prog2[i] pa' g2
    have e3 : prog3[i] = leftOf dec orig[i].address prog2[i] pa' := by
      subst hp3
      simp [g1]
    rw [e3]
    refine ⟨m2, ?_⟩
    rw [← m1] at g4
    obtain ⟨x, hx, hxe⟩ := List.mem_map.1 g4
    refine ⟨x, hx, known_enc henc (forall₂_getElem k2 i h1 h2) (m2.subset hx) ?_⟩
    have := congrArg FInst.meta hxe
    exact this
  have c3 : CameFrom prog3 prog2 := by
    apply forall₂_of_getElem (by omega)
    intro i h1 h2
    have := (f3 i (by omega) h2 h1).1
    exact ⟨this.length_le, fun y hy => ⟨y, this.subset hy, rfl, rfl, rfl⟩⟩
  have hfin : finishRun dec orig (orig.map (·.address)) prog = some ((do
      let r ← printReport (orig.map fun i => decoded dec i.address i.encoding) prog3
      pure r.2 : Py (List (List (RInst Scored))))) := by
    unfold finishRun
    dsimp only
    rw [h1]
    simp only [bind, Except.bind, hr, pure, Except.pure, e1, hp3]
  rw [hfin]
  rcases printReport_eq (orig.map fun i => decoded dec i.address i.encoding) prog3 (by rw [List.length_map]; omega)
    with ⟨r4, e4, _⟩ | ⟨_, e4⟩
  · right
    obtain ⟨_, perm4, _⟩ := printReport_perm e4
    refine ⟨_, by rw [e4]; rfl, (cameFrom_perm perm4).trans (c3.trans c2), ?_⟩
    have hl4 := perm4.length_eq
    apply forall₂_of_getElem (by omega)
    intro i h1 h2
    obtain ⟨x, hx, hxe⟩ := (f3 i h1 (by omega) (by omega)).2
    exact ⟨x, (forall₂_getElem perm4 i h2 (by omega)).mem_iff.2 hx, hxe⟩
  · left
    rw [e4]
    rfl

/-! ### The functions of a program -/

theorem fold_starts {α : Type} (address : α → Int) : ∀ (fs : List (List α)) (d : List (Int × (Int × Int))) (a : Int),
    (a ∈ (fs.foldl (fun d f => dictSet d (startAddr address f) (startAddr address f, finalAddr address f)) d).map (·.1) ↔
      a ∈ d.map (·.1) ∨ ∃ f ∈ fs, startAddr address f = a) ∧
    ∀ v, dictGet (fs.foldl (fun d f => dictSet d (startAddr address f) (startAddr address f, finalAddr address f)) d) a =
      some v → dictGet d a = some v ∨ ∃ f ∈ fs, startAddr address f = a ∧ v = (a, finalAddr address f) := by
  intro fs
  induction fs with
  | nil => intro d a; exact ⟨by simp, fun v h => Or.inl h⟩
  | cons f fs ih =>
    intro d a
    rw [List.foldl_cons]
    obtain ⟨h1, h2⟩ := ih (dictSet d (startAddr address f) (startAddr address f, finalAddr address f)) a
    constructor
    · rw [h1, ← dictGet_isSome, dictGet_dictSet, ← dictGet_isSome]
      by_cases e : startAddr address f = a
      · simp [e]
      · have e' : ¬ a = startAddr address f := fun h => e h.symm
        simp [e, e']
    · intro v hv
      rcases h2 v hv with h | ⟨g, hg, e⟩
      · rw [dictGet_dictSet] at h
        by_cases e : startAddr address f = a
        · subst e
          rw [if_pos rfl] at h
          simp only [Option.some.injEq] at h
          exact Or.inr ⟨f, by simp, rfl, h.symm⟩
        · rw [if_neg e] at h
          exact Or.inl h
      · exact Or.inr ⟨g, by simp [hg], e⟩

end Verif
