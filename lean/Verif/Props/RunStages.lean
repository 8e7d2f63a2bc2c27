import Verif.Props.RunExact
import Verif.Props.RunRecovery

/-! # C94: exactly which runs of the recovery keep the originals -/

namespace Verif
namespace Spec

/-- The originals with their addresses, in the order of addresses. -/
def originalsOf (dec : Nat → Nat → Answers) (functions : List (List CInst)) : List (Int × MInst) :=
  (functions.flatten.insertionSort fun i j => (i.address : Int) ≤ j.address).map fun c =>
    ((c.address : Int), (dec c.address c.encoding).cand.m)

/-- The candidates of a corrupted program. -/
def candidatesOf (dec : Nat → Nat → Answers) (corrupted : Program) : List (Int × List Cand) :=
  corrupted.map fun q => ((q.1 : Int), q.2.map fun i => (dec q.1 i.encoding).cand)

end Spec
open Spec

theorem leftOf_sublist (dec : Nat → Nat → Answers) (a : Nat) : ∀ (v : List (RInst Scored)) (fs : List FInst),
    (leftOf dec a v fs).Sublist v := by
  intro v
  induction v with
  | nil => intro fs; exact List.Sublist.refl _
  | cons x v ih =>
    intro fs
    cases fs with
    | nil => exact List.nil_sublist _
    | cons f fs =>
      rw [leftOf]
      split
      · exact (ih fs).cons_cons x
      · exact (ih _).cons x

theorem continuous_from {v v' : List (RInst Scored)} (h : continuous v = .ok v') :
    v'.length ≤ v.length ∧ ∀ y ∈ v', ∃ x ∈ v, y.enc = x.enc ∧ y.str = x.str ∧ y.data.c = x.data.c := by
  unfold continuous at h
  split at h
  · have := mapM_all _ v v' h
    refine ⟨this.length_eq.ge, ?_⟩
    intro y hy
    obtain ⟨x, hx, hxy⟩ := C38_evidence.forall₂_mem_right this hy
    obtain ⟨p, _, hxy⟩ := except_bind_ok hxy
    cases hxy
    exact ⟨x, hx, rfl, rfl, rfl⟩
  · cases h
    exact ⟨le_rfl, fun y hy => ⟨y, hy, rfl, rfl, rfl⟩⟩

/-- The end of a run adds no candidate. -/
theorem finish_from {dec : Nat → Nat → Answers} {orig : List CInst} {addrs : List Nat}
    {prog prog' : List (List (RInst Scored))} (hl : addrs.length = prog.length)
    (h : finishRun dec orig addrs prog = some (.ok prog')) : CameFrom prog' prog := by
  unfold finishRun at h
  dsimp only at h
  split at h
  · cases h
  · rename_i prog2 h2
    obtain ⟨prog1, h1, h2⟩ := except_bind_ok h2
    obtain ⟨r, h3, h2⟩ := except_bind_ok h2
    cases h2
    have c1 : CameFrom prog1 prog := by
      have := mapM_all _ prog prog1 h1
      refine List.Forall₂.flip ?_
      exact this.imp fun v w hvw => continuous_from hvw
    obtain ⟨_, perm, _⟩ := printReport_perm (r := r.1) (iss' := r.2) h3
    have c2 : CameFrom r.2 prog := (cameFrom_perm perm).trans c1
    have hl2 : r.2.length = prog.length := c2.length_eq
    split at h
    · cases h
    · cases h
    · rename_i s hs
      simp only [Option.some.injEq] at h
      obtain ⟨r4, h4, h⟩ := except_bind_ok h
      cases h
      obtain ⟨_, perm4, _⟩ := printReport_perm (r := r4.1) (iss' := r4.2) h4
      refine (cameFrom_perm perm4).trans (CameFrom.trans ?_ c2)
      apply forall₂_of_getElem
      · simp; omega
      · intro i h1 h2
        simp only [List.getElem_map, List.getElem_zip]
        have := leftOf_sublist dec (addrs[i]'(by omega)) r.2[i] ((dictGet s.program (addrs[i]'(by omega))).getD [])
        exact ⟨this.length_le, fun y hy => ⟨y, this.subset hy, rfl, rfl, rfl⟩⟩

/-- **C94, exactly which runs keep the originals.**  Take a recoverable program whose originals
are clear.  If applying the rule of a pass to its candidates over and over never loses an
original, the run ends as C94 says: it raises `ZeroDivisionError`, or it completes, both files
are solutions and the original is among the candidates left at every address.  And a run that
completes shows that no stage of the rule loses an original: otherwise it raises. -/
theorem C94_exact (dec : Nat → Nat → Answers) (henc : ∀ a e, (dec a e).cand.m.encoding = e)
    (corrupt : Program → Py Program) (functions : List (List CInst)) (corrupted : Program)
    (hc : corrupt (programOf functions) = .ok corrupted) (h : Recoverable functions corrupted)
    (hu : ∀ q ∈ corrupted, ∀ c ∈ functions.flatten, c.address = q.1 → Clear dec c q.2)
    (fuel : Nat) (hf : (corrupted.map fun q => q.2.length).sum + 2 ≤ fuel) :
    ((∀ k, HasOriginals (originalsOf dec functions)
        (afterPasses (originalsOf dec functions) (candidatesOf dec corrupted) k)) →
      ∃ files res, runRecovery dec corrupt fuel functions = some (files, res) ∧
      (((∀ q ∈ corrupted, q.2.length ≤ 1) ∧ files = {} ∧ res = .error .zeroDiv) ∨
       ((∃ q ∈ corrupted, 1 < q.2.length) ∧
        (∃ f, files.initial = some f ∧ SolutionFor functions corrupted f) ∧
        ((files.final = none ∧ res = .error .zeroDiv) ∨
         (∃ f left, files.final = some f ∧ SolutionFor functions corrupted f ∧ res = .ok left ∧
          ∀ c ∈ functions.flatten, ∃ l ∈ left, l.1 = c.address ∧ c ∈ l.2))))) ∧
    ∀ files left, runRecovery dec corrupt fuel functions = some (files, .ok left) →
      ∀ k, HasOriginals (originalsOf dec functions)
        (afterPasses (originalsOf dec functions) (candidatesOf dec corrupted) k) := by
  generalize ho : (functions.flatten.insertionSort fun i j => (i.address : Int) ≤ j.address) = orig
  have hpo : programOf functions = orig.map fun i => (i.address, [i]) := by rw [← ho]; rfl
  have hmem : ∀ c, c ∈ orig ↔ c ∈ functions.flatten := by
    intro c; rw [← ho]; exact List.mem_insertionSort _
  have haddr : corrupted.map (·.1) = orig.map (·.address) := by
    rw [h.same, hpo, List.map_map]; rfl
  have hor : (functionsToList (fun i : CInst => (i.address : Int)) functions).1 = orig := ho
  have hlc : corrupted.length = orig.length := by simpa using congrArg List.length haddr
  have hnodup : (orig.map (·.address)).Nodup := by
    have := (List.perm_insertionSort (fun i j : CInst => (i.address : Int) ≤ j.address) functions.flatten).map (·.address)
    rw [← ho]
    exact this.nodup_iff.2 h.distinct
  generalize hf1 : (corrupted.map fun q => q.2.map fun i : CInst => decoded dec q.1 i.encoding) = prog1
  have hl1 : prog1.length = corrupted.length := by rw [← hf1, List.length_map]
  generalize hos : (orig.map fun i => decoded dec i.address i.encoding) = os
  have hlos : os.length = prog1.length := by rw [← hos, List.length_map]; omega
  have hfirst : prog1.map (List.map fun x : RInst Scored => x.enc) = corrupted.map fun q => q.2.map (·.encoding) := by
    rw [← hf1, List.map_map]
    apply List.map_congr_left
    intro q _
    simp only [Function.comp, List.map_map]
    apply List.map_congr_left
    intro i _
    rfl
  rcases printReport_eq os prog1 hlos with ⟨r, hr, e2, e3, _⟩ | ⟨hle, hr⟩
  swap
  · have hrr : runRecovery dec corrupt fuel functions = some ({}, .error .zeroDiv) := by
      unfold runRecovery
      dsimp only
      rw [programOf_eq functions h.distinct, hc]
      dsimp only
      rw [hor, hos, hf1, hr]
    refine ⟨fun _ => ⟨{}, .error .zeroDiv, hrr, Or.inl ⟨?_, rfl, rfl⟩⟩, fun files left hl => ?_⟩
    · intro q hq
      have := hle (q.2.map fun i : CInst => decoded dec q.1 i.encoding)
        (by rw [← hf1]; exact List.mem_map.2 ⟨q, hq, rfl⟩)
      simpa using this
    · rw [hrr] at hl
      cases hl
  have hmany : ∃ q ∈ corrupted, 1 < q.2.length := by
    rw [e2, List.countP_pos_iff] at e3
    obtain ⟨l, hl, hl1⟩ := e3
    rw [← hf1] at hl
    obtain ⟨q, hq, rfl⟩ := List.mem_map.1 hl
    exact ⟨q, hq, by simpa using hl1⟩
  generalize (prog1.map (fun l => if 1 < l.length then sortScore l else l)) = prog2 at hr
  obtain ⟨_, perm2, _⟩ := printReport_perm hr
  have hl2 : prog2.length = prog1.length := perm2.length_eq
  have c2 : CameFrom prog2 prog1 := cameFrom_perm perm2
  obtain ⟨whole2, known2, held2⟩ := clear_start dec functions corrupted h hu prog2 (by rw [hf1]; exact perm2) orig ho.symm haddr
  have pres2 : List.Forall₂ (fun (i : CInst) v => ∃ x ∈ v, x.enc = i.encoding) orig prog2 := by
    have hl : orig.length = prog2.length := known2.length_eq
    apply forall₂_of_getElem hl
    intro i h1 h2
    obtain ⟨x, hx, hxo⟩ := forall₂_getElem held2 i h1 h2
    exact ⟨x, hx, known_enc henc (forall₂_getElem known2 i h1 h2) hx (by rw [hxo])⟩
  have hw2 := write_safe functions corrupted h orig ho.symm haddr dec prog2 (by rw [hf1]; exact c2) pres2
  have hk : (corrupted.map (·.1)).Nodup := by rw [haddr]; exact hnodup
  have sol2 := written_solution functions corrupted hk prog1 prog2 hfirst (within_of_perm perm2) hw2
  -- the loop
  have hO : originalsOf dec functions = orig.map fun c => ((c.address : Int), (dec c.address c.encoding).cand.m) := by
    unfold originalsOf; rw [ho]
  have hmeta : os.map (·.data.c.m) = (originalsOf dec functions).map (·.2) := by
    rw [hO, ← hos, List.map_map, List.map_map]; rfl
  have hkeys : (originalsOf dec functions).map (·.1) = (orig.map (·.address)).map fun a : Nat => (a : Int) := by
    rw [hO, List.map_map, List.map_map]; rfl
  have hclear : ∀ i ∈ orig, ∃ v, Clear dec i v := by
    intro i hi
    obtain ⟨k, hk1, rfl⟩ := List.mem_iff_getElem.1 hi
    have h1 : k < corrupted.length := by omega
    have hat : orig[k].address = corrupted[k].1 := by
      have := congrArg (fun l => l[k]?) haddr
      simpa [h1, hk1] using this.symm
    exact ⟨_, hu _ (List.getElem_mem h1) orig[k] ((hmem _).1 (List.getElem_mem hk1)) hat⟩
  have hdefd : ∀ i ∈ orig, (dec i.address i.encoding).cand.m.ignore = false := fun i hi => (hclear i hi).elim fun _ c => c.defined
  have hregs : ∀ i ∈ orig, ∀ r ∈ (dec i.address i.encoding).regs, r ∈ (dec i.address i.encoding).cand.m.used :=
    fun i hi => (hclear i hi).elim fun _ c => c.regs
  have hdefO : ∀ q ∈ originalsOf dec functions, q.2.ignore = false := by
    rw [hO]
    intro q hq
    obtain ⟨i, hi, rfl⟩ := List.mem_map.1 hq
    exact hdefd i hi
  have hnodO : ∀ q ∈ originalsOf dec functions, q.2.used.Nodup := by
    rw [hO]
    intro q hq
    obtain ⟨i, hi, rfl⟩ := List.mem_map.1 hq
    exact (hclear i hi).elim fun _ c => c.nodup
  have hsame : SameCandidates (bare ((orig.map (·.address)).map fun a : Nat => (a : Int)) prog2) (candidatesOf dec corrupted) := by
    have hal : ((orig.map (·.address)).map fun a : Nat => (a : Int)).length = prog2.length := whole2.length
    unfold SameCandidates candidatesOf
    apply forall₂_of_getElem
    · rw [bare_length hal, List.length_map]; omega
    · intro i h1 h2
      have i1 : i < prog2.length := by rw [bare_length hal] at h1; exact h1
      have i2 : i < corrupted.length := by omega
      have i3 : i < orig.length := by omega
      have hat : orig[i].address = corrupted[i].1 := by
        have := congrArg (fun l => l[i]?) haddr
        simpa [i2, i3] using this.symm
      rw [bare_nth hal i i1, List.getElem_map]
      refine ⟨by simp [hat], ?_⟩
      have hp := (forall₂_getElem perm2 i i1 (by omega)).map fun x : RInst Scored => x.data.c
      refine hp.trans (List.Perm.of_eq ?_)
      have : prog1[i]'(by omega) = corrupted[i].2.map fun i_1 : CInst => decoded dec corrupted[i].1 i_1.encoding := by
        subst hf1; simp
      rw [this, List.map_map, List.getElem_map]
      rfl
  have hstage : ∀ k, SameCandidates (afterPasses (originalsOf dec functions) (bare ((orig.map (·.address)).map fun a : Nat => (a : Int)) prog2) k)
      (afterPasses (originalsOf dec functions) (candidatesOf dec corrupted) k) := fun k => afterPasses_same hsame k
  have hsum : (prog2.map List.length).sum = (corrupted.map fun q => q.2.length).sum := by
    have : prog2.map List.length = corrupted.map fun q => q.2.length := by
      have e : prog1.map List.length = corrupted.map fun q => q.2.length := by
        rw [← hf1, List.map_map]
        apply List.map_congr_left
        intro q _
        simp
      rw [← e]
      clear * - perm2
      induction perm2 with
      | nil => rfl
      | cons hp _ ih => simp only [List.map_cons, ih, hp.length_eq]
    rw [this]
  have hrun : ∀ res, recoveryLoop (fun _ p => recuperate (collectMeta {} (os.map (·.data.c.m)))
      (functionsToList (fun i : CInst => (i.address : Int)) functions).2
      ((corrupted.map (·.1)).map fun a : Nat => (a : Int)) p) os fuel prog2 = some res →
      runRecovery dec corrupt fuel functions =
        match (some res : Option (Py (Nat × List (List (RInst Scored)) × Bool))) with
        | none => none
        | some (.error e) => some ({ initial := some (writeBinary (programOf functions)
            (toSolution (corrupted.map (·.1)) prog2)).1 }, .error e)
        | some (.ok s) =>
            match finishRun dec orig (corrupted.map (·.1)) s.2.1 with
            | none => none
            | some (.error e) => some ({ initial := some (writeBinary (programOf functions)
                (toSolution (corrupted.map (·.1)) prog2)).1 }, .error e)
            | some (.ok prog) =>
                some (⟨some (writeBinary (programOf functions) (toSolution (corrupted.map (·.1)) prog2)).1,
                  some (writeBinary (programOf functions) (toSolution (corrupted.map (·.1)) prog)).1⟩,
                  do let _ ← (writeBinary (programOf functions) (toSolution (corrupted.map (·.1)) prog)).2
                     pure (toSolution (corrupted.map (·.1)) prog)) := by
    intro res hres
    unfold runRecovery
    dsimp only
    rw [programOf_eq functions h.distinct, hc]
    dsimp only
    rw [hor, hos, hf1, hr]
    dsimp only
    rw [hw2]
    dsimp only
    rw [hres]
    rfl
  obtain ⟨file2, hfile2⟩ : ∃ f, f = (writeBinary (programOf functions) (toSolution (corrupted.map (·.1)) prog2)).1 := ⟨_, rfl⟩
  rw [← hfile2] at hrun sol2
  constructor
  · intro hstages
    have hst2 : ∀ k, HasOriginals (originalsOf dec functions) (afterPasses (originalsOf dec functions)
        (bare ((orig.map (·.address)).map fun a : Nat => (a : Int)) prog2) k) :=
      fun k => has_same (same_symm (hstage k)) (hstages k)
    obtain ⟨N, _, _, hcase⟩ := run_aux (originalsOf dec functions) _ _ hkeys hdefO hnodO os _ prog2 le_rfl whole2
      (by omega) hst2 1 fuel (by omega)
    rw [← hmeta, ← haddr] at hcase
    rcases hcase with ⟨_, he⟩ | ⟨⟨t, ht, ht1⟩, prog3, hloop, hsame3, hstored⟩
    · exact ⟨_, _, hrun _ he, Or.inr ⟨hmany, ⟨_, rfl, sol2⟩, Or.inl ⟨rfl, rfl⟩⟩⟩
    · have c3 : CameFrom prog3 prog2 := loop_seen fuel (1, prog2, true) _ (by simp; omega) (by show os.length = prog2.length; omega) hloop
      have hl3 : prog3.length = prog2.length := c3.length_eq
      have hal3 : ((corrupted.map (·.1)).map fun a : Nat => (a : Int)).length = prog3.length := by simp; omega
      have known3 := Known.from c3 known2
      have hsev : ∃ v ∈ prog3, 1 < v.length := by
        by_contra hcon
        push Not at hcon
        have := one_same hsame3 (by
          intro t ht
          obtain ⟨i, hi, rfl⟩ := List.mem_iff_getElem.1 ht
          rw [bare_length hal3] at hi
          rw [bare_nth hal3 i hi, List.length_map]
          exact hcon _ (List.getElem_mem _)) t ht
        omega
      have hhas3 : HasOriginals (originalsOf dec functions) (bare ((corrupted.map (·.1)).map fun a : Nat => (a : Int)) prog3) := by
        refine has_same (same_symm hsame3) ?_
        rw [haddr]
        exact hst2 N
      have held3 : List.Forall₂ (fun (i : CInst) v => ∃ x ∈ v, x.data.c = (dec i.address i.encoding).cand) orig prog3 := by
        apply forall₂_of_getElem (by omega)
        intro i h1 h2
        obtain ⟨v, hv, x, hx, e⟩ := hhas3 ((orig[i].address : Int), (dec orig[i].address orig[i].encoding).cand.m)
          (by rw [hO]; exact List.mem_map.2 ⟨_, List.getElem_mem h1, rfl⟩)
        have hvi : v = prog3[i].map (·.data.c) := by
          have hn : ((bare ((corrupted.map (·.1)).map fun a : Nat => (a : Int)) prog3).map (·.1)).Nodup := by
            rw [bare_fst hal3, haddr]; exact whole2.nodup
          have hm := List.getElem_mem (l := bare ((corrupted.map (·.1)).map fun a : Nat => (a : Int)) prog3) (n := i)
            (by rw [bare_length hal3]; exact h2)
          rw [bare_nth hal3 i h2] at hm
          refine (Prod.mk.inj (List.inj_on_of_nodup_map hn hv hm ?_)).2
          have := congrArg (fun l => l[i]?) haddr
          have h1' : i < corrupted.length := by omega
          simp only [List.getElem_map]
          have hat : corrupted[i].1 = orig[i].address := by simpa [h1', h1] using this
          rw [hat]
        subst hvi
        obtain ⟨y, hy, rfl⟩ := List.mem_map.1 hx
        have he := known_enc henc (forall₂_getElem known3 i h1 h2) hy e
        exact ⟨y, hy, by rw [(forall₂_getElem known3 i h1 h2).c y hy, he]⟩
      have hfin := finish_safe dec orig hnodup prog3 hstored hdefd held3 henc hregs known3 hsev
      rw [← haddr] at hfin
      rcases hfin with hz | ⟨prog4, hok, c4, pres4⟩
      · refine ⟨⟨some file2, none⟩, .error .zeroDiv,
          (hrun _ hloop).trans ?_, Or.inr ⟨hmany, ⟨_, rfl, sol2⟩, Or.inl ⟨rfl, rfl⟩⟩⟩
        dsimp only
        rw [hz]
      · have c : CameFrom prog4 prog1 := c4.trans (c3.trans c2)
        have hw4 := write_safe functions corrupted h orig ho.symm haddr dec prog4 (by rw [hf1]; exact c) pres4
        have w4 : Within prog4 prog1 := c.imp fun v w hvw x hx => by
          obtain ⟨y, hy, e1, e2, _⟩ := hvw.2 x hx
          exact ⟨y, hy, e1, e2⟩
        have sol4 := written_solution functions corrupted hk prog1 prog4 hfirst w4 hw4
        obtain ⟨file4, hfile4⟩ : ∃ f, f = (writeBinary (programOf functions) (toSolution (corrupted.map (·.1)) prog4)).1 := ⟨_, rfl⟩
        rw [← hfile4] at sol4
        refine ⟨⟨some file2, some file4⟩,
          .ok (toSolution (corrupted.map (·.1)) prog4),
          (hrun _ hloop).trans ?_, Or.inr ⟨hmany, ⟨_, rfl, sol2⟩, Or.inr ⟨_, _, rfl, sol4, rfl, ?_⟩⟩⟩
        · dsimp only
          rw [hok]
          dsimp only
          rw [hw4, ← hfile4]
          rfl
        · intro c hcm
          have hco : c ∈ orig := (hmem c).2 hcm
          obtain ⟨k, hk1, rfl⟩ := List.mem_iff_getElem.1 hco
          have h4 : k < prog4.length := by rw [← pres4.length_eq]; exact hk1
          have h1 : k < corrupted.length := by omega
          obtain ⟨x, hx, hxe⟩ := forall₂_getElem pres4 k hk1 h4
          refine ⟨(orig[k].address, prog4[k].map fun x => ⟨x.enc, orig[k].address⟩), ?_, rfl, ?_⟩
          · unfold toSolution
            rw [haddr]
            refine List.mem_map.2 ⟨(orig[k].address, prog4[k]), ?_, rfl⟩
            rw [List.mem_iff_getElem]
            exact ⟨k, by simp; omega, by simp⟩
          · refine List.mem_map.2 ⟨x, hx, ?_⟩
            rw [hxe]
  · intro files left hleft k
    by_contra hn
    have hn2 : ¬ HasOriginals (originalsOf dec functions) (afterPasses (originalsOf dec functions)
        (bare ((orig.map (·.address)).map fun a : Nat => (a : Int)) prog2) k) :=
      fun hh => hn (has_same (hstage k) hh)
    rcases C41_recovery (collectMeta {} (os.map (·.data.c.m)))
      (functionsToList (fun i : CInst => (i.address : Int)) functions).2
      ((corrupted.map (·.1)).map fun a : Nat => (a : Int)) os prog2 (by omega)
      (by simp; omega) fuel (by omega) with ⟨e, he⟩ | ⟨p, prog3, hloop, _, _, hsev⟩
    · rw [hrun _ he] at hleft
      cases hleft
    · have hloop' := hloop
      rw [hmeta, haddr] at hloop'
      have hno := run_lost (originalsOf dec functions) _ _ hkeys hdefO hnodO os k prog2 whole2 (by omega) hn2 1 fuel _ hloop'
      have c3 : CameFrom prog3 prog2 := loop_seen fuel (1, prog2, true) _ (by simp; omega) (by show os.length = prog2.length; omega) hloop
      have hl3 : prog3.length = prog2.length := c3.length_eq
      rw [hrun _ hloop] at hleft
      dsimp only at hleft
      cases hfin : finishRun dec orig (corrupted.map (·.1)) prog3 with
      | none => rw [hfin] at hleft; cases hleft
      | some r =>
        rw [hfin] at hleft
        cases r with
        | error e => cases hleft
        | ok prog4 =>
          have c4 : CameFrom prog4 prog3 := finish_from (by simp; omega) hfin
          have hl4 : prog4.length = prog3.length := c4.length_eq
          have known4 := Known.from (c4.trans c3) known2
          simp only [Option.some.injEq, Prod.mk.injEq] at hleft
          obtain ⟨_, hw4, _⟩ := except_bind_ok hleft.2
          have hw4' := ((C28_write_iff _ _).1 hw4).2
          have hal4 : ((orig.map (·.address)).map fun a : Nat => (a : Int)).length = prog4.length := by simp; omega
          have hal3 : ((orig.map (·.address)).map fun a : Nat => (a : Int)).length = prog3.length := by simp; omega
          refine hno (has_within hal3 c4 ?_)
          rw [hO]
          intro q hq
          obtain ⟨c, hc, rfl⟩ := List.mem_map.1 hq
          obtain ⟨i, hi, rfl⟩ := List.mem_iff_getElem.1 hc
          have i4 : i < prog4.length := by omega
          obtain ⟨o, os', g1, g2, _⟩ := hw4' (orig[i].address, prog4[i].map fun x => ⟨x.enc, orig[i].address⟩) (by
            unfold toSolution
            rw [haddr]
            refine List.mem_map.2 ⟨(orig[i].address, prog4[i]), ?_, rfl⟩
            rw [List.mem_iff_getElem]
            exact ⟨i, by simp; omega, by simp⟩)
          have hoi : o = orig[i] := by
            have : dictGet (programOf functions) orig[i].address = some [orig[i]] := by
              rw [hpo]
              apply dictGet_of_mem
              · rw [List.map_map]; exact hnodup
              · exact List.mem_map.2 ⟨orig[i], List.getElem_mem _, rfl⟩
            rw [this] at g1
            cases g1
            rfl
          subst hoi
          rw [List.map_map] at g2
          obtain ⟨x, hx, hxe⟩ := List.mem_map.1 g2
          refine ⟨prog4[i].map (·.data.c), ?_, x.data.c, List.mem_map.2 ⟨x, hx, rfl⟩, ?_⟩
          · have := List.getElem_mem (l := bare ((orig.map (·.address)).map fun a : Nat => (a : Int)) prog4) (n := i)
              (by rw [bare_length hal4]; exact i4)
            rw [bare_nth hal4 i i4] at this
            simpa using this
          · rw [(forall₂_getElem known4 i hi i4).c x hx]
            have : x.enc = orig[i].encoding := hxe
            rw [this]

/-- In the example of C94 the first stage discards candidate 30 and no stage loses an original. -/
example : ∀ k, HasOriginals (originalsOf exDec exFunctions) (afterPasses (originalsOf exDec exFunctions)
    (candidatesOf exDec [(0, [⟨30, 0⟩, ⟨11, 0⟩, ⟨10, 0⟩]), (4, [⟨20, 4⟩])]) k) := by
  have h1 : afterPasses (originalsOf exDec exFunctions)
      (candidatesOf exDec [(0, [⟨30, 0⟩, ⟨11, 0⟩, ⟨10, 0⟩]), (4, [⟨20, 4⟩])]) 1 =
      candidatesOf exDec [(0, [⟨11, 0⟩, ⟨10, 0⟩]), (4, [⟨20, 4⟩])] := by decide +kernel
  have h2 : afterPass (originalsOf exDec exFunctions) (candidatesOf exDec [(0, [⟨11, 0⟩, ⟨10, 0⟩]), (4, [⟨20, 4⟩])]) =
      candidatesOf exDec [(0, [⟨11, 0⟩, ⟨10, 0⟩]), (4, [⟨20, 4⟩])] := by decide +kernel
  intro k
  cases k with
  | zero => decide +kernel
  | succ k =>
    have : afterPasses (originalsOf exDec exFunctions)
      (candidatesOf exDec [(0, [⟨30, 0⟩, ⟨11, 0⟩, ⟨10, 0⟩]), (4, [⟨20, 4⟩])]) (k + 1) =
      candidatesOf exDec [(0, [⟨11, 0⟩, ⟨10, 0⟩]), (4, [⟨20, 4⟩])] := by
      induction k with
      | zero => exact h1
      | succ k ih => rw [afterPasses, ih, h2]
    rw [this]
    decide +kernel

/-- In the example of `C94_lost_refuted` the first stage loses the original of the first address. -/
example : ¬ HasOriginals (originalsOf lossDec [[⟨10, 0⟩, ⟨20, 4⟩, ⟨30, 8⟩]])
    (afterPasses (originalsOf lossDec [[⟨10, 0⟩, ⟨20, 4⟩, ⟨30, 8⟩]])
      (candidatesOf lossDec [(0, [⟨10, 0⟩, ⟨11, 0⟩]), (4, [⟨20, 4⟩, ⟨21, 4⟩]), (8, [⟨30, 8⟩, ⟨31, 8⟩])]) 1) := by
  decide +kernel

end Verif
