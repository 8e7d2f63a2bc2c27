import Verif.Proof.RunSafe

/-! # C93: what a whole run of the recovery leaves in its files -/

namespace Verif
namespace Spec

/-- The program given to the corruptor: every instruction of the functions alone at its
address, in the order of addresses. -/
def programOf (functions : List (List CInst)) : Program :=
  (functions.flatten.insertionSort fun i j => (i.address : Int) ≤ j.address).map fun i => (i.address, [i])

/-- The instructions of the functions have different addresses. -/
def DistinctAddresses (functions : List (List CInst)) : Prop :=
  (functions.flatten.map (·.address)).Nodup

/-- A file is a solution for a corrupted program: reading it succeeds and gives the
addresses of the corrupted program in their order; at every one of them the original is
that of the functions, the candidates are among those of the corrupted program, and the
original is the last of them and only there. -/
def SolutionFor (functions : List (List CInst)) (corrupted : Program) (file : Bytes) : Prop :=
  ∃ o s, readSolution file = .ok (o, s) ∧
    o.map (·.1) = corrupted.map (·.1) ∧ s.map (·.1) = corrupted.map (·.1) ∧
    ∀ q ∈ corrupted, ∃ c ∈ functions.flatten, c.address = q.1 ∧ dictGet o q.1 = some [⟨c.encoding, q.1⟩] ∧
      ∃ others : List Nat, dictGet s q.1 = some ((others ++ [c.encoding]).map fun e => ⟨e, q.1⟩) ∧
        c.encoding ∉ others ∧ ∀ e ∈ others ++ [c.encoding], ∃ i ∈ q.2, i.encoding = e

end Spec
open Spec

theorem upTo_split {e : Nat} {l : List Nat} (h : e ∈ l) :
    ∃ others, upTo e l = others ++ [e] ∧ e ∉ others ∧ ∀ x ∈ others ++ [e], x ∈ l := by
  induction l with
  | nil => simp at h
  | cons x xs ih =>
    unfold upTo
    split
    · rename_i hx
      exact ⟨[], by simp [hx], by simp, by simp [hx]⟩
    · rename_i hx
      have h' : e ∈ xs := by
        rcases List.mem_cons.1 h with h | h
        · exact absurd h.symm hx
        · exact h
      obtain ⟨o, h1, h2, h3⟩ := ih h'
      refine ⟨x :: o, by rw [h1]; rfl, ?_, ?_⟩
      · simp only [List.mem_cons, not_or]
        exact ⟨fun e => hx e.symm, h2⟩
      · intro y hy
        rcases List.mem_cons.1 hy with rfl | hy
        · simp
        · exact List.mem_cons_of_mem _ (h3 y hy)

theorem toSolution_keys {addrs : List Nat} {prog : List (List (RInst Scored))} (h : addrs.length = prog.length) :
    (toSolution addrs prog).map (·.1) = addrs := by
  unfold toSolution
  rw [List.map_map]
  exact List.map_fst_zip (by omega)

/-- What was written for a part of the candidates of a corrupted program is a solution
for it. -/
theorem written_solution (functions : List (List CInst))
    (corrupted : Program) (hk : (corrupted.map (·.1)).Nodup) (first prog : List (List (RInst Scored)))
    (hfirst : first.map (List.map fun x : RInst Scored => x.enc) = corrupted.map fun q => q.2.map (·.encoding))
    (hw : Within prog first)
    (h : (writeBinary (programOf functions) (toSolution (corrupted.map (·.1)) prog)).2 = .ok ()) :
    SolutionFor functions corrupted (writeBinary (programOf functions) (toSolution (corrupted.map (·.1)) prog)).1 := by
  have hlf : first.length = corrupted.length := by simpa using congrArg List.length hfirst
  have hlp : (corrupted.map (·.1)).length = prog.length := by
    rw [List.length_map, hw.length_eq, hlf]
  have hkeys := toSolution_keys hlp
  have hk' : ((toSolution (corrupted.map (·.1)) prog).map (·.1)).Nodup := by rw [hkeys]; exact hk
  obtain ⟨o, s, r1, _, r3, r4, r5⟩ := C26_read_written _ _ hk' h []
  rw [List.append_nil] at r1
  rw [hkeys] at r3 r4
  refine ⟨o, s, r1, r4, r3, ?_⟩
  intro q hq
  obtain ⟨i, hi, rfl⟩ := List.mem_iff_getElem.1 hq
  have hip : i < prog.length := by rw [← hlp]; simpa using hi
  have hif : i < first.length := by omega
  have hmem : (corrupted[i].1, prog[i].map fun x => (⟨x.enc, corrupted[i].1⟩ : CInst)) ∈
      toSolution (corrupted.map (·.1)) prog := by
    unfold toSolution
    rw [List.mem_map]
    refine ⟨(corrupted[i].1, prog[i]), ?_, rfl⟩
    rw [List.mem_iff_getElem]
    exact ⟨i, by simp; omega, by simp⟩
  obtain ⟨_, hall⟩ := (C28_write_iff _ _).1 h
  obtain ⟨c, l, g1, g2, _⟩ := hall _ hmem
  have hcm := dictGet_mem g1
  unfold programOf at hcm
  obtain ⟨c', hc', e⟩ := List.mem_map.1 hcm
  simp only [Prod.mk.injEq, List.cons.injEq] at e
  obtain ⟨e1, e2, e3⟩ := e
  subst e2
  have hcf : c' ∈ functions.flatten := (List.mem_insertionSort _).1 hc'
  refine ⟨c', hcf, e1, ?_⟩
  have hget := dictGet_of_mem hk' hmem
  obtain ⟨⟨cs', k1, k2, k3⟩, k4⟩ := r5 _ _ _ _ hget g1
  refine ⟨k4, ?_⟩
  obtain ⟨others, u1, u2, u3⟩ := upTo_split g2
  simp only [List.map_map] at k2 u1 u3
  refine ⟨others, ?_, u2, ?_⟩
  · have hcs : ∀ (k : Nat) (l : List CInst), (∀ i ∈ l, i.address = k) →
        l = (l.map (·.encoding)).map fun e => (⟨e, k⟩ : CInst) := by
      intro k l hl
      rw [List.map_map]
      conv_lhs => rw [← List.map_id l]
      apply List.map_congr_left
      intro x hx
      have := hl x hx
      cases x
      simp only at this
      subst this
      rfl
    rw [k1, hcs _ cs' k3, k2, ← u1]
  · intro y hy
    have hy' := u3 y hy
    obtain ⟨x, hx, rfl⟩ := List.mem_map.1 hy'
    obtain ⟨z, hz, hz1, _⟩ := forall₂_getElem hw i hip hif x hx
    have hq : (first[i].map fun x : RInst Scored => x.enc) = corrupted[i].2.map (·.encoding) := by
      have := congrArg (fun l => l[i]?) hfirst
      simpa [hif, hi] using this
    have : z.enc ∈ corrupted[i].2.map (·.encoding) := by
      rw [← hq]; exact List.mem_map.2 ⟨z, hz, rfl⟩
    obtain ⟨w, hw1, hw2⟩ := List.mem_map.1 this
    exact ⟨w, hw1, by simp only [Function.comp]; rw [hw2, hz1]⟩

theorem programOf_eq (functions : List (List CInst)) (hd : DistinctAddresses functions) :
    toDict (functionsToList (fun i : CInst => (i.address : Int)) functions).1 = programOf functions := by
  rw [toDict_map]
  · rfl
  · unfold functionsToList
    have := (List.perm_insertionSort (fun i j : CInst => (i.address : Int) ≤ j.address) functions.flatten).map (·.address)
    exact this.nodup_iff.2 hd

/-- **C93**: whatever the corruptor and the instructions do, a run that completes has
written two files, both solutions for the corrupted program; the candidates it leaves
are, at the addresses of the corrupted program, among those of the corrupted program,
and at some address several are left. -/
theorem C93_run_sound (dec : Nat → Nat → Answers) (corrupt : Program → Py Program) (fuel : Nat)
    (functions : List (List CInst)) (hd : DistinctAddresses functions) (corrupted : Program)
    (hc : corrupt (programOf functions) = .ok corrupted) (hk : (corrupted.map (·.1)).Nodup)
    (files : Files) (left : Program) (h : runRecovery dec corrupt fuel functions = some (files, .ok left)) :
    (∃ f, files.initial = some f ∧ SolutionFor functions corrupted f) ∧
    (∃ f, files.final = some f ∧ SolutionFor functions corrupted f) ∧
    List.Forall₂ (fun l q => l.1 = q.1 ∧ ∀ i ∈ l.2, i.address = q.1 ∧ ∃ j ∈ q.2, j.encoding = i.encoding)
      left corrupted ∧
    ∃ l ∈ left, 1 < l.2.length := by
  unfold runRecovery at h
  dsimp only at h
  rw [programOf_eq functions hd, hc] at h
  dsimp only at h
  generalize hf1 : (corrupted.map fun q => q.2.map fun i : CInst => decoded dec q.1 i.encoding) = prog1 at h
  have hfirst : prog1.map (List.map fun x : RInst Scored => x.enc) = corrupted.map fun q => q.2.map (·.encoding) := by
    rw [← hf1, List.map_map]
    apply List.map_congr_left
    intro q _
    simp only [Function.comp, List.map_map]
    apply List.map_congr_left
    intro i _
    rfl
  have hl1 : prog1.length = corrupted.length := by rw [← hf1, List.length_map]
  generalize hos : ((functionsToList (fun i : CInst => (i.address : Int)) functions).1.map
    fun i => decoded dec i.address i.encoding) = os at h
  cases hr : printReport os prog1 with
  | error e => rw [hr] at h; simp at h
  | ok r =>
    obtain ⟨r, prog2⟩ := r
    rw [hr] at h
    dsimp only at h
    obtain ⟨g1, g2, _⟩ := printReport_perm hr
    have hl2 : prog2.length = corrupted.length := by rw [g2.length_eq, hl1]
    have hw2 := within_of_perm g2
    split at h
    · simp at h
    · rename_i hwr
      have hwr : (writeBinary (programOf functions) (toSolution (corrupted.map (·.1)) prog2)).2 = .ok () := hwr
      -- as many originals as addresses
      have hlen : os.length = prog2.length := by
        have hle : corrupted.length ≤ os.length := by
          obtain ⟨_, hall⟩ := (C28_write_iff _ _).1 hwr
          have hsub : ∀ a ∈ corrupted.map (·.1), a ∈ (programOf functions).map (·.1) := by
            intro a ha
            rw [← toSolution_keys (addrs := corrupted.map (·.1)) (prog := prog2) (by simp; omega)] at ha
            obtain ⟨q, hq, rfl⟩ := List.mem_map.1 ha
            obtain ⟨o, l, e, _⟩ := hall q hq
            exact List.mem_map.2 ⟨_, dictGet_mem e, rfl⟩
          have := (List.subperm_of_subset hk hsub).length_le
          rw [← hos]
          unfold programOf at this
          simpa [functionsToList] using this
        omega
      split at h
      · simp at h
      · simp at h
      · rename_i s hloop
        have hw3 : Within s.2.1 prog2 := by
          refine loop_within _ os ?_ fuel _ _ _ _ hlen hloop
          have := recuperate_keeps (collectMeta {} (os.map (·.data.c.m)))
            (functionsToList (fun i : CInst => (i.address : Int)) functions).2
            ((corrupted.map (·.1)).map fun a : Nat => (a : Int))
          rwa [show ((corrupted.map (·.1)).map fun a : Nat => (a : Int)).length = os.length by simp; omega] at this
        split at h
        · simp at h
        · simp at h
        · rename_i prog3 hfin
          simp only [Option.some.injEq, Prod.mk.injEq] at h
          obtain ⟨rfl, h⟩ := h
          obtain ⟨hw4, v, hv, hv1⟩ := finishRun_within dec _ _ _ _ (by rw [hw3.length_eq]; simp; omega) hfin
          have hw : Within prog3 prog1 := hw4.trans (hw3.trans hw2)
          cases hlast : (writeBinary (programOf functions) (toSolution (corrupted.map (·.1)) prog3)).2 with
          | error e => rw [hlast] at h; simp [bind, Except.bind] at h
          | ok u =>
            rw [hlast] at h
            simp only [bind, Except.bind, pure, Except.pure, Except.ok.injEq] at h
            subst h
            have hl3 : prog3.length = corrupted.length := by rw [hw.length_eq, hl1]
            refine ⟨⟨_, rfl, written_solution functions corrupted hk prog1 prog2 hfirst hw2 hwr⟩,
              ⟨_, rfl, written_solution functions corrupted hk prog1 prog3 hfirst hw hlast⟩, ?_, ?_⟩
            · apply forall₂_of_getElem
              · simp [toSolution, hl3]
              · intro i h1 h2
                have h3 : i < prog3.length := by omega
                have h4 : i < prog1.length := by omega
                simp only [toSolution, List.getElem_map, List.getElem_zip]
                refine ⟨trivial, ?_⟩
                intro c hcm
                obtain ⟨x, hx, rfl⟩ := List.mem_map.1 hcm
                refine ⟨rfl, ?_⟩
                obtain ⟨z, hz, hz1, _⟩ := forall₂_getElem hw i h3 h4 x hx
                have hq : (prog1[i].map fun x : RInst Scored => x.enc) = corrupted[i].2.map (·.encoding) := by
                  have := congrArg (fun l => l[i]?) hfirst
                  simpa [h4, h2] using this
                have : z.enc ∈ corrupted[i].2.map (·.encoding) := by
                  rw [← hq]; exact List.mem_map.2 ⟨z, hz, rfl⟩
                obtain ⟨w, hw1, hw2⟩ := List.mem_map.1 this
                exact ⟨w, hw1, by simp only; rw [hw2, hz1]⟩
            · obtain ⟨i, hi, rfl⟩ := List.mem_iff_getElem.1 hv
              refine ⟨(corrupted[i].1, prog3[i].map fun x => ⟨x.enc, corrupted[i].1⟩), ?_, by simpa using hv1⟩
              unfold toSolution
              rw [List.mem_map]
              refine ⟨(corrupted[i].1, prog3[i]), ?_, rfl⟩
              rw [List.mem_iff_getElem]
              exact ⟨i, by simp; omega, by simp⟩

/-! ### C94: runs that keep the originals -/

namespace Spec

/-- A corrupted program that can be recovered: the functions are made of consecutive
instructions with different addresses, the corruptor kept the addresses in order and
the original among the candidates of every one, and the numbers fit 32 bits. -/
structure Recoverable (functions : List (List CInst)) (corrupted : Program) : Prop where
  some : functions ≠ []
  filled : ∀ f ∈ functions, f ≠ []
  consecutive : ∀ f ∈ functions, ∀ (k : Nat) (h : k < f.length), f[k].address = (f[0]'(by omega)).address + 4 * k
  distinct : DistinctAddresses functions
  same : corrupted.map (·.1) = (programOf functions).map (·.1)
  present : ∀ q ∈ corrupted, ∀ c ∈ functions.flatten, c.address = q.1 → ∃ i ∈ q.2, i.encoding = c.encoding
  count : corrupted.length < 2 ^ 32
  fits : ∀ q ∈ corrupted, q.1 < 2 ^ 32 ∧ q.2.length < 2 ^ 32 ∧ ∀ i ∈ q.2, i.encoding < 2 ^ 32

/-- What is asked of an original instruction `c` among the candidates `v` of its address: it is
defined, uses no register twice and writes or reads only registers it uses, and a candidate
printed like it answers like it. -/
structure Clear (dec : Nat → Nat → Answers) (c : CInst) (v : List CInst) : Prop where
  defined : (dec c.address c.encoding).cand.m.ignore = false
  nodup : (dec c.address c.encoding).cand.m.used.Nodup
  regs : ∀ r ∈ (dec c.address c.encoding).regs, r ∈ (dec c.address c.encoding).cand.m.used
  printed : ∀ i ∈ v, (dec c.address i.encoding).str = (dec c.address c.encoding).str →
    (dec c.address i.encoding).cand.m.ignore = (dec c.address c.encoding).cand.m.ignore ∧
    (dec c.address i.encoding).cand.m.opcode = (dec c.address c.encoding).cand.m.opcode ∧
    (dec c.address i.encoding).cand.m.cond = (dec c.address c.encoding).cand.m.cond ∧
    (dec c.address i.encoding).cand.m.used = (dec c.address c.encoding).cand.m.used

/-- What is asked of an original instruction `c` among the candidates `v` of its address,
so that the evidence never speaks against it: it is defined, it is no push or pop that
does not branch, and no ordinary candidate uses only some of its registers.  A candidate
printed like it answers like it. -/
structure Undisputed (dec : Nat → Nat → Answers) (c : CInst) (v : List CInst) : Prop where
  defined : (dec c.address c.encoding).cand.m.ignore = false
  nodup : (dec c.address c.encoding).cand.m.used.Nodup
  shape : (dec c.address c.encoding).cand.isBranch = true ∨ (dec c.address c.encoding).cand.isPushPop = false
  fewer : ∀ i ∈ v, (dec c.address i.encoding).cand.m.ignore = false →
    ((dec c.address i.encoding).cand.isBranch || (dec c.address i.encoding).cand.isPushPop) = false →
    (∀ r ∈ (dec c.address i.encoding).cand.m.used, r ∈ (dec c.address c.encoding).cand.m.used) →
    ((dec c.address c.encoding).cand.isBranch || (dec c.address c.encoding).cand.isPushPop) = false ∧
      ∀ r ∈ (dec c.address c.encoding).cand.m.used, r ∈ (dec c.address i.encoding).cand.m.used
  regs : ∀ r ∈ (dec c.address c.encoding).regs, r ∈ (dec c.address c.encoding).cand.m.used
  printed : ∀ i ∈ v, (dec c.address i.encoding).str = (dec c.address c.encoding).str →
    (dec c.address i.encoding).cand.m.ignore = (dec c.address c.encoding).cand.m.ignore ∧
    (dec c.address i.encoding).cand.m.opcode = (dec c.address c.encoding).cand.m.opcode ∧
    (dec c.address i.encoding).cand.m.cond = (dec c.address c.encoding).cand.m.cond ∧
    (dec c.address i.encoding).cand.m.used = (dec c.address c.encoding).cand.m.used

end Spec

theorem clear_start (dec : Nat → Nat → Answers) (functions : List (List CInst)) (corrupted : Program)
    (h : Recoverable functions corrupted)
    (hu : ∀ q ∈ corrupted, ∀ c ∈ functions.flatten, c.address = q.1 → Clear dec c q.2)
    (prog : List (List (RInst Scored)))
    (hp : List.Forall₂ List.Perm prog (corrupted.map fun q => q.2.map fun i => decoded dec q.1 i.encoding))
    (orig : List CInst) (ho : orig = functions.flatten.insertionSort fun i j => (i.address : Int) ≤ j.address)
    (haddr : corrupted.map (·.1) = orig.map (·.address)) :
    Whole (functionsToList (fun i : CInst => (i.address : Int)) functions).2
      ((orig.map (·.address)).map fun a : Nat => (a : Int)) prog ∧
    List.Forall₂ (Known dec) orig prog ∧
    List.Forall₂ (fun (i : CInst) v => ∃ x ∈ v, x.data.c = (dec i.address i.encoding).cand) orig prog := by
  have hmem : ∀ c, c ∈ orig ↔ c ∈ functions.flatten := by
    intro c; rw [ho]; exact List.mem_insertionSort _
  have hlc : corrupted.length = orig.length := by simpa using congrArg List.length haddr
  have hlp : prog.length = orig.length := by rw [hp.length_eq, List.length_map, hlc]
  have hat : ∀ (i : Nat) (h1 : i < corrupted.length) (h2 : i < orig.length), orig[i].address = corrupted[i].1 := by
    intro i h1 h2
    have := congrArg (fun l => l[i]?) haddr
    simpa [h1, h2] using this.symm
  have hperm : ∀ (i : Nat) (h1 : i < prog.length) (h2 : i < corrupted.length) (h3 : i < orig.length),
      ∀ x, x ∈ prog[i] ↔ ∃ j ∈ corrupted[i].2, decoded dec orig[i].address j.encoding = x := by
    intro i h1 h2 h3 x
    have := forall₂_getElem hp i h1 (by simpa using h2)
    rw [List.getElem_map] at this
    rw [this.mem_iff, List.mem_map, hat i h2 h3]
  have hund : ∀ (i : Nat) (h1 : i < corrupted.length) (h2 : i < orig.length), Clear dec orig[i] corrupted[i].2 := by
    intro i h1 h2
    exact hu _ (List.getElem_mem _) _ ((hmem _).1 (List.getElem_mem _)) (hat i h1 h2)
  have hpres : ∀ (i : Nat) (h1 : i < prog.length) (h3 : i < orig.length),
      decoded dec orig[i].address orig[i].encoding ∈ prog[i] := by
    intro i h1 h3
    have h2 : i < corrupted.length := by omega
    obtain ⟨j, hj, e⟩ := h.present _ (List.getElem_mem h2) _ ((hmem _).1 (List.getElem_mem h3)) (hat i h2 h3)
    exact (hperm i h1 h2 h3 _).2 ⟨j, hj, by rw [e]⟩
  have hnodup : (orig.map (·.address)).Nodup := by
    have := (List.perm_insertionSort (fun i j : CInst => (i.address : Int) ≤ j.address) functions.flatten).map (·.address)
    rw [ho]
    exact this.nodup_iff.2 h.distinct
  -- starts of functions
  have hstart : ∀ f ∈ functions, ∀ a : Int, startAddr (fun i : CInst => (i.address : Int)) f = a →
      ∃ (hl : 0 < f.length), (f[0].address : Int) = a := by
    intro f hf a e
    cases f with
    | nil => exact absurd rfl (h.filled _ hf)
    | cons c f => exact ⟨by simp, e⟩
  have hinaddr : ∀ f ∈ functions, ∀ (k : Nat) (hk : k < f.length),
      ((f[k].address : Nat) : Int) ∈ (orig.map (·.address)).map fun a : Nat => (a : Int) := by
    intro f hf k hk
    refine List.mem_map.2 ⟨_, List.mem_map.2 ⟨f[k], ?_, rfl⟩, rfl⟩
    exact (hmem _).2 (List.mem_flatten.2 ⟨f, hf, List.getElem_mem _⟩)
  refine ⟨⟨?_, ?_, ?_, ?_, ?_, ?_, ?_⟩, ?_, ?_⟩
  · exact hnodup.map (fun a b (e : (a : Int) = b) => by exact_mod_cast e)
  · simp [hlp]
  · intro he
    simp only [List.map_eq_nil_iff] at he
    obtain ⟨f, hf⟩ := List.exists_mem_of_ne_nil _ h.some
    obtain ⟨c, hc⟩ := List.exists_mem_of_ne_nil _ (h.filled f hf)
    have := (hmem c).2 (List.mem_flatten.2 ⟨f, hf, hc⟩)
    rw [he] at this
    simp at this
  · intro a ha
    rw [dictGet_isSome]
    unfold functionsToList
    refine ((fold_starts _ functions [] a).1).2 (Or.inr ?_)
    cases hor : orig with
    | nil => rw [hor] at ha; simp at ha
    | cons c cs =>
      rw [hor] at ha
      simp only [List.map_cons, List.head?_cons, Option.some.injEq] at ha
      have hc : c ∈ functions.flatten := (hmem c).1 (by rw [hor]; simp)
      obtain ⟨f, hf, hcf⟩ := List.mem_flatten.1 hc
      obtain ⟨k, hk, rfl⟩ := List.mem_iff_getElem.1 hcf
      have hcons := h.consecutive f hf k hk
      have h0 : 0 < f.length := by omega
      -- the start of the function is in the program too, so it is not lower
      have hsorted : orig.Pairwise fun i j => (i.address : Int) ≤ j.address := by
        rw [ho]
        haveI : Std.Total fun i j : CInst => (i.address : Int) ≤ j.address := ⟨fun i j => by omega⟩
        haveI : IsTrans CInst fun i j : CInst => (i.address : Int) ≤ j.address := ⟨fun i j k => by omega⟩
        exact List.pairwise_insertionSort _ _
      rw [hor, List.pairwise_cons] at hsorted
      have hf0 : f[0] ∈ orig := (hmem _).2 (List.mem_flatten.2 ⟨f, hf, List.getElem_mem _⟩)
      have hle : (f[k].address : Int) ≤ f[0].address := by
        rw [hor] at hf0
        rcases List.mem_cons.1 hf0 with e | e
        · rw [e]
        · exact hsorted.1 _ e
      refine ⟨f, hf, ?_⟩
      have : f[k].address = f[0].address := by omega
      rw [← ha, this]
      cases f with
      | nil => simp at h0
      | cons c f => rfl
  · intro a _ st last hg
    unfold functionsToList at hg
    rcases (fold_starts _ functions [] a).2 _ hg with h0 | ⟨f, hf, e1, e2⟩
    · simp [dictGet] at h0
    · obtain ⟨hl, e3⟩ := hstart f hf a e1
      simp only [Prod.mk.injEq] at e2
      have hlast : last = (f[f.length - 1].address : Int) := by
        have := h.consecutive f hf (f.length - 1) (by omega)
        rw [e2.2, this]
        cases f with
        | nil => simp at hl
        | cons c f =>
          simp only [finalAddr, List.length_cons, List.getElem_cons_zero]
          omega
      constructor
      · rw [hlast]
        exact hinaddr f hf _ (by omega)
      · intro b hb
        unfold downRange at hb
        obtain ⟨k, hk, rfl⟩ := List.mem_map.1 hb
        rw [List.mem_range] at hk
        have h1 := h.consecutive f hf (f.length - 1) (by omega)
        have hk' : k < f.length := by omega
        have h2 := h.consecutive f hf (f.length - 1 - k) (by omega)
        have : last - 4 * (k : Int) = (f[f.length - 1 - k].address : Int) := by omega
        rw [this]
        exact hinaddr f hf _ (by omega)
  · intro v hv
    obtain ⟨i, hi, rfl⟩ := List.mem_iff_getElem.1 hv
    exact ⟨_, hpres i hi (by omega), (hund i (by omega) (by omega)).defined⟩
  · intro v hv x hx
    obtain ⟨i, hi, rfl⟩ := List.mem_iff_getElem.1 hv
    obtain ⟨j, _, rfl⟩ := (hperm i hi (by omega) (by omega) x).1 hx
    refine ⟨⟨by simp [decoded], by simp [decoded], by simp [decoded], fun _ => rfl, rfl⟩, fun _ => ⟨rfl, rfl⟩⟩
  · apply forall₂_of_getElem (by omega)
    intro i h1 h2
    have h4 : i < corrupted.length := by omega
    have u := hund i h4 h1
    refine ⟨?_, ?_, ?_⟩
    · intro x hx
      obtain ⟨j, hj, rfl⟩ := (hperm i h2 h4 h1 x).1 hx
      rfl
    · intro x hx
      obtain ⟨j, hj, rfl⟩ := (hperm i h2 h4 h1 x).1 hx
      rfl
    · intro x hx hs
      obtain ⟨j, hj, rfl⟩ := (hperm i h2 h4 h1 x).1 hx
      obtain ⟨p1, p2, p3, p4⟩ := u.printed j hj hs
      exact ⟨p1, p2, p3, p4⟩
  · apply forall₂_of_getElem (by omega)
    intro i h1 h2
    exact ⟨_, hpres i h2 h1, rfl⟩

theorem whole_start (dec : Nat → Nat → Answers) (functions : List (List CInst)) (corrupted : Program)
    (h : Recoverable functions corrupted)
    (hu : ∀ q ∈ corrupted, ∀ c ∈ functions.flatten, c.address = q.1 → Undisputed dec c q.2)
    (prog : List (List (RInst Scored)))
    (hp : List.Forall₂ List.Perm prog (corrupted.map fun q => q.2.map fun i => decoded dec q.1 i.encoding))
    (orig : List CInst) (ho : orig = functions.flatten.insertionSort fun i j => (i.address : Int) ≤ j.address)
    (haddr : corrupted.map (·.1) = orig.map (·.address)) :
    RecInv (orig.map fun i => (dec i.address i.encoding).cand)
      (functionsToList (fun i : CInst => (i.address : Int)) functions).2
      ((orig.map (·.address)).map fun a : Nat => (a : Int)) prog ∧
    List.Forall₂ (Known dec) orig prog := by
  obtain ⟨hw, hk, hpr⟩ := clear_start dec functions corrupted h
    (fun q hq c hc e => ⟨(hu q hq c hc e).defined, (hu q hq c hc e).nodup, (hu q hq c hc e).regs, (hu q hq c hc e).printed⟩)
    prog hp orig ho haddr
  refine ⟨⟨hw, ?_⟩, hk⟩
  have hmem : ∀ c, c ∈ orig ↔ c ∈ functions.flatten := by
    intro c; rw [ho]; exact List.mem_insertionSort _
  have hlc : corrupted.length = orig.length := by simpa using congrArg List.length haddr
  have hlp : prog.length = orig.length := by rw [hp.length_eq, List.length_map, hlc]
  apply forall₂_of_getElem (by simp [hlp])
  intro i h1 h2
  have h3 : i < orig.length := by simpa using h1
  have h4 : i < corrupted.length := by omega
  have hat : orig[i].address = corrupted[i].1 := by
    have := congrArg (fun l => l[i]?) haddr
    simpa [h4, h3] using this.symm
  have u := hu _ (List.getElem_mem h4) _ ((hmem _).1 (List.getElem_mem h3)) hat
  rw [List.getElem_map]
  refine ⟨u.defined, u.nodup, u.shape, ?_, forall₂_getElem hpr i h3 h2⟩
  intro x hx
  have := forall₂_getElem hp i h2 (by simpa using h4)
  rw [List.getElem_map] at this
  rw [this.mem_iff, List.mem_map, ← hat] at hx
  obtain ⟨j, hj, rfl⟩ := hx
  exact u.fewer j hj

theorem held_of_inv {dec : Nat → Nat → Answers} {orig : List CInst} {fns : Fns} {addrs : List Int}
    {p : List (List (RInst Scored))} (h : RecInv (orig.map fun i => (dec i.address i.encoding).cand) fns addrs p) :
    List.Forall₂ (fun (i : CInst) v => ∃ x ∈ v, x.data.c = (dec i.address i.encoding).cand) orig p := by
  have := h.safe
  rw [List.forall₂_map_left_iff] at this
  exact this.imp fun i v hs => hs.present

theorem upTo_length_le (e : Nat) (l : List Nat) : (upTo e l).length ≤ l.length := by
  induction l with
  | nil => simp [upTo]
  | cons x xs ih => unfold upTo; split <;> simp [ih]

theorem upTo_pos {e : Nat} {l : List Nat} (h : e ∈ l) : 0 < (upTo e l).length := by
  obtain ⟨o, h1, _⟩ := upTo_split h
  rw [h1]; simp

theorem write_safe (functions : List (List CInst)) (corrupted : Program) (h : Recoverable functions corrupted)
    (orig : List CInst) (ho : orig = functions.flatten.insertionSort fun i j => (i.address : Int) ≤ j.address)
    (haddr : corrupted.map (·.1) = orig.map (·.address)) (dec : Nat → Nat → Answers)
    (prog : List (List (RInst Scored)))
    (hw : CameFrom prog (corrupted.map fun q => q.2.map fun i => decoded dec q.1 i.encoding))
    (hpres : List.Forall₂ (fun (i : CInst) v => ∃ x ∈ v, x.enc = i.encoding) orig prog) :
    (writeBinary (programOf functions) (toSolution (corrupted.map (·.1)) prog)).2 = .ok () := by
  have hlc : corrupted.length = orig.length := by simpa using congrArg List.length haddr
  have hlp : orig.length = prog.length := hpres.length_eq
  have hpo : programOf functions = orig.map fun i => (i.address, [i]) := by rw [ho]; rfl
  rw [C28_write_iff]
  constructor
  · have := h.count
    simp only [toSolution, List.length_map, List.length_zip]
    omega
  · intro q hq
    unfold toSolution at hq
    obtain ⟨q', hq', rfl⟩ := List.mem_map.1 hq
    obtain ⟨i, hi, rfl⟩ := List.mem_iff_getElem.1 hq'
    simp only [List.length_zip, List.length_map] at hi
    have h1 : i < corrupted.length := by omega
    have h2 : i < orig.length := by omega
    have h3 : i < prog.length := by omega
    have hat : corrupted[i].1 = orig[i].address := by
      have := congrArg (fun l => l[i]?) haddr
      simpa [h1, h2] using this
    simp only [List.getElem_zip, List.getElem_map]
    obtain ⟨x, hx, hxe⟩ := forall₂_getElem hpres i h2 h3
    have hm : orig[i].encoding ∈ (prog[i].map fun x => (⟨x.enc, corrupted[i].1⟩ : CInst)).map (·.encoding) := by
      rw [List.map_map]
      exact List.mem_map.2 ⟨x, hx, hxe⟩
    refine ⟨orig[i], [], ?_, hm, ?_⟩
    · rw [hpo, hat]
      apply dictGet_of_mem
      · rw [List.map_map]
        have := (List.perm_insertionSort (fun i j : CInst => (i.address : Int) ≤ j.address) functions.flatten).map (·.address)
        rw [ho]
        exact this.nodup_iff.2 h.distinct
      · exact List.mem_map.2 ⟨orig[i], List.getElem_mem _, rfl⟩
    · obtain ⟨f1, f2, f3⟩ := h.fits _ (List.getElem_mem h1)
      have hc := forall₂_getElem hw i h3 (by simpa using h1)
      rw [List.getElem_map] at hc
      obtain ⟨others, u1, _, u3⟩ := upTo_split hm
      refine ⟨f1, upTo_pos hm, ?_, ?_⟩
      · have := upTo_length_le orig[i].encoding ((prog[i].map fun x => (⟨x.enc, corrupted[i].1⟩ : CInst)).map (·.encoding))
        have hc1 := hc.1
        simp only [List.length_map] at this hc1
        dsimp only
        omega
      · intro w hw'
        dsimp only at hw'
        rw [u1] at hw'
        have := u3 w hw'
        rw [List.map_map] at this
        obtain ⟨y, hy, rfl⟩ := List.mem_map.1 this
        obtain ⟨z, hz, e, _⟩ := hc.2 y hy
        obtain ⟨j, hj, rfl⟩ := List.mem_map.1 hz
        simp only [Function.comp]
        rw [e]
        exact f3 j hj

/-- **C94** (`_partial`: for originals the evidence does not speak against; see C42 for
what happens to others).  A run on a recoverable program ends.  If every address has at
most one candidate it raises `ZeroDivisionError` before it has written any file.
Otherwise it writes the initial solution, and then either raises `ZeroDivisionError`
without having written the final solution, or completes: both files are solutions for
the corrupted program and the original is among the candidates left at every address. -/
theorem C94_run_partial (dec : Nat → Nat → Answers) (henc : ∀ a e, (dec a e).cand.m.encoding = e)
    (corrupt : Program → Py Program) (functions : List (List CInst)) (corrupted : Program)
    (hc : corrupt (programOf functions) = .ok corrupted) (h : Recoverable functions corrupted)
    (hu : ∀ q ∈ corrupted, ∀ c ∈ functions.flatten, c.address = q.1 → Undisputed dec c q.2)
    (fuel : Nat) (hf : (corrupted.map fun q => q.2.length).sum + 2 ≤ fuel) :
    ∃ files res, runRecovery dec corrupt fuel functions = some (files, res) ∧
      (((∀ q ∈ corrupted, q.2.length ≤ 1) ∧ files = {} ∧ res = .error .zeroDiv) ∨
       ((∃ q ∈ corrupted, 1 < q.2.length) ∧
        (∃ f, files.initial = some f ∧ SolutionFor functions corrupted f) ∧
        ((files.final = none ∧ res = .error .zeroDiv) ∨
         (∃ f left, files.final = some f ∧ SolutionFor functions corrupted f ∧ res = .ok left ∧
          ∀ c ∈ functions.flatten, ∃ l ∈ left, l.1 = c.address ∧ c ∈ l.2)))) := by
  generalize ho : (functions.flatten.insertionSort fun i j => (i.address : Int) ≤ j.address) = orig
  have hpo : programOf functions = orig.map fun i => (i.address, [i]) := by rw [← ho]; rfl
  have hmem : ∀ c, c ∈ orig ↔ c ∈ functions.flatten := by
    intro c; rw [← ho]; exact List.mem_insertionSort _
  have haddr : corrupted.map (·.1) = orig.map (·.address) := by
    rw [h.same, hpo, List.map_map]; rfl
  have hor : (functionsToList (fun i : CInst => (i.address : Int)) functions).1 = orig := ho
  have hlc : corrupted.length = orig.length := by simpa using congrArg List.length haddr
  have hnodup : (orig.map (·.address)).Nodup := by
    have := (List.perm_insertionSort (fun i j : CInst => (i.address : Int) ≤ j.address) functions.flatten).map (·.address)
    rw [← ho]
    exact this.nodup_iff.2 h.distinct
  generalize hf1 : (corrupted.map fun q => q.2.map fun i : CInst => decoded dec q.1 i.encoding) = prog1
  have hl1 : prog1.length = corrupted.length := by rw [← hf1, List.length_map]
  generalize hos : (orig.map fun i => decoded dec i.address i.encoding) = os
  have hlos : os.length = prog1.length := by rw [← hos, List.length_map]; omega
  have hfirst : prog1.map (List.map fun x : RInst Scored => x.enc) = corrupted.map fun q => q.2.map (·.encoding) := by
    rw [← hf1, List.map_map]
    apply List.map_congr_left
    intro q _
    simp only [Function.comp, List.map_map]
    apply List.map_congr_left
    intro i _
    rfl
  rcases printReport_eq os prog1 hlos with ⟨r, hr, e2, e3, _⟩ | ⟨hle, hr⟩
  swap
  · refine ⟨{}, .error .zeroDiv, ?_, Or.inl ⟨?_, rfl, rfl⟩⟩
    · unfold runRecovery
      dsimp only
      rw [programOf_eq functions h.distinct, hc]
      dsimp only
      rw [hor, hos, hf1, hr]
    · intro q hq
      have := hle (q.2.map fun i : CInst => decoded dec q.1 i.encoding)
        (by rw [← hf1]; exact List.mem_map.2 ⟨q, hq, rfl⟩)
      simpa using this
  have hmany : ∃ q ∈ corrupted, 1 < q.2.length := by
    rw [e2, List.countP_pos_iff] at e3
    obtain ⟨l, hl, hl1⟩ := e3
    rw [← hf1] at hl
    obtain ⟨q, hq, rfl⟩ := List.mem_map.1 hl
    exact ⟨q, hq, by simpa using hl1⟩
  generalize (prog1.map (fun l => if 1 < l.length then sortScore l else l)) = prog2 at hr
  obtain ⟨_, perm2, _⟩ := printReport_perm hr
  have hl2 : prog2.length = prog1.length := perm2.length_eq
  have c2 : CameFrom prog2 prog1 := cameFrom_perm perm2
  obtain ⟨inv2, known2⟩ := whole_start dec functions corrupted h hu prog2 (by rw [hf1]; exact perm2) orig ho.symm haddr
  have pres : ∀ {p : List (List (RInst Scored))}, RecInv (orig.map fun i => (dec i.address i.encoding).cand)
      (functionsToList (fun i : CInst => (i.address : Int)) functions).2
      ((orig.map (·.address)).map fun a : Nat => (a : Int)) p → List.Forall₂ (Known dec) orig p →
      List.Forall₂ (fun (i : CInst) v => ∃ x ∈ v, x.enc = i.encoding) orig p := by
    intro p hi hk
    have hl : orig.length = p.length := hk.length_eq
    apply forall₂_of_getElem hl
    intro i h1 h2
    obtain ⟨x, hx, hxo⟩ := (forall₂_getElem hi.safe i (by simpa using h1) h2).present
    refine ⟨x, hx, known_enc henc (forall₂_getElem hk i h1 h2) hx ?_⟩
    rw [hxo, List.getElem_map]
  have hw2 := write_safe functions corrupted h orig ho.symm haddr dec prog2 (by rw [hf1]; exact c2) (pres inv2 known2)
  have hk : (corrupted.map (·.1)).Nodup := by rw [haddr]; exact hnodup
  have sol2 := written_solution functions corrupted hk prog1 prog2 hfirst (within_of_perm perm2) hw2
  -- the loop
  have hmeta : os.map (·.data.c.m) = (orig.map fun i => (dec i.address i.encoding).cand).map (·.m) := by
    rw [← hos, List.map_map, List.map_map]; rfl
  have hsum : (prog2.map List.length).sum = (corrupted.map fun q => q.2.length).sum := by
    have : prog2.map List.length = corrupted.map fun q => q.2.length := by
      have e : prog1.map List.length = corrupted.map fun q => q.2.length := by
        rw [← hf1, List.map_map]
        apply List.map_congr_left
        intro q _
        simp
      rw [← e]
      clear * - perm2
      induction perm2 with
      | nil => rfl
      | cons hp _ ih => simp only [List.map_cons, ih, hp.length_eq]
    rw [this]
  have hrun : ∀ res, recoveryLoop (fun _ p => recuperate (collectMeta {} (os.map (·.data.c.m)))
      (functionsToList (fun i : CInst => (i.address : Int)) functions).2
      ((corrupted.map (·.1)).map fun a : Nat => (a : Int)) p) os fuel prog2 = some res →
      runRecovery dec corrupt fuel functions =
        match (some res : Option (Py (Nat × List (List (RInst Scored)) × Bool))) with
        | none => none
        | some (.error e) => some ({ initial := some (writeBinary (programOf functions)
            (toSolution (corrupted.map (·.1)) prog2)).1 }, .error e)
        | some (.ok s) =>
            match finishRun dec orig (corrupted.map (·.1)) s.2.1 with
            | none => none
            | some (.error e) => some ({ initial := some (writeBinary (programOf functions)
                (toSolution (corrupted.map (·.1)) prog2)).1 }, .error e)
            | some (.ok prog) =>
                some (⟨some (writeBinary (programOf functions) (toSolution (corrupted.map (·.1)) prog2)).1,
                  some (writeBinary (programOf functions) (toSolution (corrupted.map (·.1)) prog)).1⟩,
                  do let _ ← (writeBinary (programOf functions) (toSolution (corrupted.map (·.1)) prog)).2
                     pure (toSolution (corrupted.map (·.1)) prog)) := by
    intro res hres
    unfold runRecovery
    dsimp only
    rw [programOf_eq functions h.distinct, hc]
    dsimp only
    rw [hor, hos, hf1, hr]
    dsimp only
    rw [hw2]
    dsimp only
    rw [hres]
    rfl
  generalize (writeBinary (programOf functions) (toSolution (corrupted.map (·.1)) prog2)).1 = file2 at hrun sol2
  rcases C41_recovery (collectMeta {} (os.map (·.data.c.m)))
    (functionsToList (fun i : CInst => (i.address : Int)) functions).2
    ((corrupted.map (·.1)).map fun a : Nat => (a : Int)) os prog2 (by omega)
    (by simp; omega) fuel (by omega) with ⟨e, he⟩ | ⟨p, prog3, hloop, _, _, hsev⟩
  · have hz : (.error e : Py (Nat × List (List (RInst Scored)) × Bool)) = .error .zeroDiv := by
      have he' := he
      rw [hmeta, haddr] at he'
      rcases loop_safe os fuel 1 true prog2 _ inv2 (by omega) he' with hz | ⟨s, hs, _⟩
      · exact hz
      · cases hs
    simp only [Except.error.injEq] at hz
    subst hz
    refine ⟨_, _, hrun _ he, Or.inr ⟨hmany, ⟨_, rfl, sol2⟩, Or.inl ⟨rfl, rfl⟩⟩⟩
  · have hs := hloop
    rw [hmeta, haddr] at hs
    rcases loop_safe os fuel 1 true prog2 _ inv2 (by omega) hs with hz | ⟨s, hs', inv3, c3⟩
    · cases hz
    · simp only [Except.ok.injEq] at hs'
      subst hs'
      have known3 := Known.from c3 known2
      have hreg : ∀ i ∈ orig, ∀ r ∈ (dec i.address i.encoding).regs, r ∈ (dec i.address i.encoding).cand.m.used := by
        intro i hi
        obtain ⟨k, hk1, rfl⟩ := List.mem_iff_getElem.1 hi
        have h1 : k < corrupted.length := by omega
        have hat : orig[k].address = corrupted[k].1 := by
          have := congrArg (fun l => l[k]?) haddr
          simpa [h1, hk1] using this.symm
        refine (hu _ (List.getElem_mem h1) orig[k] ?_ hat).regs
        exact (hmem _).1 (List.getElem_mem hk1)
      have hdefd : ∀ i ∈ orig, (dec i.address i.encoding).cand.m.ignore = false := by
        intro i hi
        obtain ⟨k, hk1, rfl⟩ := List.mem_iff_getElem.1 hi
        have h1 : k < corrupted.length := by omega
        have hat : orig[k].address = corrupted[k].1 := by
          have := congrArg (fun l => l[k]?) haddr
          simpa [h1, hk1] using this.symm
        refine (hu _ (List.getElem_mem h1) orig[k] ?_ hat).defined
        exact (hmem _).1 (List.getElem_mem hk1)
      have hfin := finish_safe dec orig hnodup prog3 inv3.whole.stored hdefd (held_of_inv inv3) henc hreg known3 hsev
      rw [← haddr] at hfin
      rcases hfin with hz | ⟨prog4, hok, c4, pres4⟩
      · refine ⟨⟨some file2, none⟩, .error .zeroDiv,
          (hrun _ hloop).trans ?_, Or.inr ⟨hmany, ⟨_, rfl, sol2⟩, Or.inl ⟨rfl, rfl⟩⟩⟩
        dsimp only
        rw [hz]
      · have c : CameFrom prog4 prog1 := c4.trans (c3.trans c2)
        have hw4 := write_safe functions corrupted h orig ho.symm haddr dec prog4 (by rw [hf1]; exact c) pres4
        have w4 : Within prog4 prog1 := c.imp fun v w hvw x hx => by
          obtain ⟨y, hy, e1, e2, _⟩ := hvw.2 x hx
          exact ⟨y, hy, e1, e2⟩
        have sol4 := written_solution functions corrupted hk prog1 prog4 hfirst w4 hw4
        obtain ⟨file4, hfile4⟩ : ∃ f, f = (writeBinary (programOf functions) (toSolution (corrupted.map (·.1)) prog4)).1 := ⟨_, rfl⟩
        rw [← hfile4] at sol4
        refine ⟨⟨some file2, some file4⟩,
          .ok (toSolution (corrupted.map (·.1)) prog4),
          (hrun _ hloop).trans ?_, Or.inr ⟨hmany, ⟨_, rfl, sol2⟩, Or.inr ⟨_, _, rfl, sol4, rfl, ?_⟩⟩⟩
        · dsimp only
          rw [hok]
          dsimp only
          rw [hw4, ← hfile4]
          rfl
        · intro c hcm
          have hco : c ∈ orig := (hmem c).2 hcm
          obtain ⟨k, hk1, rfl⟩ := List.mem_iff_getElem.1 hco
          have h4 : k < prog4.length := by rw [← pres4.length_eq]; exact hk1
          have h1 : k < corrupted.length := by omega
          obtain ⟨x, hx, hxe⟩ := forall₂_getElem pres4 k hk1 h4
          refine ⟨(orig[k].address, prog4[k].map fun x => ⟨x.enc, orig[k].address⟩), ?_, rfl, ?_⟩
          · unfold toSolution
            rw [haddr]
            refine List.mem_map.2 ⟨(orig[k].address, prog4[k]), ?_, rfl⟩
            rw [List.mem_iff_getElem]
            exact ⟨k, by simp; omega, by simp⟩
          · refine List.mem_map.2 ⟨x, hx, ?_⟩
            rw [hxe]

/-! ### A concrete run -/

/-- Instructions for the examples: 10 and 11 answer alike but are printed differently, 20
stands alone and 30 uses a condition that no original has. -/
def exDec (_ e : Nat) : Answers :=
  ⟨ordinary e (if e = 30 then 5 else 14) (if e = 20 then 3 else 2) (if e = 20 then [3] else [1, 2]),
   if e = 20 then [3] else [1, 2], e⟩

/-- One function of two instructions. -/
def exFunctions : List (List CInst) := [[⟨10, 0⟩, ⟨20, 4⟩]]

/-- The corruptor adds candidates at the first address. -/
def exCorrupt (add : List Nat) (p : Program) : Py Program :=
  .ok (p.map fun q => (q.1, if q.1 = 0 then add.map (fun e => ⟨e, 0⟩) ++ q.2 else q.2))

/-- What a run has written and left: the originals and the candidates read from each
file, and the candidates left. -/
structure Outcome where
  first : Option (Py (Program × Program))
  last : Option (Py (Program × Program))
  left : Py Program
  deriving DecidableEq

/-- The outcome of a run. -/
def outcomeOf (r : Option (Files × Py Program)) : Option Outcome :=
  r.map fun r => ⟨r.1.initial.map readSolution, r.1.final.map readSolution, r.2⟩

/-- A run on the example. -/
def exRun (add : List Nat) : Option Outcome :=
  outcomeOf (runRecovery exDec (exCorrupt add) 10 exFunctions)

/-- The example meets the assumptions of C94. -/
theorem exRun_meets : Recoverable exFunctions [(0, [⟨30, 0⟩, ⟨11, 0⟩, ⟨10, 0⟩]), (4, [⟨20, 4⟩])] ∧
    (∀ q ∈ ([(0, [⟨30, 0⟩, ⟨11, 0⟩, ⟨10, 0⟩]), (4, [⟨20, 4⟩])] : Program), ∀ c ∈ exFunctions.flatten,
      c.address = q.1 → Undisputed exDec c q.2) ∧
    exCorrupt [30, 11] (programOf exFunctions) = .ok [(0, [⟨30, 0⟩, ⟨11, 0⟩, ⟨10, 0⟩]), (4, [⟨20, 4⟩])] ∧
    ∀ a e, (exDec a e).cand.m.encoding = e := by
  refine ⟨⟨by decide, by decide, ?_, by unfold DistinctAddresses; decide, by decide, by decide, by decide, by decide⟩,
    ?_, by decide, fun _ _ => rfl⟩
  · intro f hf k hk
    simp only [exFunctions, List.mem_singleton] at hf
    subst hf
    match k, hk with
    | 0, _ => rfl
    | 1, _ => rfl
  · intro q hq c hc hcq
    simp only [exFunctions, List.flatten_cons, List.flatten_nil, List.append_nil, List.mem_cons,
      List.not_mem_nil, or_false] at hc
    simp only [List.mem_cons, List.not_mem_nil, or_false] at hq
    rcases hq with rfl | rfl <;> rcases hc with rfl | rfl <;> first
      | exact absurd hcq (by decide)
      | exact ⟨by decide, by decide, by decide, by decide, by decide, by decide⟩

/-- The run completes, discards candidate 30 and keeps the original 10 and candidate 11. -/
example : exRun [30, 11] = some
    ⟨some (.ok ([(0, [⟨10, 0⟩]), (4, [⟨20, 4⟩])], [(0, [⟨30, 0⟩, ⟨11, 0⟩, ⟨10, 0⟩]), (4, [⟨20, 4⟩])])),
     some (.ok ([(0, [⟨10, 0⟩]), (4, [⟨20, 4⟩])], [(0, [⟨11, 0⟩, ⟨10, 0⟩]), (4, [⟨20, 4⟩])])),
     .ok [(0, [⟨11, 0⟩, ⟨10, 0⟩]), (4, [⟨20, 4⟩])]⟩ := by decide +kernel

/-- **A program that is recovered completely has no final solution**: the report after
the last candidate was discarded divides by zero. -/
theorem C94_recovered_refuted : exRun [30] = some
    ⟨some (.ok ([(0, [⟨10, 0⟩]), (4, [⟨20, 4⟩])], [(0, [⟨30, 0⟩, ⟨10, 0⟩]), (4, [⟨20, 4⟩])])),
     none, .error .zeroDiv⟩ := by decide +kernel

/-- Nothing is written for a program that was not corrupted. -/
example : exRun [] = some ⟨none, none, .error .zeroDiv⟩ := by decide +kernel

/-- Instructions of which candidate 11 uses only one register of the original 10. -/
def lossDec (_ e : Nat) : Answers :=
  let c : Int := if e = 11 ∨ e = 20 then 0 else if e = 30 ∨ e = 31 then 3 else 14
  let op := if e = 11 ∨ e = 20 then 2 else if e = 30 ∨ e = 31 then 5 else 1
  let used := if e = 10 then [1, 2] else if e = 20 then [3] else if e = 21 then [3, 2] else [1]
  ⟨ordinary e c op used, used, e⟩

/-- **The original can be lost**: without the assumption about registers the run
discards the original of the first address, raises while it writes the final solution and
leaves a file that cannot be read. -/
theorem C94_lost_refuted :
    outcomeOf (runRecovery lossDec
      (fun p => .ok (p.map fun q => (q.1, q.2 ++ [⟨if q.1 = 0 then 11 else if q.1 = 4 then 21 else 31, q.1⟩])))
      10 [[⟨10, 0⟩, ⟨20, 4⟩, ⟨30, 8⟩]]) =
    some ⟨some (.ok ([(0, [⟨10, 0⟩]), (4, [⟨20, 4⟩]), (8, [⟨30, 8⟩])],
      [(0, [⟨10, 0⟩]), (4, [⟨20, 4⟩]), (8, [⟨30, 8⟩])])), some (.error .struct), .error .runtime⟩ := by decide +kernel

end Verif
