import Verif.Proof.Evidence
import Verif.Props.Recuperator

/-! # Properties C85 and C86: the exact evidence and how it becomes a score -/

namespace Verif
open Spec

theorem mapM_all {α β : Type} (f : α → Py β) : ∀ (l : List α) (l' : List β), l.mapM f = .ok l' →
    List.Forall₂ (fun x y => f x = .ok y) l l' := by
  intro l
  induction l with
  | nil =>
    intro l' h
    rw [List.mapM_nil] at h
    simp only [pure, Except.pure, Except.ok.injEq] at h
    subst h
    exact .nil
  | cons x l ih =>
    intro l' h
    rw [List.mapM_cons] at h
    cases hx : f x with
    | error e => rw [hx] at h; simp [bind, Except.bind] at h
    | ok y =>
      cases hr : l.mapM f with
      | error e => rw [hx, hr] at h; simp [bind, Except.bind] at h
      | ok ys =>
        rw [hx, hr] at h
        simp only [bind, Except.bind, pure, Except.pure, Except.ok.injEq] at h
        subst h
        exact .cons hx (ih ys hr)

theorem setEvid_same {s : List (Evid × Rat)} {k : Evid} {o : Option Rat} :
    dictGet (setEvid s k o) k = o.or (dictGet s k) := by
  cases o with
  | none => rfl
  | some v => rw [setEvid, dictGet_dictSet, if_pos rfl]; rfl

theorem except_bind_ok {α β : Type} {x : Py α} {f : α → Py β} {b : β} (h : (x >>= f) = .ok b) :
    ∃ a, x = .ok a ∧ f a = .ok b := by
  cases x with
  | error e => simp [bind, Except.bind] at h
  | ok a => exact ⟨a, rfl, h⟩

/-- The evidence stored by scoring one defined candidate. -/
theorem scoreCand_exact {orig : List MInst} {fns : Fns} {prog : CProg} {addrs : List Int} {i : Nat} {a : Int}
    {low high : Int} {x d : Scored} (hl : low = addrs.headD 0) (hh : high = addrs.getLastD 0)
    (hx : x.c ∈ candsAt prog a) (hi : x.c.m.ignore = false)
    (h : scoreCand (collectMeta {} orig) fns prog (counters prog)
      ⟨a, functionOf fns addrs i, low, high, decide (i = 0)⟩ x = .ok d) :
    d.c = x.c ∧ d.scored = true ∧
      EvidenceOf orig fns addrs prog i a x.c (dictGet x.scores) (dictGet d.scores) := by
  have hget : dictGet prog a = some (candsAt prog a) := by
    unfold candsAt at hx ⊢
    rw [← dictGet_lookup] at hx ⊢
    cases hg : dictGet prog a with
    | none => rw [hg] at hx; simp at hx
    | some v => rfl
  have hmem := dictGet_mem hget
  obtain ⟨c1, c2, c3, _⟩ := C35_counts orig
  obtain ⟨d1, d2, d3⟩ := C37_addresses (views prog)
  unfold scoreCand at h
  rw [if_neg (by rw [hi]; simp)] at h
  obtain ⟨pc, e1, h⟩ := except_bind_ok h
  obtain ⟨po, e2, h⟩ := except_bind_ok h
  obtain ⟨pr, e3, h⟩ := except_bind_ok h
  obtain ⟨pp, e4, h⟩ := except_bind_ok h
  obtain ⟨pb, e5, h⟩ := except_bind_ok h
  have r1 := ratio_spec (collectMeta {} orig).conditionCnt (counters prog).1 x.c.m.cond _ _
    (c1 _) (d1 _) (addressesWith_pos hmem hx hi (by simp))
  have r2 := ratio_spec (collectMeta {} orig).instructionCnt (counters prog).2.1 x.c.m.opcode _ _
    (c2 _) (d2 _) (addressesWith_pos hmem hx hi (by simp))
  rw [r1] at e1
  rw [r2] at e2
  simp only [Except.ok.injEq] at e1 e2
  obtain ⟨o, r3, o0, o1, o2, o3⟩ := regMin_exact (collectMeta {} orig).storageCnt (counters prog).2.2
    (fun r => uses orig r) _ c3 d3 x.c.m.used 1
    (fun r hr => addressesWith_pos hmem hx hi (by simpa using hr)) (by norm_num)
  have epr : pr = if x.c.isBranch || x.c.isPushPop then none else some (o.getD 0) := by
    unfold computeRegisters at e3
    split at e3
    · rename_i hc; rw [if_pos hc]; simpa using e3.symm
    · rename_i hc
      rw [r3] at e3
      rw [if_neg hc]
      simpa [bind, Except.bind, pure, Except.pure] using e3.symm
  have epb := computeBranch_exact hi e5
  rw [hl, hh] at epb
  -- push and pop
  have epp : (x.c.isPush = true → ∃ v, pp = some v ∧
      ((∃ p, fns.lookup a = some p ∧ Best (candsAt prog a).length
        (∃ c ∈ definedAt prog p.2, c.isPop = true) (PopBefore prog a p.2)
        (∃ c ∈ definedAt prog p.2, c.isPop = true ∧ Restores c.regsWritten x.c.regsRead) v) ∨
      (fns.lookup a = none ∧ v = 1 / ((candsAt prog a).length : Rat)))) ∧
      (x.c.isPush = false → x.c.isPop = true → ∃ v, pp = some v ∧
        Best (candsAt prog a).length
          (∃ c ∈ definedAt prog (functionOf fns addrs i), c.isPush = true) False
          (∃ c ∈ definedAt prog (functionOf fns addrs i), c.isPush = true ∧
            Restores c.regsWritten x.c.regsWritten) v) ∧
      (x.c.isPush = false → x.c.isPop = false → pp = none) := by
    unfold computePushPop at e4
    simp only at e4
    rw [hget] at e4
    simp only at e4
    refine ⟨?_, ?_, ?_⟩
    · intro hp
      rw [if_pos hp] at e4
      cases hf : dictGet fns a with
      | none =>
        rw [hf] at e4
        simp only at e4
        cases hv : pushPopValue (candsAt prog a).length 0 0 false with
        | error e => rw [hv] at e4; simp [Functor.map, Except.map] at e4
        | ok v =>
          rw [hv] at e4
          simp only [Functor.map, Except.map, Except.ok.injEq] at e4
          refine ⟨v, e4.symm, Or.inr ⟨by rw [← dictGet_lookup, hf], ?_⟩⟩
          have hB := pushPopValue_exact (atEnd := False) (middle := False) (equal := False) hv
            (by simp) (le_refl _) (by simp) (le_refl _) (by simp)
          rcases hB.2.2.2.2 with ⟨h, _⟩ | ⟨_, h⟩ | ⟨h, _⟩ | ⟨h, _⟩
          · exact h.elim
          · exact h
          · exact h.elim
          · exact h.elim
      | some p =>
        obtain ⟨st, last⟩ := p
        rw [hf] at e4
        simp only at e4
        obtain ⟨⟨p1, eq⟩, q1, e4⟩ := except_bind_ok e4
        simp only at e4
        obtain ⟨p2, q2, e4⟩ := except_bind_ok e4
        cases hv : pushPopValue (candsAt prog a).length p1 p2 eq with
        | error e => rw [hv] at e4; simp [Functor.map, Except.map] at e4
        | ok v =>
          rw [hv] at e4
          simp only [Functor.map, Except.map, Except.ok.injEq] at e4
          obtain ⟨t1, t2, _, t3⟩ := opProb_exact q1
          obtain ⟨t4, t5⟩ := popBefore_iff prog a last p2 q2
          exact ⟨v, e4.symm, Or.inl ⟨(st, last), by rw [← dictGet_lookup, hf],
            pushPopValue_exact hv t1 t2 t5 t4 t3⟩⟩
    · intro hp hq
      rw [if_neg (by rw [hp]; simp), if_pos hq] at e4
      obtain ⟨⟨p1, eq⟩, q1, e4⟩ := except_bind_ok e4
      simp only at e4
      cases hv : pushPopValue (candsAt prog a).length p1 0 eq with
      | error e => rw [hv] at e4; simp [Functor.map, Except.map] at e4
      | ok v =>
        rw [hv] at e4
        simp only [Functor.map, Except.map, Except.ok.injEq] at e4
        obtain ⟨t1, t2, _, t3⟩ := opProb_exact q1
        exact ⟨v, e4.symm, pushPopValue_exact hv t1 t2 (by simp) (le_refl _) t3⟩
    · intro hp hq
      rw [if_neg (by rw [hp]; simp), if_neg (by rw [hq]; simp)] at e4
      simpa using e4.symm
  -- assembling
  generalize hs5 : setEvid (setEvid (setEvid (dictSet (dictSet x.scores .pc pc) .po po) .pr pr) .popu pp) .pbd pb
    = s5 at h
  have g5 : ∀ k, dictGet s5 k = match k with
      | .pc => some pc
      | .po => some po
      | .pr => pr.or (dictGet x.scores .pr)
      | .popu => pp.or (dictGet x.scores .popu)
      | .pbd => pb.or (dictGet x.scores .pbd)
      | k => dictGet x.scores k := by
    intro k
    rw [← hs5]
    cases k <;> simp [setEvid_get, setEvid_same, dictGet_dictSet]
  clear hs5
  have fin : ∀ (s : List (Evid × Rat)), (∀ k, dictGet s k = match k with
      | .prd => if i = 0 then dictGet s5 .prd
          else (computeDistance (collectMeta {} orig) prog x.c a).or (dictGet s5 .prd)
      | .pcfg => dictGet s .pcfg
      | k => dictGet s5 k) → (i = 0 → dictGet s .pcfg = dictGet s5 .pcfg) →
      (0 < i → ∃ pg, computeCfg prog x.c a = .ok pg ∧ dictGet s .pcfg = some pg) →
      EvidenceOf orig fns addrs prog i a x.c (dictGet x.scores) (dictGet s) := by
    intro s hs hz hpos
    have s1 : dictGet s .pc = some pc := (hs .pc).trans (g5 .pc)
    have s2 : dictGet s .po = some po := (hs .po).trans (g5 .po)
    have s3 : dictGet s .pr = pr.or (dictGet x.scores .pr) := (hs .pr).trans (g5 .pr)
    have s4 : dictGet s .popu = pp.or (dictGet x.scores .popu) := (hs .popu).trans (g5 .popu)
    have s6 : dictGet s .pbd = pb.or (dictGet x.scores .pbd) := (hs .pbd).trans (g5 .pbd)
    have s7 : dictGet s .pupo = dictGet x.scores .pupo := (hs .pupo).trans (g5 .pupo)
    have s8 : dictGet s .prd = if i = 0 then dictGet x.scores .prd
        else (computeDistance (collectMeta {} orig) prog x.c a).or (dictGet x.scores .prd) := by
      rw [hs]; simp only [g5]
    refine ⟨?_, ?_, ?_, ?_, ?_, ?_, ?_, ?_, ?_⟩
    · rw [s1, ← e1]; rfl
    · rw [s2, ← e2]; rfl
    · intro hb hpu hpo
      have hc : (x.c.isBranch || x.c.isPushPop) = false := by
        unfold Cand.isPushPop; rw [hb, hpu, hpo]; rfl
      refine ⟨o.getD 0, ?_, o1, o2, o3⟩
      rw [s3, epr, if_neg (by rw [hc]; simp)]
      rfl
    · intro hp
      obtain ⟨v, hv, h⟩ := epp.1 hp
      refine ⟨v, ?_, h⟩
      rw [s4, hv]; rfl
    · intro hp hq
      obtain ⟨v, hv, h⟩ := epp.2.1 hp hq
      refine ⟨v, ?_, h⟩
      rw [s4, hv]; rfl
    · intro hb
      rw [s6, epb, if_pos hb]; rfl
    · intro hi0 hb hpu hpo
      obtain ⟨v, hv, h1, h2⟩ := computeDistance_exact orig prog x.c a hb hpu hpo
      refine ⟨v, ?_, h1, h2⟩
      rw [s8, if_neg (by omega), hv]
      rfl
    · intro hi0
      obtain ⟨pg, hg, hgs⟩ := hpos hi0
      rw [hgs, computeCfg_exact hg]
    · intro k k1 k2 k3 k4 k5 k6 k7
      cases k with
      | pc => exact absurd rfl k6
      | po => exact absurd rfl k7
      | pr =>
        rw [s3, epr, if_pos]
        · rfl
        · unfold Cand.isPushPop
          rcases k1 rfl with h | h | h <;> simp [h]
      | popu =>
        obtain ⟨a1, a2⟩ := k2 rfl
        rw [s4, epp.2.2 a1 a2]; rfl
      | pbd => rw [s6, epb, if_neg (by rw [k3 rfl]; simp)]; rfl
      | prd =>
        rw [s8]
        rcases k4 rfl with h | h
        · rw [if_pos h]
        · have : computeDistance (collectMeta {} orig) prog x.c a = none := by
            unfold computeDistance Cand.isPushPop
            rw [if_pos]
            rcases h with h | h | h <;> simp [h]
          rw [this]
          split <;> simp
      | pcfg => exact (hz (k5 rfl)).trans (g5 .pcfg)
      | pupo => exact s7
  by_cases hz : i = 0
  · simp only [hz, decide_true, if_true, pure, Except.pure, Except.ok.injEq] at h
    subst h
    refine ⟨rfl, rfl, fin s5 ?_ (fun _ => rfl) (fun h => by omega)⟩
    intro k
    cases k <;> simp [hz]
  · simp only [hz, decide_false, Bool.false_eq_true, if_false] at h
    obtain ⟨pg, e6, h⟩ := except_bind_ok h
    simp only [pure, Except.pure, Except.ok.injEq] at h
    subst h
    refine ⟨rfl, rfl, fin _ ?_ (fun h => absurd h hz) (fun _ => ⟨pg, e6, ?_⟩)⟩
    · intro k
      cases k <;> simp [setEvid_get, setEvid_same, dictGet_dictSet, hz]
    · rw [dictGet_dictSet, if_pos rfl]

/-- The loop over the addresses: each is scored with the function it belongs to. -/
theorem scoreLoop_places {coll : Collector} {fns : Fns} {prog : CProg} {cp : Counters} {low high : Int} :
    ∀ (qs : List (Int × List (RInst Scored))) (first : Bool) (cur : Int) (r : List (List (RInst Scored))),
      scoreLoop coll fns prog cp low high first cur qs = .ok r →
      r.length = qs.length ∧ ∀ (i : Nat) (q : Int × List (RInst Scored)) (w : List (RInst Scored)),
        qs[i]? = some q → r[i]? = some w →
        q.2.mapM (scoreOne coll fns prog cp
          ⟨q.1, (((qs.map (·.1)).take (i + 1)).reverse.find? fun a => decide (a ∈ fns.map (·.1))).getD cur,
            low, high, first && decide (i = 0)⟩) = .ok w := by
  intro qs
  induction qs with
  | nil =>
    intro first cur r h
    simp only [scoreLoop, Except.ok.injEq] at h
    subst h
    simp
  | cons q qs ih =>
    intro first cur r h
    unfold scoreLoop at h
    simp only at h
    obtain ⟨l, h1, h⟩ := except_bind_ok h
    obtain ⟨rest, h2, h⟩ := except_bind_ok h
    simp only [pure, Except.pure, Except.ok.injEq] at h
    subst h
    obtain ⟨i1, i2⟩ := ih _ _ _ h2
    refine ⟨by simp [i1], ?_⟩
    intro i q' w hq hw
    cases i with
    | zero =>
      simp only [List.getElem?_cons_zero, Option.some.injEq] at hq hw
      subst hq hw
      rw [dictGet_keys] at h1
      rw [← h1]
      congr 3
      · simp only [List.map_cons, Nat.zero_add, List.take_succ_cons, List.take_zero, List.reverse_cons,
          List.reverse_nil, List.nil_append, List.find?_cons, List.find?_nil]
        by_cases hm : q.1 ∈ fns.map (·.1) <;> simp [hm]
      · simp
    | succ i =>
      simp only [List.getElem?_cons_succ] at hq hw
      have := i2 i q' w hq hw
      rw [← this]
      congr 3
      · simp only [List.map_cons, List.take_succ_cons, List.reverse_cons, List.find?_append]
        rw [dictGet_keys]
        cases (((qs.map (·.1)).take (i + 1)).reverse.find? fun a => decide (a ∈ fns.map (·.1))) with
        | some b => simp
        | none => by_cases hm : q.1 ∈ fns.map (·.1) <;> simp [hm]
      · simp

/-- **C85.**  Whenever scoring returns, the candidates are the same as before, an
ignored candidate keeps its evidence, and a defined candidate has exactly the evidence
of `EvidenceOf`. -/
theorem C85_evidence (orig : List MInst) (fns : Fns) (addrs : List Int) (prog r : List (List (RInst Scored)))
    (hn : addrs.Nodup) (hlen : addrs.length = prog.length)
    (h : recuperate (collectMeta {} orig) fns addrs prog = .ok r) :
    r.length = prog.length ∧
    ∀ (i : Nat) (a : Int) (v w : List (RInst Scored)), addrs[i]? = some a → prog[i]? = some v →
      r[i]? = some w → w.length = v.length ∧
      ∀ (j : Nat) (x y : RInst Scored), v[j]? = some x → w[j]? = some y →
        y.enc = x.enc ∧ y.str = x.str ∧ y.data.c = x.data.c ∧
        (x.data.c.m.ignore = true → y.data = x.data) ∧
        (x.data.c.m.ignore = false →
          EvidenceOf orig fns addrs (addrs.zip (prog.map fun v => v.map (·.data.c))) i a x.data.c
            (dictGet x.data.scores) (dictGet y.data.scores)) := by
  unfold recuperate at h
  dsimp only at h
  cases haddrs : addrs with
  | nil => rw [haddrs] at h; simp at h
  | cons b bs =>
    obtain ⟨z, hz⟩ : ∃ z, addrs.getLast? = some z := by
      rw [haddrs]; exact ⟨_, List.getLast?_eq_some_getLast (by simp)⟩
    have h' : scoreLoop (collectMeta {} orig) fns (bare addrs prog) (counters (bare addrs prog)) b z true b
        (addrs.zip prog) = .ok r := by
      rw [hz] at h
      revert h
      generalize scoreLoop (collectMeta {} orig) fns (bare addrs prog) (counters (bare addrs prog)) = f
      rw [haddrs]
      exact id
    clear h
    rw [← haddrs]
    obtain ⟨h1, h2⟩ := scoreLoop_places _ _ _ _ h'
    have hb : b = addrs.headD 0 := by rw [haddrs]; rfl
    have hzl : z = addrs.getLastD 0 := by rw [List.getLastD_eq_getLast?, hz]; rfl
    refine ⟨by rw [h1]; simp [hlen], ?_⟩
    intro i a v w ha hv hw
    have hq : (addrs.zip prog)[i]? = some (a, v) := by
      rw [List.getElem?_zip_eq_some]; exact ⟨ha, hv⟩
    have hm := h2 i (a, v) w hq hw
    rw [List.map_fst_zip (by omega)] at hm
    have hfun : (((addrs.take (i + 1)).reverse.find? fun a => decide (a ∈ fns.map (·.1))).getD b) =
        functionOf fns addrs i := by
      unfold functionOf; rw [← hb]
    rw [hfun, Bool.true_and] at hm
    have hF := mapM_all _ _ _ hm
    refine ⟨hF.length_eq.symm, ?_⟩
    intro j x y hx hy
    have hxy : scoreOne (collectMeta {} orig) fns (bare addrs prog) (counters (bare addrs prog))
        ⟨a, functionOf fns addrs i, b, z, decide (i = 0)⟩ x = .ok y := by
      obtain ⟨hj, rfl⟩ := List.getElem?_eq_some_iff.1 hx
      obtain ⟨hj', rfl⟩ := List.getElem?_eq_some_iff.1 hy
      exact (List.forall₂_iff_get.1 hF).2 j hj hj'
    unfold scoreOne at hxy
    obtain ⟨d, s1, hxy⟩ := except_bind_ok hxy
    obtain ⟨val, s2, hxy⟩ := except_bind_ok hxy
    simp only [pure, Except.pure, Except.ok.injEq] at hxy
    subst hxy
    have hxv : x ∈ v := List.mem_of_getElem? hx
    have hcands : candsAt (bare addrs prog) a = v.map (·.data.c) := by
      unfold candsAt
      rw [← dictGet_lookup, bare_get hn hlen (List.mem_of_getElem? hq)]
      rfl
    cases hig : x.data.c.m.ignore with
    | true =>
      unfold scoreCand at s1
      rw [if_pos hig] at s1
      simp only [Except.ok.injEq] at s1
      subst s1
      exact ⟨rfl, rfl, rfl, fun _ => rfl, by simp⟩
    | false =>
      obtain ⟨t1, _, t3⟩ := scoreCand_exact hb hzl (by rw [hcands]; exact List.mem_map.2 ⟨x, hxv, rfl⟩) hig s1
      exact ⟨rfl, rfl, t1, by simp, fun _ => t3⟩

/-- The evidence of the example: one half for condition, opcode and the registers. -/
example : ((recuperate (collectMeta {} (okOrig.map (·.m))) [(0, (0, 4))] [0, 4] okProg).toOption.map
    (List.map (List.map fun y => (y.enc, [Evid.pc, .po, .pr, .prd, .pcfg].map (dictGet y.data.scores))))) =
    some [[(10, [some (1 / 2), some (1 / 2), some 1, none, none]),
           (11, [some (1 / 2), some (1 / 2), some 0, none, none])],
          [(20, [some (1 / 2), some (1 / 2), some 1, some (1 / 1000), some (65 / 200)]),
           (21, [some (1 / 2), some (1 / 2), some 1, some (1 / 1000), some (65 / 200)])]] := by decide +kernel

/-- A pop, and a branch to `j`. -/
def popCand (enc : Nat) (cond : Int) (regs : List Nat) : Cand :=
  { ordinary enc cond 9 regs with isPop := true, regsRead := [13], regsWritten := regs }

/-- A function from 0 to 12 whose push is matched by the pop before the final branch. -/
def fnProg : List (List Cand) :=
  [[pushCand 10 14 [13, 4], ordinary 11 0 2 [1]], [ordinary 20 14 2 [1, 2], branchCand 21 0 40],
   [popCand 30 14 [4], ordinary 31 0 3 [3]], [branchCand 40 14 0, ordinary 41 0 3 [1]]]

/-- The push gets 0.65 for the pop followed by a branch, the pop 0.7 for the push at the
start (their registers do not fit: the written registers of a push are compared), the
branches 0.001 and 0.67. -/
example : ((recuperate (collectMeta {} ((fnProg.map fun v => v.headD (ordinary 0 0 0 [])).map (·.m)))
    [(0, (0, 12))] [0, 4, 8, 12] (fnProg.map (List.map fresh))).toOption.map
    (List.map (List.map fun y => (y.enc, [Evid.popu, .pbd].map (dictGet y.data.scores))))) =
    some [[(10, [some (65 / 100), none]), (11, [none, none])], [(20, [none, none]), (21, [none, some (1 / 1000)])],
          [(30, [some (7 / 10), none]), (31, [none, none])],
          [(40, [none, some (67 / 100)]), (41, [none, none])]] := by decide +kernel

/-! ### C86 -/

/-- **C86** except for push and pop.  On a whole program that contains its originals, the
score of a defined candidate is zero if some evidence is zero, one if condition, opcode
or registers are certain, and otherwise the product of the evidence of its kind; ignored
candidates score zero.  A push or pop that does not branch gets zero instead of the
product.  What is missing is the push and pop evidence, which the code stores under one
key and reads under another (`C86_refuted`). -/
theorem C86_score_partial (orig : List (Int × MInst)) (fns : Fns) (addrs : List Int)
    (prog : List (List (RInst Scored))) (hw : Whole fns addrs prog) (hc : Covers orig (bare addrs prog))
    (hu : ∀ q ∈ orig, q.2.ignore = false → q.2.used.Nodup) :
    ∃ r, recuperate (collectMeta {} (orig.map (·.2))) fns addrs prog = .ok r ∧
      ∀ v ∈ r, ∀ y ∈ v,
        (y.data.c.m.ignore = true → y.score = 0) ∧
        (y.data.c.m.ignore = false →
          let zero := y.data.scores.any fun p => decide (p.2 = 0)
          let certain := dictGet y.data.scores .pc = some 1 ∨ dictGet y.data.scores .po = some 1 ∨
            dictGet y.data.scores .pr = some 1
          (y.data.c.isBranch = true ∨ (y.data.c.isPush = false ∧ y.data.c.isPop = false) ∨ zero = true ∨
            certain → y.score = removalScore y.data.c (dictGet y.data.scores) zero) ∧
          (y.data.c.isBranch = false → (y.data.c.isPush = true ∨ y.data.c.isPop = true) → zero = false →
            ¬ certain → y.score = 0)) := by
  obtain ⟨r, h1, h2⟩ := recuperate_ok hw hc hu
  refine ⟨r, h1, ?_⟩
  intro v hv y hy
  obtain ⟨w, _, hwv⟩ := C38_evidence.forall₂_mem_right h2 hv
  obtain ⟨x, _, hxy⟩ := C38_evidence.forall₂_mem_right hwv hy
  rw [hxy.c]
  refine ⟨hxy.ignored, ?_⟩
  intro hi
  obtain ⟨ha, hs⟩ := hxy.after hi
  have hok := ha.ok
  generalize y.data.scores = s at *
  generalize x.data.c = c at *
  obtain ⟨pc, hpc⟩ : ∃ v, dictGet s .pc = some v := ⟨_, ha.pc⟩
  obtain ⟨po, hpo⟩ : ∃ v, dictGet s .po = some v := ⟨_, ha.po⟩
  have epc : evid s .pc 1 = pc := evid_some hpc
  have epo : evid s .po 1 = po := evid_some hpo
  have hzero : (s.any fun p => decide (p.2 = 0)) = true ↔ ∃ p ∈ s, p.2 = 0 := by simp
  have hnz : (∀ p ∈ s, p.2 ≠ 0) ↔ ¬ ∃ p ∈ s, p.2 = 0 := by push Not; rfl
  have hcert : (evid s .pc 1 = 1 ∨ evid s .po 1 = 1 ∨ evid s .pr 0 = 1) ↔
      (dictGet s .pc = some 1 ∨ dictGet s .po = some 1 ∨ dictGet s .pr = some 1) := by
    rw [epc, epo, hpc, hpo]
    simp only [Option.some.injEq]
    have : evid s .pr 0 = 1 ↔ dictGet s .pr = some 1 := by
      unfold evid
      cases dictGet s .pr <;> simp
    rw [this]
  dsimp only
  rw [hs]
  unfold stepValue removalScore
  simp only [hcert, hnz, hi]
  generalize hZ : (s.any fun p => decide (p.2 = 0)) = z
  rw [hZ] at hzero
  by_cases hz : ∃ p ∈ s, p.2 = 0
  · have : z = true := hzero.2 hz
    subst this
    rw [if_neg (fun h => h.2 hz), if_pos (Or.inl hz), if_pos rfl]
    exact ⟨fun _ => rfl, by simp⟩
  · have : z = false := by
      cases z with
      | false => rfl
      | true => exact absurd (hzero.1 rfl) hz
    subst this
    by_cases hce : (dictGet s .pc = some 1 ∨ dictGet s .po = some 1 ∨ dictGet s .pr = some 1)
    · rw [if_pos ⟨hce, hz⟩, if_neg (by simp), if_pos hce]
      exact ⟨fun _ => rfl, fun _ _ _ h => absurd hce h⟩
    · rw [if_neg (fun h => hce h.1), if_neg (by simp only [hz, Bool.false_eq_true, or_self, not_false_eq_true]),
        if_neg (by simp), if_neg hce]
      have hpr : c.isPush = true ∨ c.isPop = true → c.isBranch = false → lastFactor c s 0 = 0 := by
        intro hp hb
        have hpp : c.isPushPop = true := by
          unfold Cand.isPushPop; rcases hp with h | h <;> simp [h]
        have : dictGet s .pr = none := hok.pr (by simp [hpp])
        unfold lastFactor
        rw [if_neg (by rw [hb]; simp), if_pos hpp]
        unfold evid
        rw [this]
        simp
      constructor
      · intro hk
        rcases hk with hb | ⟨hpu, hpo'⟩ | hzz | hcc
        · unfold lastFactor evid
          rw [if_pos hb, if_pos hb]
        · have hpp : c.isPushPop = false := by unfold Cand.isPushPop; rw [hpu, hpo']; rfl
          cases hb : c.isBranch with
          | true =>
            unfold lastFactor evid
            rw [hb, if_pos rfl, if_pos rfl]
          | false =>
            obtain ⟨v, hv, _⟩ := ha.pr (by rw [hb, hpp]; rfl)
            unfold lastFactor evid
            rw [hb, hpp, hpu, hpo', hv]
            simp
        · simp at hzz
        · exact absurd hcc hce
      · intro hb hp _ _
        rw [hpr hp hb, mul_zero]

/-- The scores of the candidates. -/
def scoresOf (os : List Cand) (fns : Fns) (addrs : List Int) (prog : List (List Cand)) :
    Option (List (List (Nat × Rat))) :=
  (recuperate (collectMeta {} (os.map (·.m))) fns addrs (prog.map (List.map fresh))).toOption.map
    (List.map (List.map fun y => (y.enc, y.score)))

/-- In the example one candidate is impossible, three are certain of their registers. -/
example : scoresOf okOrig [(0, (0, 4))] [0, 4] (okProg.map (List.map (·.data.c))) =
    some [[(10, 1), (11, 0)], [(20, 1), (21, 1)]] := by decide +kernel

/-- A product: an address outside all certainties. -/
example : ((scoresOf [ordinary 10 14 2 [1, 2], ordinary 20 0 3 [3, 1]] [(0, (0, 4))] [0, 4]
    [[ordinary 10 14 2 [1, 2], ordinary 11 0 3 [3]], [ordinary 20 0 3 [3, 1], ordinary 21 14 2 [2]]]).map
      fun r => r.map (List.map (·.2))) =
    some [[1 / 8, 1 / 8], [13 / 640, 13 / 320000]] := by decide +kernel

/-- A program with a push whose condition and opcode are uncertain. -/
def pushOrig : List (Int × MInst) :=
  [(0, (pushCand 10 14 [13, 4]).m), (4, (ordinary 20 14 2 [1, 2]).m), (8, (ordinary 30 0 3 [3]).m)]
/-- Its corrupted form. -/
def pushProg : List (List (RInst Scored)) :=
  [[fresh (pushCand 10 14 [13, 4]), fresh (ordinary 11 0 2 [1])],
   [fresh (ordinary 20 14 2 [1, 2]), fresh (pushCand 21 14 [13])],
   [fresh (ordinary 30 0 3 [3]), fresh (ordinary 31 14 3 [3])]]

theorem pushProg_meets : Whole [(0, (0, 8))] [0, 4, 8] pushProg ∧ Covers pushOrig (bare [0, 4, 8] pushProg) := by
  constructor
  · refine ⟨by decide, rfl, by simp, ?_, ?_, ?_, ?_⟩
    · intro a ha
      simp only [List.head?_cons, Option.some.injEq] at ha
      subst ha
      decide
    · intro a ha st last h
      simp only [List.mem_cons, List.not_mem_nil, or_false] at ha
      rcases ha with rfl | rfl | rfl
      · have : (0, 8) = (st, last) := by simpa [dictGet] using h
        simp only [Prod.mk.injEq] at this
        obtain ⟨rfl, rfl⟩ := this
        decide
      · simp [dictGet] at h
      · simp [dictGet] at h
    · intro v hv
      simp only [pushProg, List.mem_cons, List.not_mem_nil, or_false] at hv
      rcases hv with rfl | rfl | rfl <;> exact ⟨_, List.mem_cons_self, rfl⟩
    · intro v hv x hx
      simp only [pushProg, List.mem_cons, List.not_mem_nil, or_false] at hv
      rcases hv with rfl | rfl | rfl
      all_goals
        simp only [List.mem_cons, List.not_mem_nil, or_false] at hx
        rcases hx with rfl | rfl <;> exact stored_fresh _
  · refine ⟨by decide, ?_⟩
    intro q hq _
    simp only [pushOrig, List.mem_cons, List.not_mem_nil, or_false] at hq
    rcases hq with rfl | rfl | rfl
    · exact ⟨_, List.mem_cons_self, _, List.mem_cons_self, rfl⟩
    · exact ⟨_, List.mem_cons_of_mem _ List.mem_cons_self, _, List.mem_cons_self, rfl⟩
    · exact ⟨_, List.mem_cons_of_mem _ (List.mem_cons_of_mem _ List.mem_cons_self), _, List.mem_cons_self, rfl⟩

/-- **C86 is false for push and pop.**  Neither condition nor opcode of the push is
certain or impossible and its own evidence is 0.65, but its score is zero. -/
theorem C86_refuted :
    ¬ ∀ (orig : List (Int × MInst)) (fns : Fns) (addrs : List Int) (prog r : List (List (RInst Scored))),
      Whole fns addrs prog → Covers orig (bare addrs prog) →
      recuperate (collectMeta {} (orig.map (·.2))) fns addrs prog = .ok r →
      ∀ v ∈ r, ∀ y ∈ v, y.data.c.m.ignore = false →
        y.score = removalScore y.data.c (dictGet y.data.scores) (y.data.scores.any fun p => decide (p.2 = 0)) := by
  intro h
  obtain ⟨r, h1, _⟩ := recuperate_ok pushProg_meets.1 pushProg_meets.2 (by decide)
  have h2 := h _ _ _ _ r pushProg_meets.1 pushProg_meets.2 h1
  have h3 : (recuperate (collectMeta {} (pushOrig.map (·.2))) [(0, (0, 8))] [0, 4, 8] pushProg).toOption.bind
      (fun r => (r.head?.bind List.head?).map fun y => decide (y.data.c.m.ignore = false ∧ y.score ≠
        removalScore y.data.c (dictGet y.data.scores) (y.data.scores.any fun p => decide (p.2 = 0)))) =
      some true := by decide +kernel
  rw [h1] at h3
  simp only [Except.toOption, Option.bind_some] at h3
  cases r with
  | nil => simp at h3
  | cons v vs =>
    cases v with
    | nil => simp at h3
    | cons y ys =>
      simp only [List.head?_cons, Option.bind_some, Option.map_some, Option.some.injEq, decide_eq_true_eq] at h3
      exact h3.2 (h2 _ List.mem_cons_self _ List.mem_cons_self h3.1)

end Verif
