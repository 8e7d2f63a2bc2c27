import Verif.Model.ForwardBuilder
import Verif.Proof.BitQueue
import Verif.Props.Constraint

/-! # Lemmas about the forward builders -/

namespace Verif
open Spec

/-! ### Counters -/

theorem dictGet_decKey {K : Type} [DecidableEq K] (d : List (K × Int)) (k k' : K) :
    dictGet (decKey d k) k' = (dictGet d k').map fun n => if k = k' then n - 1 else n := by
  unfold decKey
  rcases h : dictGet d k with _ | n
  · by_cases hk : k = k'
    · subst hk; simp [h]
    · rcases h' : dictGet d k' with _ | m <;> simp [hk]
  · simp only [dictGet_dictSet]
    by_cases hk : k = k'
    · subst hk; simp [h]
    · rcases h' : dictGet d k' with _ | m <;> simp [hk]

theorem dictGet_decKeys {K : Type} [DecidableEq K] (ks : List K) : ∀ (d : List (K × Int)) (k : K),
    dictGet (ks.foldl decKey d) k = (dictGet d k).map fun n => n - (ks.count k : Int) := by
  induction ks with
  | nil => intro d k; simp
  | cons x t ih =>
    intro d k
    rw [List.foldl_cons, ih, dictGet_decKey]
    rcases dictGet d k with _ | n
    · rfl
    · by_cases h : x = k
      · subst h; simp; omega
      · simp [h]

/-- The counter covers a number of occurrences. -/
def Enough {K : Type} [DecidableEq K] (d : List (K × Int)) (c : K → Nat) : Prop :=
  ∀ k, 0 < c k → ∃ n, dictGet d k = some n ∧ (c k : Int) ≤ n

theorem Enough.not_spent {K : Type} [DecidableEq K] {d : List (K × Int)} {c : K → Nat}
    (h : Enough d c) {k : K} (hk : 0 < c k) : spent d k = false := by
  obtain ⟨n, h1, h2⟩ := h k hk
  unfold spent
  rw [h1]
  simp only [decide_eq_false_iff_not]
  omega

/-! ### What is still needed -/

/-- Occurrences of a field in the originals of some addresses. -/
def need {K : Type} [DecidableEq K] (g : MInst → List K) (original : Nat → Option FInst)
    (as : List Nat) (k : K) : Nat :=
  (as.map fun a =>
    match original a with
    | none => 0
    | some o => if o.meta.ignore then 0 else (g o.meta).count k).sum

theorem need_perm {K : Type} [DecidableEq K] (g : MInst → List K) (original : Nat → Option FInst)
    {as bs : List Nat} (h : as.Perm bs) (k : K) : need g original as k = need g original bs k :=
  List.Perm.sum_eq (h.map _)

theorem need_pos {K : Type} [DecidableEq K] (g : MInst → List K) (original : Nat → Option FInst)
    {as : List Nat} {a : Nat} {o : FInst} (ha : a ∈ as) (ho : original a = some o)
    (hi : o.meta.ignore = false) {k : K} (hk : k ∈ g o.meta) : 0 < need g original as k := by
  have h1 : 0 < (match original a with
      | none => 0
      | some o => if o.meta.ignore then 0 else (g o.meta).count k) := by
    rw [ho]; simp only [hi, Bool.false_eq_true, if_false]; exact List.count_pos_iff.2 hk
  have h2 := List.single_le_sum (l := as.map fun a =>
    match original a with
    | none => 0
    | some o => if o.meta.ignore then 0 else (g o.meta).count k) (by simp)
    _ (List.mem_map_of_mem ha)
  exact lt_of_lt_of_le h1 h2

/-- The three counters cover the originals of the addresses. -/
structure Covered (m : Budget) (original : Nat → Option FInst) (as : List Nat) : Prop where
  instrs : Enough m.instrs (need (fun x => [x.opcode]) original as)
  conds : Enough m.conds (need (fun x => [x.cond]) original as)
  stors : Enough m.stors (need MInst.used original as)

theorem Covered.perm {m : Budget} {original : Nat → Option FInst} {as bs : List Nat}
    (h : Covered m original as) (hp : as.Perm bs) : Covered m original bs := by
  have e : ∀ {K : Type} [DecidableEq K] (g : MInst → List K),
      need g original as = need g original bs := fun g => funext fun k => need_perm g original hp k
  exact ⟨e (fun x => [x.opcode]) ▸ h.instrs, e (fun x => [x.cond]) ▸ h.conds, e MInst.used ▸ h.stors⟩

/-- A candidate that answers like the original. -/
structure Alike (c o : FInst) : Prop where
  ignore : c.meta.ignore = o.meta.ignore
  opcode : c.meta.opcode = o.meta.opcode
  cond : c.meta.cond = o.meta.cond
  used : c.meta.used = o.meta.used

theorem Enough.dec {K : Type} [DecidableEq K] {d : List (K × Int)} {g : MInst → List K}
    {original : Nat → Option FInst} {a : Nat} {rest : List Nat} {o : FInst}
    (h : Enough d (need g original (a :: rest))) (ho : original a = some o)
    (hi : o.meta.ignore = false) : Enough ((g o.meta).foldl decKey d) (need g original rest) := by
  intro k hk
  have e : need g original (a :: rest) k = (g o.meta).count k + need g original rest k := by
    simp [need, ho, hi]
  obtain ⟨n, h1, h2⟩ := h k (by omega)
  refine ⟨n - (g o.meta).count k, by rw [dictGet_decKeys, h1]; rfl, ?_⟩
  rw [e] at h2
  push_cast at h2
  omega

theorem Enough.skip {K : Type} [DecidableEq K] {d : List (K × Int)} {g : MInst → List K}
    {original : Nat → Option FInst} {a : Nat} {rest : List Nat}
    (h : Enough d (need g original (a :: rest))) : Enough d (need g original rest) := by
  intro k hk
  have e : need g original rest k ≤ need g original (a :: rest) k := by
    simp only [need, List.map_cons, List.sum_cons]; omega
  obtain ⟨n, h1, h2⟩ := h k (by omega)
  exact ⟨n, h1, by omega⟩

theorem Covered.step {m : Budget} {original : Nat → Option FInst} {a : Nat} {rest : List Nat}
    {c o : FInst} (h : Covered m original (a :: rest)) (ho : original a = some o)
    (hi : o.meta.ignore = false) (hc : Alike c o) : Covered (updateBudget m c) original rest := by
  unfold updateBudget
  rw [hc.ignore, hi]
  simp only [Bool.false_eq_true, if_false, hc.opcode, hc.cond, hc.used]
  exact ⟨h.instrs.dec ho hi, h.conds.dec ho hi, h.stors.dec ho hi⟩

theorem Covered.skip {m : Budget} {original : Nat → Option FInst} {a : Nat} {rest : List Nat}
    (h : Covered m original (a :: rest)) : Covered m original rest :=
  ⟨h.instrs.skip, h.conds.skip, h.stors.skip⟩

/-- The original of a remaining address complies. -/
theorem Covered.comply {m : Budget} {original : Nat → Option FInst} {as : List Nat}
    (h : Covered m original as) {a : Nat} (ha : a ∈ as) {o : FInst} (ho : original a = some o)
    (hi : o.meta.ignore = false) (hr : ∀ r ∈ o.regs, r ∈ o.meta.used) : comply m o = true := by
  unfold Verif.comply
  have h1 := h.instrs.not_spent (k := o.meta.opcode) (need_pos _ _ ha ho hi (by simp))
  have h2 := h.conds.not_spent (k := o.meta.cond) (need_pos _ _ ha ho hi (by simp))
  simp only [hi, h1, h2, Bool.false_eq_true, if_false, Bool.not_eq_true', List.any_eq_false]
  intro r hr'
  have := h.stors.not_spent (need_pos MInst.used original ha ho hi (hr r hr'))
  simp [this]

/-! ### Removing candidates -/

theorem removeAt_sublist (m : Budget) : ∀ l, (removeAt m l).Sublist l
  | [] => List.Sublist.refl _
  | [x] => List.Sublist.refl _
  | x :: y :: t => by
      unfold removeAt
      split
      · exact (removeAt_sublist m (y :: t)).cons_cons x
      · exact (removeAt_sublist m (y :: t)).cons x

theorem mem_removeAt (m : Budget) (c : FInst) (hc : comply m c = true) : ∀ l, c ∈ l → c ∈ removeAt m l
  | [], h => by simp at h
  | [x], h => h
  | x :: y :: t, h => by
      have ih := mem_removeAt m c hc (y :: t)
      unfold removeAt
      rcases List.mem_cons.1 h with h | h
      · subst h; rw [if_pos hc]; simp
      · split
        · exact List.mem_cons_of_mem _ (ih h)
        · exact ih h

theorem removeAt_ne_nil (m : Budget) : ∀ l, l ≠ [] → removeAt m l ≠ []
  | [], h => absurd rfl h
  | [x], _ => by simp [removeAt]
  | x :: y :: t, _ => by
      unfold removeAt
      split
      · simp
      · exact removeAt_ne_nil m (y :: t) (by simp)

theorem removeInvalid_get (m : Budget) (b : Nat) : ∀ (as : List Nat) (p : List (Nat × List FInst)),
    as.Nodup → dictGet (removeInvalid m p as) b =
      if b ∈ as then (dictGet p b).map (removeAt m) else dictGet p b := by
  intro as
  induction as with
  | nil => intro p _; simp [removeInvalid]
  | cons a t ih =>
    intro p hn
    obtain ⟨h1, h2⟩ := List.nodup_cons.1 hn
    unfold removeInvalid
    rcases hg : dictGet p a with _ | pa
    · simp only [ih p h2]
      by_cases hb : b = a
      · subst hb; simp [hg]
      · simp [hb]
    · simp only [ih _ h2, dictGet_dictSet]
      by_cases hb : a = b
      · subst hb; simp [h1, hg]
      · have hb' : ¬ b = a := fun h => hb h.symm
        simp [hb, hb']

theorem removeInvalid_keys (m : Budget) : ∀ (as : List Nat) (p : List (Nat × List FInst)),
    (removeInvalid m p as).map (·.1) = p.map (·.1) := by
  intro as
  induction as with
  | nil => intro p; rfl
  | cons a t ih =>
    intro p
    unfold removeInvalid
    rcases hg : dictGet p a with _ | pa
    · exact ih p
    · simp only [ih, keys_dictSet]
      rw [if_pos]
      rw [← dictGet_isSome, hg]; rfl

theorem sortAddresses_perm (b : Bool) (p : List (Nat × List FInst)) (as : List Nat) :
    (sortAddresses b p as).Perm as := by
  unfold sortAddresses
  split <;> exact List.perm_insertionSort _ _

theorem findIndex_ok {pa : List FInst} {ori : FInst} (h : ∃ c ∈ pa, c.str = ori.str) :
    ∃ i c, findIndex pa ori = .ok i ∧ pa[i]? = some c ∧ c.str = ori.str ∧ i < pa.length := by
  have hlt : pa.findIdx (fun c => decide (c.str = ori.str)) < pa.length := by
    rw [List.findIdx_lt_length]
    obtain ⟨c, h1, h2⟩ := h
    exact ⟨c, h1, by simpa using h2⟩
  refine ⟨_, pa[pa.findIdx fun c => decide (c.str = ori.str)], ?_, List.getElem?_eq_getElem hlt, ?_, hlt⟩
  · unfold findIndex; simp only; rw [if_neg (by omega)]
  · have := List.findIdx_getElem (w := hlt)
    simpa using this

/-- Nothing else is printed like the original before the index found. -/
theorem findIndex_first {pa : List FInst} {ori : FInst} {i : Nat} (h : findIndex pa ori = .ok i) :
    ∃ c, pa[i]? = some c ∧ c.str = ori.str ∧ i < pa.length := by
  unfold findIndex at h
  simp only at h
  split at h
  · simp at h
  · next hne =>
    simp only [Except.ok.injEq] at h
    have hlt : pa.findIdx (fun c => decide (c.str = ori.str)) < pa.length :=
      lt_of_le_of_ne (List.findIdx_le_length) hne
    subst h
    refine ⟨_, List.getElem?_eq_getElem hlt, ?_, hlt⟩
    have := List.findIdx_getElem (w := hlt)
    simpa using this

/-! ### The invariant of the construction -/

/-- What is assumed of the original program and the candidates. -/
structure FwdOk (original : Nat → Option FInst) (program : List (Nat × List FInst)) : Prop where
  nodup : (program.map (·.1)).Nodup
  contains : ∀ a pa, dictGet program a = some pa → ∃ o, original a = some o ∧ o ∈ pa
  alike : ∀ a pa o, dictGet program a = some pa → original a = some o →
    ∀ c ∈ pa, c.str = o.str → Alike c o
  regs : ∀ a o, original a = some o → ∀ r ∈ o.regs, r ∈ o.meta.used

/-- The log entry tells the truth about the candidate list and the original. -/
def LogOk' (original : Nat → Option FInst) (program : List (Nat × List FInst)) (v : Visit) : Prop :=
  ∃ pa o, dictGet program v.addr = some pa ∧ original v.addr = some o ∧ v.ln = pa.length ∧
    (v.skipped = true ↔ o.meta.ignore = true) ∧
    (v.skipped = false → ∃ c, pa[v.index]? = some c ∧ c.str = o.str)

structure FwdInv {σ : Type} (original : Nat → Option FInst) (program0 : List (Nat × List FInst))
    (Q : σ → List Visit → Prop) (s : FwdSt σ) : Prop where
  keys : s.program.map (·.1) = program0.map (·.1)
  perm : (s.log.map (·.addr) ++ s.addresses).Perm (program0.map (·.1))
  sub : ∀ a pa, dictGet s.program a = some pa → ∃ pa0, dictGet program0 a = some pa0 ∧ pa.Sublist pa0
  nonempty : ∀ a pa, dictGet s.program a = some pa → pa ≠ []
  kept : ∀ a pa o, dictGet s.program a = some pa → original a = some o → o.meta.ignore = false → o ∈ pa
  covered : Covered s.budget original s.addresses
  log : ∀ v ∈ s.log, LogOk' original s.program v
  sol : Q s.sol s.log

theorem FwdInv.nodup {σ : Type} {original : Nat → Option FInst} {program0} {Q : σ → List Visit → Prop}
    {s : FwdSt σ} (h0 : FwdOk original program0) (h : FwdInv original program0 Q s) :
    s.addresses.Nodup ∧ ∀ v ∈ s.log, v.addr ∉ s.addresses := by
  have h1 : (s.log.map (·.addr) ++ s.addresses).Nodup := h.perm.nodup_iff.2 h0.nodup
  rw [List.nodup_append] at h1
  exact ⟨h1.2.1, fun v hv hm => h1.2.2 _ (List.mem_map_of_mem hv) _ hm rfl⟩

/-- What is asked of `_on_index_found`: it does not raise, and its state goes
with the visits. -/
def Handles {σ : Type} (B : Builder σ) (bound : Nat) (Q : σ → List Visit → Prop) : Prop :=
  (∀ s l v, Q s l → v.skipped = true ∨ v.ln ≤ 1 → Q s (l ++ [v])) ∧
  (∀ s l a pa o i, Q s l → 1 < pa.length → pa.length ≤ bound → findIndex pa o = .ok i →
    ∃ s', B.onFound s i pa o pa.length = .ok s' ∧ Q s' (l ++ [⟨a, i, pa.length, false⟩]))

theorem LogOk'.remove {original : Nat → Option FInst} {program : List (Nat × List FInst)} {v : Visit}
    (h : LogOk' original program v) {program' : List (Nat × List FInst)}
    (he : dictGet program' v.addr = dictGet program v.addr) : LogOk' original program' v := by
  obtain ⟨pa, o, h1, h2⟩ := h
  exact ⟨pa, o, he.trans h1, h2⟩

theorem fwdFinish_inv {σ : Type} {B : Builder σ} {original : Nat → Option FInst}
    {program0 : List (Nat × List FInst)} {Q : σ → List Visit → Prop} (h0 : FwdOk original program0)
    {s : FwdSt σ} (h : FwdInv original program0 Q s) {a : Nat} {rest : List Nat}
    (ha : s.addresses = a :: rest) {pa : List FInst} (hpa : dictGet s.program a = some pa)
    {o : FInst} (ho : original a = some o) (hi : o.meta.ignore = false) {index : Nat} {c : FInst}
    (hc : pa[index]? = some c) (hcs : c.str = o.str) (sol : σ)
    (hq : Q sol (s.log ++ [⟨a, index, pa.length, false⟩])) :
    ∃ s', fwdFinish B s a rest pa index sol = .ok s' ∧ FwdInv original program0 Q s' ∧
      s'.addresses.length = rest.length ∧ s'.log = s.log ++ [⟨a, index, pa.length, false⟩] := by
  obtain ⟨hnd, hlog⟩ := h.nodup h0
  rw [ha] at hnd hlog
  obtain ⟨hnar, hndr⟩ := List.nodup_cons.1 hnd
  unfold fwdFinish
  rw [hc]
  have hperm := sortAddresses_perm B.fromMax
    (if B.forward then removeInvalid (if B.forward then updateBudget s.budget c else s.budget)
      s.program rest else s.program) rest
  refine ⟨_, rfl, ?_, by simpa using hperm.length_eq, rfl⟩
  obtain ⟨pa0, hpa0, hsub0⟩ := h.sub a pa hpa
  have halike : Alike c o := h0.alike a pa0 o hpa0 ho c
    (hsub0.subset (List.mem_of_getElem? hc)) hcs
  have hcov0 : Covered s.budget original (a :: rest) := ha ▸ h.covered
  have hcov : Covered (if B.forward then updateBudget s.budget c else s.budget) original rest := by
    split
    · exact hcov0.step ho hi halike
    · exact hcov0.skip
  have hget : ∀ b, dictGet (if B.forward then
        removeInvalid (if B.forward then updateBudget s.budget c else s.budget) s.program rest
        else s.program) b =
      if B.forward = true ∧ b ∈ rest then
        (dictGet s.program b).map (removeAt (if B.forward then updateBudget s.budget c else s.budget))
      else dictGet s.program b := by
    intro b
    by_cases hf : B.forward = true
    · rw [if_pos hf, removeInvalid_get _ _ _ _ hndr]
      by_cases hb : b ∈ rest <;> simp [hf, hb]
    · simp [hf]
  refine ⟨?_, ?_, ?_, ?_, ?_, ?_, ?_, hq⟩
  · simp only
    split
    · rw [removeInvalid_keys]; exact h.keys
    · exact h.keys
  · simp only
    have h1 := h.perm
    rw [ha] at h1
    refine List.Perm.trans ?_ h1
    rw [List.map_append, List.append_assoc]
    exact List.Perm.append_left _ (List.Perm.cons a hperm)
  · intro b pb hb
    simp only at hb
    rw [hget] at hb
    split at hb
    · rcases hs : dictGet s.program b with _ | pb0
      · rw [hs] at hb; simp at hb
      · rw [hs] at hb
        simp only [Option.map_some, Option.some.injEq] at hb
        obtain ⟨p0, h1, h2⟩ := h.sub b pb0 hs
        exact ⟨p0, h1, hb ▸ (removeAt_sublist _ pb0).trans h2⟩
    · exact h.sub b pb hb
  · intro b pb hb
    simp only at hb
    rw [hget] at hb
    split at hb
    · rcases hs : dictGet s.program b with _ | pb0
      · rw [hs] at hb; simp at hb
      · rw [hs] at hb
        simp only [Option.map_some, Option.some.injEq] at hb
        exact hb ▸ removeAt_ne_nil _ _ (h.nonempty b pb0 hs)
    · exact h.nonempty b pb hb
  · intro b pb ob hb hob hib
    simp only at hb
    rw [hget] at hb
    split at hb
    · next hfb =>
      rcases hs : dictGet s.program b with _ | pb0
      · rw [hs] at hb; simp at hb
      · rw [hs] at hb
        simp only [Option.map_some, Option.some.injEq] at hb
        rw [← hb]
        exact mem_removeAt _ _ (hcov.comply hfb.2 hob hib (h0.regs b ob hob)) _
          (h.kept b pb0 ob hs hob hib)
    · exact h.kept b pb ob hb hob hib
  · exact hcov.perm hperm.symm
  · intro v hv
    simp only [List.mem_append, List.mem_singleton] at hv
    rcases hv with hv | hv
    · refine (h.log v hv).remove ?_
      have := hlog v hv
      simp only [List.mem_cons, not_or] at this
      simp only
      rw [hget, if_neg (fun hh => this.2 hh.2)]
    · subst hv
      refine ⟨pa, o, ?_, ho, rfl, by simp [hi], fun _ => ⟨c, hc, hcs⟩⟩
      simp only
      rw [hget, if_neg (fun hh => hnar hh.2)]
      exact hpa

theorem fwdTurn_inv {σ : Type} {B : Builder σ} {original : Nat → Option FInst}
    {program0 : List (Nat × List FInst)} {Q : σ → List Visit → Prop} {bound : Nat}
    (h0 : FwdOk original program0)
    (hb : ∀ a pa, dictGet program0 a = some pa → pa.length ≤ bound) (hh : Handles B bound Q)
    {s : FwdSt σ} (h : FwdInv original program0 Q s) (hne : s.addresses ≠ []) :
    ∃ s', fwdTurn B original s = .ok s' ∧ FwdInv original program0 Q s' ∧
      s'.addresses.length + 1 = s.addresses.length := by
  rcases ha : s.addresses with _ | ⟨a, rest⟩
  · exact absurd ha hne
  obtain ⟨hnd, hlog⟩ := h.nodup h0
  have hmem : a ∈ program0.map (·.1) := h.perm.subset (by simp [ha])
  obtain ⟨pa, hpa⟩ : ∃ pa, dictGet s.program a = some pa :=
    Option.isSome_iff_exists.1 (by rw [dictGet_isSome, h.keys]; exact hmem)
  obtain ⟨pa0, hpa0, hsub⟩ := h.sub a pa hpa
  obtain ⟨o, ho, _⟩ := h0.contains a pa0 hpa0
  unfold fwdTurn
  simp only [ha, hpa, ho]
  have hlen : pa.length ≠ 0 := by
    intro hz; exact h.nonempty a pa hpa (List.length_eq_zero_iff.1 hz)
  by_cases hi : o.meta.ignore = true
  · rw [if_pos (.inr hi)]
    refine ⟨_, rfl, ?_, by simp⟩
    refine ⟨h.keys, ?_, h.sub, h.nonempty, h.kept, ?_, ?_, ?_⟩
    · have h1 := h.perm
      rw [ha] at h1
      simpa using h1
    · have h1 := h.covered
      rw [ha] at h1
      exact h1.skip
    · intro v hv
      simp only [List.mem_append, List.mem_singleton] at hv
      rcases hv with hv | hv
      · exact h.log v hv
      · subst hv; exact ⟨pa, o, hpa, ho, rfl, by simp [hi], by simp⟩
    · exact hh.1 _ _ _ h.sol (.inl rfl)
  · rw [if_neg (by simp [hlen, hi])]
    simp only [Bool.not_eq_true] at hi
    have hom : o ∈ pa := h.kept a pa o hpa ho hi
    by_cases hl : 1 < pa.length
    · rw [if_pos hl]
      obtain ⟨i, c, hf, hc, hcs, hlt⟩ := findIndex_ok (pa := pa) (ori := o) ⟨o, hom, rfl⟩
      obtain ⟨sol', hs1, hs2⟩ := hh.2 s.sol s.log a pa o i h.sol hl
        (le_trans hsub.length_le (hb a pa0 hpa0)) hf
      simp only [hf, bind, Except.bind, hs1]
      obtain ⟨s', g1, g2, g3, _⟩ := fwdFinish_inv (B := B) h0 h ha hpa ho hi hc hcs sol' hs2
      exact ⟨s', g1, g2, by simp [g3]⟩
    · rw [if_neg hl]
      obtain ⟨x, hx⟩ : ∃ x, pa = [x] := List.length_eq_one_iff.1 (by omega)
      have hox : o = x := by rw [hx] at hom; simpa using hom
      obtain ⟨s', g1, g2, g3, _⟩ := fwdFinish_inv (B := B) h0 h ha hpa ho hi
        (index := 0) (c := x) (by rw [hx]; rfl) (by rw [hox]) s.sol
        (hh.1 _ _ _ h.sol (.inr (by simp only; omega)))
      exact ⟨s', g1, g2, by simp [g3]⟩

/-- The whole construction. -/
theorem fwdBuild_inv {σ : Type} {B : Builder σ} {original : Nat → Option FInst}
    {program : List (Nat × List FInst)} {Q : σ → List Visit → Prop} {bound : Nat}
    (h0 : FwdOk original program)
    (hb : ∀ a pa, dictGet program a = some pa → pa.length ≤ bound) (hh : Handles B bound Q)
    (budget : Budget) (hcov : Covered budget original (program.map (·.1))) (sol : σ) (hq : Q sol [])
    (fuel : Nat) (hf : program.length < fuel) :
    ∃ s, fwdBuild B original fuel program budget sol = some (.ok s) ∧
      FwdInv original program Q s ∧ s.addresses = [] := by
  have hp := sortAddresses_perm B.fromMax program (program.map (·.1))
  have hstart : FwdInv original program Q
      { program := program, budget := budget
        addresses := sortAddresses B.fromMax program (program.map (·.1))
        sol := sol, log := [] } := by
    refine ⟨rfl, by simpa using hp, fun a pa h => ⟨pa, h, List.Sublist.refl _⟩, ?_, ?_, hcov.perm hp.symm,
      by simp, hq⟩
    · intro a pa h hn
      obtain ⟨o, _, hm⟩ := h0.contains a pa h
      rw [hn] at hm; simp at hm
    · intro a pa o h ho _
      obtain ⟨o', ho', hm⟩ := h0.contains a pa h
      rw [ho] at ho'
      cases ho'
      exact hm
  obtain ⟨s, h1, h2⟩ := whileLoop_count
    (cond := fun s : FwdSt σ => decide (0 < s.addresses.length)) (body := fwdTurn B original)
    (fun i s => FwdInv original program Q s ∧ i + s.addresses.length = program.length)
    program.length
    (by
      intro i s hi ⟨h, hl⟩
      have hpos : 0 < s.addresses.length := by omega
      refine ⟨by simpa using hpos, ?_⟩
      obtain ⟨s', g1, g2, g3⟩ := fwdTurn_inv h0 hb hh h (List.ne_nil_of_length_pos hpos)
      exact ⟨s', g1, g2, by omega⟩)
    (by intro s ⟨_, hl⟩; simp; exact List.length_eq_zero_iff.1 (by omega))
    program.length 0 _ (by simp) ⟨hstart, by simpa using hp.length_eq⟩ fuel hf
  exact ⟨s, h1, h2.1, List.length_eq_zero_iff.1 (by omega)⟩

end Verif
