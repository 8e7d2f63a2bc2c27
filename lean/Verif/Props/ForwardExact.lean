import Verif.Props.ForwardBuilder

/-! # C90: what forward construction removes, and in which order it proceeds -/

namespace Verif
namespace Spec

/-- Some defined original at an address not yet visited has the field value. -/
def Available {K : Type} (g : MInst → List K) (orig : List (Nat × FInst)) (visited : List Nat) (k : K) : Prop :=
  ∃ a o, (a, o) ∈ orig ∧ a ∉ visited ∧ o.meta.ignore = false ∧ k ∈ g o.meta

/-- A candidate that can still be right: it is a defined instruction, and its opcode,
its condition and its registers still occur in originals not yet visited. -/
def Fits (orig : List (Nat × FInst)) (visited : List Nat) (x : FInst) : Prop :=
  x.meta.ignore = false ∧ Available (fun m => [m.opcode]) orig visited x.meta.opcode ∧
    Available (fun m => [m.cond]) orig visited x.meta.cond ∧
    ∀ r ∈ x.regs, Available MInst.used orig visited r

/-- Some visited address has a defined original. -/
def SomeDefined (orig : List (Nat × FInst)) (visited : List Nat) : Prop :=
  ∃ a ∈ visited, ∃ o, (a, o) ∈ orig ∧ o.meta.ignore = false

/-- What is left of the candidates of an address after some addresses have been
visited: all of them if none of these has a defined original; otherwise those that
fit, and the last one whether it fits or not. -/
def Left (orig : List (Nat × FInst)) (visited : List Nat) (l l' : List FInst) : Prop :=
  (¬ SomeDefined orig visited → l' = l) ∧
  (SomeDefined orig visited → ∃ p : FInst → Bool, (∀ x, p x = true ↔ Fits orig visited x) ∧
    ∀ ini z, l = ini ++ [z] → l' = ini.filter p ++ [z])

end Spec

open Spec

/-- The addresses of originals not visited. -/
def notVisited (orig : List (Nat × FInst)) (visited : List Nat) : List Nat :=
  (orig.map (·.1)).filter fun a => decide (a ∉ visited)

theorem need_pos_iff {K : Type} [DecidableEq K] (g : MInst → List K) (orig : List (Nat × FInst))
    (hn : (orig.map (·.1)).Nodup) (vs : List Nat) (k : K) :
    0 < need g (dictGet orig) (notVisited orig vs) k ↔ Available g orig vs k := by
  constructor
  · intro h
    by_contra hc
    have : need g (dictGet orig) (notVisited orig vs) k = 0 := by
      unfold need
      rw [List.sum_eq_zero_iff]
      intro x hx
      obtain ⟨a, ha, rfl⟩ := List.mem_map.1 hx
      cases ho : dictGet orig a with
      | none => rfl
      | some o =>
        simp only
        split
        · rfl
        · next hi =>
          rw [List.count_eq_zero]
          intro hk
          refine hc ⟨a, o, dictGet_mem ho, ?_, by simpa using hi, hk⟩
          simpa using (List.mem_filter.1 ha).2
    omega
  · rintro ⟨a, o, h1, h2, h3, h4⟩
    refine need_pos g _ (a := a) ?_ (dictGet_of_mem hn h1) h3 h4
    exact List.mem_filter.2 ⟨List.mem_map.2 ⟨_, h1, rfl⟩, by simpa using h2⟩

/-- The counter holds what the originals not visited need. -/
def Exact {K : Type} [DecidableEq K] (d : List (K × Int)) (g : MInst → List K) (orig : List (Nat × FInst))
    (vs : List Nat) : Prop :=
  ∀ k, (dictGet d k).getD 0 = (need g (dictGet orig) (notVisited orig vs) k : Int)

theorem Exact.spent {K : Type} [DecidableEq K] {d : List (K × Int)} {g : MInst → List K}
    {orig : List (Nat × FInst)} {vs : List Nat} (h : Exact d g orig vs) (hn : (orig.map (·.1)).Nodup) (k : K) :
    spent d k = false ↔ Available g orig vs k := by
  rw [← need_pos_iff g orig hn]
  have := h k
  unfold Verif.spent
  cases hd : dictGet d k with
  | none =>
    rw [hd] at this
    simp only [Option.getD_none] at this
    simp; omega
  | some n =>
    rw [hd] at this
    simp only [Option.getD_some] at this
    simp only [decide_eq_false_iff_not]
    omega

theorem outside_visit {orig : List (Nat × FInst)} {vs : List Nat} {a : Nat} {o : FInst}
    (hn : (orig.map (·.1)).Nodup) (ho : dictGet orig a = some o) (ha : a ∉ vs) :
    (notVisited orig vs).Perm (a :: notVisited orig (vs ++ [a])) := by
  have hm : a ∈ notVisited orig vs :=
    List.mem_filter.2 ⟨List.mem_map.2 ⟨_, dictGet_mem ho, rfl⟩, by simpa using ha⟩
  have h1 := List.perm_cons_erase hm
  refine h1.trans (List.Perm.cons a ?_)
  have h2 : (notVisited orig vs).Nodup := hn.filter _
  rw [h2.erase_eq_filter]
  unfold notVisited
  rw [List.filter_filter]
  apply List.Perm.of_eq
  apply List.filter_congr
  intro b _
  by_cases h1 : b = a <;> by_cases h2 : b ∈ vs <;> simp [h1, h2]

theorem need_visit {K : Type} [DecidableEq K] (g : MInst → List K) {orig : List (Nat × FInst)} {vs : List Nat}
    {a : Nat} {o : FInst} (hn : (orig.map (·.1)).Nodup) (ho : dictGet orig a = some o) (ha : a ∉ vs) (k : K) :
    need g (dictGet orig) (notVisited orig vs) k =
      (if o.meta.ignore then 0 else (g o.meta).count k) + need g (dictGet orig) (notVisited orig (vs ++ [a])) k := by
  rw [need_perm g _ (outside_visit hn ho ha)]
  simp [need, ho]

theorem Exact.dec {K : Type} [DecidableEq K] {d : List (K × Int)} {g : MInst → List K}
    {orig : List (Nat × FInst)} {vs : List Nat} {a : Nat} {o : FInst} (h : Exact d g orig vs)
    (hn : (orig.map (·.1)).Nodup) (ho : dictGet orig a = some o) (ha : a ∉ vs) (hi : o.meta.ignore = false) :
    Exact ((g o.meta).foldl decKey d) g orig (vs ++ [a]) := by
  intro k
  rw [dictGet_decKeys]
  have h1 := h k
  have h2 := need_visit g hn ho ha k
  rw [hi] at h2
  simp only [Bool.false_eq_true, if_false] at h2
  cases hd : dictGet d k with
  | none =>
    rw [hd] at h1
    simp only [Option.getD_none, Option.map_none] at h1 ⊢
    omega
  | some n =>
    rw [hd] at h1
    simp only [Option.getD_some, Option.map_some] at h1 ⊢
    omega

theorem Exact.skip {K : Type} [DecidableEq K] {d : List (K × Int)} {g : MInst → List K}
    {orig : List (Nat × FInst)} {vs : List Nat} {a : Nat} {o : FInst} (h : Exact d g orig vs)
    (hn : (orig.map (·.1)).Nodup) (ho : dictGet orig a = some o) (ha : a ∉ vs) (hi : o.meta.ignore = true) :
    Exact d g orig (vs ++ [a]) := by
  intro k
  have h2 := need_visit g hn ho ha k
  rw [hi] at h2
  simp only [if_true] at h2
  rw [h k, h2]
  simp

/-- The three counters. -/
structure Exacts (m : Budget) (orig : List (Nat × FInst)) (vs : List Nat) : Prop where
  instrs : Exact m.instrs (fun x => [x.opcode]) orig vs
  conds : Exact m.conds (fun x => [x.cond]) orig vs
  stors : Exact m.stors MInst.used orig vs

theorem Exacts.comply {m : Budget} {orig : List (Nat × FInst)} {vs : List Nat} (h : Exacts m orig vs)
    (hn : (orig.map (·.1)).Nodup) (x : FInst) : comply m x = true ↔ Fits orig vs x := by
  unfold Verif.comply Fits
  rw [← h.instrs.spent hn, ← h.conds.spent hn]
  have hs : (!(x.regs.any fun r => spent m.stors r)) = true ↔ ∀ r ∈ x.regs, Available MInst.used orig vs r := by
    rw [Bool.not_eq_true', List.any_eq_false]
    constructor
    · intro h' r hr
      exact (h.stors.spent hn r).1 (by simpa using h' r hr)
    · intro h' r hr
      rw [(h.stors.spent hn r).2 (h' r hr)]
      simp
  by_cases h1 : x.meta.ignore = true
  · simp [h1]
  · by_cases h2 : spent m.instrs x.meta.opcode = true
    · simp [h1, h2]
    · by_cases h3 : spent m.conds x.meta.cond = true
      · simp [h1, h2, h3]
      · rw [if_neg h1, if_neg h2, if_neg h3, hs]
        simp [h1, h2, h3]

theorem removeAt_append (m : Budget) (z : FInst) : ∀ ini : List FInst,
    removeAt m (ini ++ [z]) = ini.filter (comply m) ++ [z]
  | [] => rfl
  | [x] => by
      simp only [List.cons_append, List.nil_append, removeAt, List.filter_cons, List.filter_nil]
      split <;> rfl
  | x :: y :: t => by
      have ih := removeAt_append m z (y :: t)
      simp only [List.cons_append] at ih ⊢
      rw [removeAt, ih]
      by_cases hx : comply m x = true
      · rw [if_pos hx, List.filter_cons_of_pos hx]; rfl
      · rw [if_neg hx, List.filter_cons_of_neg hx]

theorem available_mono {K : Type} {g : MInst → List K} {orig : List (Nat × FInst)} {vs ws : List Nat} {k : K}
    (h : Available g orig (vs ++ ws) k) : Available g orig vs k := by
  obtain ⟨a, o, h1, h2, h3⟩ := h
  exact ⟨a, o, h1, fun e => h2 (List.mem_append_left _ e), h3⟩

theorem fits_mono {orig : List (Nat × FInst)} {vs ws : List Nat} {x : FInst} (h : Fits orig (vs ++ ws) x) :
    Fits orig vs x :=
  ⟨h.1, available_mono h.2.1, available_mono h.2.2.1, fun r hr => available_mono (h.2.2.2 r hr)⟩

theorem available_skip {K : Type} {g : MInst → List K} {orig : List (Nat × FInst)} {vs : List Nat} {a : Nat}
    {o : FInst} (hn : (orig.map (·.1)).Nodup) (ho : dictGet orig a = some o) (hi : o.meta.ignore = true) (k : K) :
    Available g orig (vs ++ [a]) k ↔ Available g orig vs k := by
  refine ⟨available_mono, ?_⟩
  rintro ⟨b, o', h1, h2, h3, h4⟩
  refine ⟨b, o', h1, ?_, h3, h4⟩
  intro hb
  rcases List.mem_append.1 hb with hb | hb
  · exact h2 hb
  · rw [List.mem_singleton] at hb
    subst hb
    rw [dictGet_of_mem hn h1] at ho
    cases ho
    rw [hi] at h3
    cases h3

theorem someDefined_skip {orig : List (Nat × FInst)} {vs : List Nat} {a : Nat} {o : FInst}
    (hn : (orig.map (·.1)).Nodup) (ho : dictGet orig a = some o) (hi : o.meta.ignore = true) :
    SomeDefined orig (vs ++ [a]) ↔ SomeDefined orig vs := by
  constructor
  · rintro ⟨b, hb, o', h1, h2⟩
    rcases List.mem_append.1 hb with hb | hb
    · exact ⟨b, hb, o', h1, h2⟩
    · rw [List.mem_singleton] at hb
      subst hb
      rw [dictGet_of_mem hn h1] at ho
      cases ho
      rw [hi] at h2
      cases h2
  · rintro ⟨b, hb, h⟩
    exact ⟨b, List.mem_append_left _ hb, h⟩

theorem left_skip {orig : List (Nat × FInst)} {vs : List Nat} {a : Nat} {o : FInst}
    (hn : (orig.map (·.1)).Nodup) (ho : dictGet orig a = some o) (hi : o.meta.ignore = true) {l l' : List FInst}
    (h : Left orig vs l l') : Left orig (vs ++ [a]) l l' := by
  unfold Left at h ⊢
  rw [someDefined_skip hn ho hi]
  refine ⟨h.1, fun hs => ?_⟩
  obtain ⟨p, h1, h2⟩ := h.2 hs
  refine ⟨p, fun x => ?_, h2⟩
  rw [h1]
  unfold Fits
  simp only [available_skip hn ho hi]

theorem left_step {orig : List (Nat × FInst)} {vs : List Nat} {a : Nat} {m : Budget}
    (hn : (orig.map (·.1)).Nodup) (hm : Exacts m orig (vs ++ [a])) (hs : SomeDefined orig (vs ++ [a]))
    {l l' : List FInst} (h : Left orig vs l l') : Left orig (vs ++ [a]) l (removeAt m l') := by
  refine ⟨fun c => absurd hs c, fun _ => ⟨comply m, fun x => hm.comply hn x, ?_⟩⟩
  rintro ini z rfl
  by_cases hv : SomeDefined orig vs
  · obtain ⟨p, h1, h2⟩ := h.2 hv
    rw [h2 ini z rfl, removeAt_append, List.filter_filter]
    congr 1
    apply List.filter_congr
    intro x _
    by_cases hc : comply m x = true
    · rw [hc, (h1 x).2 (fits_mono ((hm.comply hn x).1 hc))]
      rfl
    · simp [hc]
  · rw [h.1 hv, removeAt_append]

/-- The second invariant of the construction. -/
structure ExactInv {σ : Type} (orig : List (Nat × FInst)) (program0 : List (Nat × List FInst)) (s : FwdSt σ) :
    Prop where
  counters : Exacts s.budget orig (s.log.map (·.addr))
  waiting : ∀ a ∈ s.addresses, ∀ l, dictGet program0 a = some l →
    ∃ l', dictGet s.program a = some l' ∧ Left orig (s.log.map (·.addr)) l l'
  done : ∀ pre v post, s.log = pre ++ v :: post → ∀ l, dictGet program0 v.addr = some l →
    ∃ l', dictGet s.program v.addr = some l' ∧ Left orig (pre.map (·.addr)) l l' ∧ v.ln = l'.length
  sorted : s.addresses.Pairwise fun a b => candCount s.program a ≤ candCount s.program b
  order : ∀ pre v post, s.log = pre ++ v :: post → ∀ b, b ∈ post.map (·.addr) ∨ b ∈ s.addresses →
    ∀ l, dictGet program0 b = some l → ∃ l', Left orig (pre.map (·.addr)) l l' ∧ v.ln ≤ l'.length

theorem split_snoc {α : Type} {L pre post : List α} {v w : α} (h : L ++ [w] = pre ++ v :: post) :
    (post = [] ∧ v = w ∧ L = pre) ∨ ∃ post', post = post' ++ [w] ∧ L = pre ++ v :: post' := by
  rcases List.eq_nil_or_concat post with rfl | ⟨post', x, rfl⟩
  · left
    have := List.append_inj' h rfl
    simp only [List.cons.injEq, and_true] at this
    exact ⟨rfl, this.2.symm, this.1⟩
  · right
    rw [List.concat_eq_append] at h ⊢
    rw [show pre ++ v :: (post' ++ [x]) = (pre ++ v :: post') ++ [x] by simp] at h
    have := List.append_inj' h rfl
    simp only [List.cons.injEq, and_true] at this
    exact ⟨post', by rw [this.2], this.1⟩

theorem candCount_of {program : List (Nat × List FInst)} {a : Nat} {l : List FInst}
    (h : dictGet program a = some l) : candCount program a = l.length := by
  unfold candCount; rw [h]; rfl

theorem sortAddresses_sorted (p : List (Nat × List FInst)) (as : List Nat) :
    (sortAddresses false p as).Pairwise fun a b => candCount p a ≤ candCount p b := by
  unfold sortAddresses
  simp only [Bool.false_eq_true, if_false]
  have inst1 : Std.Total (fun a b : Nat => candCount p a ≤ candCount p b) := ⟨fun a b => le_total _ _⟩
  have inst2 : IsTrans Nat (fun a b => candCount p a ≤ candCount p b) := ⟨fun a b c => le_trans⟩
  exact List.pairwise_insertionSort _ _

/-- Everything about a visit that does not depend on whether it is skipped. -/
theorem visit_common {σ : Type} {orig : List (Nat × FInst)} {program0 : List (Nat × List FInst)} {s : FwdSt σ}
    (e : ExactInv orig program0 s) {a : Nat} {rest : List Nat} (hadd : s.addresses = a :: rest)
    {pa : List FInst} (hpa : dictGet s.program a = some pa) (w : Visit) (hw : w.addr = a) (hl : w.ln = pa.length)
    (s' : FwdSt σ) (hlog : s'.log = s.log ++ [w]) (hperm : s'.addresses.Perm rest)
    (hnew : dictGet s'.program a = some pa)
    (hold : ∀ v ∈ s.log, dictGet s'.program v.addr = dictGet s.program v.addr) :
    (∀ pre v post, s'.log = pre ++ v :: post → ∀ l, dictGet program0 v.addr = some l →
      ∃ l', dictGet s'.program v.addr = some l' ∧ Left orig (pre.map (·.addr)) l l' ∧ v.ln = l'.length) ∧
    (∀ pre v post, s'.log = pre ++ v :: post → ∀ b, b ∈ post.map (·.addr) ∨ b ∈ s'.addresses →
      ∀ l, dictGet program0 b = some l → ∃ l', Left orig (pre.map (·.addr)) l l' ∧ v.ln ≤ l'.length) := by
  constructor
  · intro pre v post h l hl0
    rw [hlog] at h
    rcases split_snoc h with ⟨rfl, rfl, rfl⟩ | ⟨post', rfl, hL⟩
    · rw [hw] at hl0 ⊢
      obtain ⟨l', g1, g2⟩ := e.waiting a (by rw [hadd]; simp) l hl0
      rw [hpa] at g1
      cases g1
      exact ⟨pa, hnew, g2, hl⟩
    · obtain ⟨l', g1, g2⟩ := e.done pre v post' hL l hl0
      exact ⟨l', by rw [hold v (by rw [hL]; simp)]; exact g1, g2⟩
  · intro pre v post h b hb l hl0
    rw [hlog] at h
    rcases split_snoc h with ⟨rfl, rfl, rfl⟩ | ⟨post', rfl, hL⟩
    · simp only [List.map_nil, List.not_mem_nil, false_or] at hb
      have hbr : b ∈ rest := hperm.subset hb
      obtain ⟨l', g1, g2⟩ := e.waiting b (by rw [hadd]; simp [hbr]) l hl0
      refine ⟨l', g2, ?_⟩
      have := e.sorted
      rw [hadd, List.pairwise_cons] at this
      have := this.1 b hbr
      rw [candCount_of hpa, candCount_of g1] at this
      omega
    · refine e.order pre v post' hL b ?_ l hl0
      rcases hb with hb | hb
      · rw [List.map_append, List.mem_append] at hb
        rcases hb with hb | hb
        · exact Or.inl hb
        · simp only [List.map_cons, List.map_nil, List.mem_singleton] at hb
          right
          rw [hb, hw, hadd]
          simp
      · right
        rw [hadd]
        exact List.mem_cons_of_mem _ (hperm.subset hb)

theorem fwdFinish_exact {σ : Type} {B : Builder σ} (hB : B.forward = true) (hmin : B.fromMax = false)
    {orig : List (Nat × FInst)} {program0 : List (Nat × List FInst)} (hn : (orig.map (·.1)).Nodup)
    (hk : (program0.map (·.1)).Nodup)
    {s s' : FwdSt σ} (hkeys : (s.log.map (·.addr) ++ s.addresses).Perm (program0.map (·.1)))
    (e : ExactInv orig program0 s) {a : Nat} {rest : List Nat}
    (hadd : s.addresses = a :: rest) {pa : List FInst} (hpa : dictGet s.program a = some pa) {o c : FInst}
    (ho : dictGet orig a = some o) (hi : o.meta.ignore = false) {index : Nat} (hc : pa[index]? = some c)
    (hal : Alike c o) {sol : σ} (h : fwdFinish B s a rest pa index sol = .ok s') : ExactInv orig program0 s' := by
  have hnd : (s.log.map (·.addr) ++ s.addresses).Nodup := hkeys.nodup_iff.2 hk
  rw [hadd, List.nodup_append] at hnd
  obtain ⟨_, hnd2, hnd3⟩ := hnd
  obtain ⟨hnar, hndr⟩ := List.nodup_cons.1 hnd2
  have havs : a ∉ s.log.map (·.addr) := fun hm => hnd3 a hm a (by simp) rfl
  unfold fwdFinish at h
  rw [hc] at h
  simp only [hB, if_true, hmin, Except.ok.injEq] at h
  have hcnt : Exacts (updateBudget s.budget c) orig (s.log.map (·.addr) ++ [a]) := by
    unfold updateBudget
    rw [hal.ignore, hi]
    simp only [Bool.false_eq_true, if_false, hal.opcode, hal.cond, hal.used]
    exact ⟨e.counters.instrs.dec hn ho havs hi, e.counters.conds.dec hn ho havs hi, e.counters.stors.dec hn ho havs hi⟩
  have hget : ∀ b, dictGet (removeInvalid (updateBudget s.budget c) s.program rest) b =
      if b ∈ rest then (dictGet s.program b).map (removeAt (updateBudget s.budget c)) else dictGet s.program b :=
    fun b => removeInvalid_get _ _ _ _ hndr
  have hsd : SomeDefined orig (s.log.map (·.addr) ++ [a]) := ⟨a, by simp, o, dictGet_mem ho, hi⟩
  have hperm := sortAddresses_perm false (removeInvalid (updateBudget s.budget c) s.program rest) rest
  subst h
  obtain ⟨g1, g2⟩ := visit_common e hadd hpa ⟨a, index, pa.length, false⟩ rfl rfl
    { program := removeInvalid (updateBudget s.budget c) s.program rest, budget := updateBudget s.budget c
      addresses := sortAddresses false (removeInvalid (updateBudget s.budget c) s.program rest) rest
      sol := sol, log := s.log ++ [⟨a, index, pa.length, false⟩] } rfl hperm
    (by simp only; rw [hget, if_neg hnar]; exact hpa)
    (by
      intro v hv
      simp only
      rw [hget, if_neg]
      intro hr
      exact hnd3 v.addr (List.mem_map_of_mem hv) v.addr (List.mem_cons_of_mem _ hr) rfl)
  refine ⟨by simpa using hcnt, ?_, g1, sortAddresses_sorted _ _, g2⟩
  intro b hb l hl
  have hbr : b ∈ rest := hperm.subset hb
  obtain ⟨l', k1, k2⟩ := e.waiting b (by rw [hadd]; simp [hbr]) l hl
  refine ⟨removeAt (updateBudget s.budget c) l', ?_, ?_⟩
  · simp only
    rw [hget, if_pos hbr, k1]
    rfl
  · simpa using left_step hn hcnt hsd k2

theorem fwdTurn_exact {σ : Type} {B : Builder σ} (hB : B.forward = true) (hmin : B.fromMax = false)
    {orig : List (Nat × FInst)} {program0 : List (Nat × List FInst)} (h0 : Corrupted orig program0)
    {Q : σ → List Visit → Prop} {s s' : FwdSt σ} (hinv : FwdInv (dictGet orig) program0 Q s)
    (e : ExactInv orig program0 s) (h : fwdTurn B (dictGet orig) s = .ok s') : ExactInv orig program0 s' := by
  unfold fwdTurn at h
  split at h
  · cases h
  next a rest hadd =>
  split at h
  next pa ori hpa ho =>
    have hne : pa.length ≠ 0 := by
      intro hz; exact hinv.nonempty a pa hpa (List.length_eq_zero_iff.1 hz)
    by_cases hi : ori.meta.ignore = true
    · rw [if_pos (Or.inr hi)] at h
      cases h
      have hnd : (s.log.map (·.addr) ++ s.addresses).Nodup := hinv.perm.nodup_iff.2 h0.keys
      rw [hadd, List.nodup_append] at hnd
      have havs : a ∉ s.log.map (·.addr) := fun hm => hnd.2.2 a hm a (by simp) rfl
      obtain ⟨g1, g2⟩ := visit_common e hadd hpa ⟨a, 0, pa.length, true⟩ rfl rfl
        { s with addresses := rest, log := s.log ++ [⟨a, 0, pa.length, true⟩] } rfl (List.Perm.refl _) hpa
        (fun _ _ => rfl)
      refine ⟨?_, ?_, g1, ?_, g2⟩
      · have c := e.counters
        simp only [List.map_append, List.map_cons, List.map_nil]
        exact ⟨c.instrs.skip h0.addrs ho havs hi, c.conds.skip h0.addrs ho havs hi, c.stors.skip h0.addrs ho havs hi⟩
      · intro b hb l hl
        obtain ⟨l', k1, k2⟩ := e.waiting b (by rw [hadd]; exact List.mem_cons_of_mem _ hb) l hl
        refine ⟨l', k1, ?_⟩
        simpa using left_skip h0.addrs ho hi k2
      · have := e.sorted
        rw [hadd, List.pairwise_cons] at this
        exact this.2
    · rw [if_neg (by simp [hne, hi])] at h
      simp only [Bool.not_eq_true] at hi
      obtain ⟨pa0, hpa0, hsub⟩ := hinv.sub a pa hpa
      by_cases hl : 1 < pa.length
      · rw [if_pos hl] at h
        simp only [bind, Except.bind] at h
        split at h
        · cases h
        next i hf =>
        split at h
        · cases h
        next sol hs =>
        obtain ⟨c, hc, hcs, _⟩ := findIndex_first hf
        have hal : Alike c ori := h0.alike a pa0 ori (dictGet_mem hpa0) (dictGet_mem ho) c
          (hsub.subset (List.mem_of_getElem? hc)) hcs
        exact fwdFinish_exact hB hmin h0.addrs h0.keys hinv.perm e hadd hpa ho hi hc hal h
      · rw [if_neg hl] at h
        obtain ⟨x, hx⟩ : ∃ x, pa = [x] := List.length_eq_one_iff.1 (by omega)
        have hom := hinv.kept a pa ori hpa ho hi
        have hox : ori = x := by rw [hx] at hom; simpa using hom
        exact fwdFinish_exact hB hmin h0.addrs h0.keys hinv.perm e hadd hpa ho hi
          (index := 0) (c := x) (by rw [hx]; rfl) (by rw [hox]; exact ⟨rfl, rfl, rfl, rfl⟩) h
  · cases h

theorem exacts_start (orig : List (Nat × FInst)) (hn : (orig.map (·.1)).Nodup) :
    Exacts (budgetOf (orig.map (·.2))) orig [] := by
  obtain ⟨c1, c2, c3, _, _⟩ := C35_counts ((orig.map (·.2)).map (·.meta))
  have em : (orig.map (·.2)).map (·.meta) = orig.map (·.2.meta) := by rw [List.map_map]; rfl
  have total : ∀ {K : Type} [DecidableEq K] (g : MInst → List K) (k : K),
      need g (dictGet orig) (notVisited orig []) k = ((defined (orig.map (·.2.meta))).map fun i => (g i).count k).sum := by
    intro K _ g k
    have : notVisited orig [] = orig.map (·.1) := by
      unfold notVisited
      rw [List.filter_eq_self]
      simp
    rw [this, ← sum_defined, List.map_map]
    unfold need
    rw [List.map_map]
    congr 1
    apply List.map_congr_left
    intro p hp
    simp only [Function.comp]
    rw [dictGet_of_mem hn (show (p.1, p.2) ∈ orig from hp)]
  have one : ∀ {L : Type} [DecidableEq L] (g : MInst → L) (k : L) (l : List MInst),
      (l.map fun i => [g i].count k).sum = l.countP fun x => decide (g x = k) := by
    intro L _ g k l
    rw [← countP_sum]
    congr 1
    apply List.map_congr_left
    intro i _
    simp [List.count_singleton]
  rw [em] at c1 c2 c3
  unfold budgetOf
  simp only [em]
  refine ⟨?_, ?_, ?_⟩
  · intro k
    rw [total, one, dictGet_asInt, c2 k]
    split
    · next h => rw [h]; rfl
    · rfl
  · intro k
    rw [total, one, dictGet_asInt, c1 k]
    split
    · next h => rw [h]; rfl
    · rfl
  · intro k
    rw [total, dictGet_asInt, c3 k]
    split
    · next h => rw [h]; rfl
    · rfl

/-- **C90.**  When the enumerator has finished, exactly these candidates are left of an
address: if no address with a defined original was visited before it, all; otherwise
its last candidate, and those others that are defined and whose opcode, condition and
registers occur in originals that had not been visited before it.  It proceeds from
few candidates to many: whenever an address is visited, every address visited later
has at least as many candidates left at that time. -/
theorem C90_removed (orig : List (Nat × FInst)) (program : List (Nat × List FInst))
    (h : Corrupted orig program) (fuel : Nat) (hf : program.length < fuel) :
    ∃ s, fwdBuild enumBuilder (dictGet orig) fuel program (budgetOf (orig.map (·.2))) 1 = some (.ok s) ∧
      (s.log.map (·.addr)).Perm (program.map (·.1)) ∧
      ∀ pre v post, s.log = pre ++ v :: post →
        (∀ l, (v.addr, l) ∈ program → ∃ l', dictGet s.program v.addr = some l' ∧
          Left orig (pre.map (·.addr)) l l' ∧ v.ln = l'.length) ∧
        (∀ w ∈ post, ∀ l, (w.addr, l) ∈ program → ∃ l', Left orig (pre.map (·.addr)) l l' ∧ v.ln ≤ l'.length) := by
  obtain ⟨B, hB⟩ : ∃ B, ∀ a pa, dictGet program a = some pa → pa.length ≤ B := by
    refine ⟨(program.map fun p => p.2.length).sum, fun a pa hp => ?_⟩
    exact List.single_le_sum (by simp) _ (List.mem_map.2 ⟨_, dictGet_mem hp, rfl⟩)
  have hp := sortAddresses_perm enumBuilder.fromMax program (program.map (·.1))
  have hstart : FwdInv (dictGet orig) program (fun s log => s = enumNumber log)
      { program := program, budget := budgetOf (orig.map (·.2))
        addresses := sortAddresses enumBuilder.fromMax program (program.map (·.1))
        sol := 1, log := [] } := by
    have h0 := h.fwdOk
    refine ⟨rfl, by simpa using hp, fun a pa h => ⟨pa, h, List.Sublist.refl _⟩, ?_, ?_, h.covered.perm hp.symm,
      by simp, rfl⟩
    · intro a pa h hn
      obtain ⟨o, _, hm⟩ := h0.contains a pa h
      rw [hn] at hm; simp at hm
    · intro a pa o h ho _
      obtain ⟨o', ho', hm⟩ := h0.contains a pa h
      rw [ho] at ho'
      cases ho'
      exact hm
  have estart : ExactInv orig program
      { program := program, budget := budgetOf (orig.map (·.2))
        addresses := sortAddresses enumBuilder.fromMax program (program.map (·.1))
        sol := 1, log := [] } := by
    refine ⟨by simpa using exacts_start orig h.addrs, ?_, by simp, sortAddresses_sorted _ _, by simp⟩
    intro a _ l hl
    exact ⟨l, hl, fun _ => rfl, fun ⟨b, hb, _⟩ => by simp at hb⟩
  obtain ⟨s, h1, h2⟩ := whileLoop_count
    (cond := fun s : FwdSt Nat => decide (0 < s.addresses.length)) (body := fwdTurn enumBuilder (dictGet orig))
    (fun i s => (FwdInv (dictGet orig) program (fun s log => s = enumNumber log) s ∧ ExactInv orig program s) ∧
      i + s.addresses.length = program.length)
    program.length
    (by
      intro i s hi ⟨⟨h', e⟩, hl⟩
      have hpos : 0 < s.addresses.length := by omega
      refine ⟨by simpa using hpos, ?_⟩
      obtain ⟨s', g1, g2, g3⟩ := fwdTurn_inv h.fwdOk hB (enum_handles _) h' (List.ne_nil_of_length_pos hpos)
      exact ⟨s', g1, ⟨g2, fwdTurn_exact rfl rfl h h' e g1⟩, by omega⟩)
    (by intro s ⟨_, hl⟩; simp; exact List.length_eq_zero_iff.1 (by omega))
    program.length 0 _ (by simp) ⟨⟨hstart, estart⟩, by simpa using hp.length_eq⟩ fuel hf
  have he : s.addresses = [] := List.length_eq_zero_iff.1 (by omega)
  refine ⟨s, h1, by have := h2.1.1.perm; rwa [he, List.append_nil] at this, ?_⟩
  intro pre v post hs
  refine ⟨fun l hl => h2.1.2.done pre v post hs l (dictGet_of_mem h.keys hl), fun w hw l hl => ?_⟩
  exact h2.1.2.order pre v post hs w.addr (Or.inl (List.mem_map_of_mem hw)) l (dictGet_of_mem h.keys hl)

/-! ### A construction that ends has found every original -/

/-- What holds of every construction, whatever the programs. -/
structure FoundInv {σ : Type} (original : Nat → Option FInst) (program0 : List (Nat × List FInst)) (s : FwdSt σ) :
    Prop where
  sub : ∀ a pa, dictGet s.program a = some pa → ∃ pa0, dictGet program0 a = some pa0 ∧ pa.Sublist pa0
  found : ∀ v ∈ s.log, v.skipped = false → 1 < v.ln →
    ∃ pa o c, dictGet program0 v.addr = some pa ∧ original v.addr = some o ∧ c ∈ pa ∧ c.str = o.str

theorem removeInvalid_sub (m : Budget) (p0 : List (Nat × List FInst)) : ∀ (as : List Nat) (p : List (Nat × List FInst)),
    (∀ a pa, dictGet p a = some pa → ∃ pa0, dictGet p0 a = some pa0 ∧ pa.Sublist pa0) →
    ∀ a pa, dictGet (removeInvalid m p as) a = some pa → ∃ pa0, dictGet p0 a = some pa0 ∧ pa.Sublist pa0 := by
  intro as
  induction as with
  | nil => intro p h; exact h
  | cons b as ih =>
    intro p h
    unfold removeInvalid
    split
    · exact ih p h
    · next pb hb =>
      apply ih
      intro a pa ha
      rw [dictGet_dictSet] at ha
      split at ha
      · next e =>
        subst e
        cases ha
        obtain ⟨pa0, h1, h2⟩ := h b pb hb
        exact ⟨pa0, h1, (removeAt_sublist m pb).trans h2⟩
      · exact h a pa ha

theorem fwdFinish_found {σ : Type} {B : Builder σ} {original : Nat → Option FInst}
    {program0 : List (Nat × List FInst)} {s s' : FwdSt σ} (i : FoundInv original program0 s) {a : Nat}
    {rest : List Nat} {pa : List FInst} {index : Nat} {sol : σ}
    (hv : 1 < pa.length → ∃ pa o c, dictGet program0 a = some pa ∧ original a = some o ∧ c ∈ pa ∧ c.str = o.str)
    (h : fwdFinish B s a rest pa index sol = .ok s') : FoundInv original program0 s' := by
  unfold fwdFinish at h
  split at h
  · cases h
  · cases h
    refine ⟨?_, ?_⟩
    · simp only
      split
      · exact removeInvalid_sub _ _ _ _ i.sub
      · exact i.sub
    · intro v hv' hs hl
      simp only [List.mem_append, List.mem_singleton] at hv'
      rcases hv' with hv' | rfl
      · exact i.found v hv' hs hl
      · exact hv hl

/-- **C90 (a missing original is noticed)**: whatever the original program and the
candidates, a construction that ends without an exception has found, at every address
it had to decide, a candidate printed like the original.  So a corrupted program from
which the original of such an address is missing makes it raise. -/
theorem C90_found {σ : Type} (B : Builder σ) (original : Nat → Option FInst) (fuel : Nat)
    (program : List (Nat × List FInst)) (budget : Budget) (sol : σ) (s : FwdSt σ)
    (h : fwdBuild B original fuel program budget sol = some (.ok s)) (v : Visit) (hv : v ∈ s.log)
    (hs : v.skipped = false) (hl : 1 < v.ln) :
    ∃ pa o c, dictGet program v.addr = some pa ∧ original v.addr = some o ∧ c ∈ pa ∧ c.str = o.str := by
  have key : ∀ (fuel : Nat) (s0 : FwdSt σ), FoundInv original program s0 →
      whileLoop (fun s : FwdSt σ => decide (0 < s.addresses.length)) (fwdTurn B original) fuel s0 = some (.ok s) →
      FoundInv original program s := by
    intro fuel
    induction fuel with
    | zero => intro s0 _ h; simp [whileLoop] at h
    | succ fuel ih =>
      intro s0 i h
      rw [whileLoop] at h
      split at h
      · split at h
        · cases h
        next s1 h1 =>
        refine ih s1 ?_ h
        unfold fwdTurn at h1
        split at h1
        · cases h1
        next a rest hadd =>
        split at h1
        next pa ori hpa ho =>
          split at h1
          · cases h1
            refine ⟨i.sub, ?_⟩
            intro v hv hs hl
            simp only [List.mem_append, List.mem_singleton] at hv
            rcases hv with hv | rfl
            · exact i.found v hv hs hl
            · cases hs
          · split at h1
            · simp only [bind, Except.bind] at h1
              split at h1
              · cases h1
              next j hf =>
              split at h1
              · cases h1
              next sol' hs =>
              obtain ⟨c, hc, hcs, _⟩ := findIndex_first hf
              obtain ⟨pa0, k1, k2⟩ := i.sub a pa hpa
              exact fwdFinish_found i
                (fun _ => ⟨pa0, ori, c, k1, ho, k2.subset (List.mem_of_getElem? hc), hcs⟩) h1
            · next hn =>
              exact fwdFinish_found i (fun e => absurd e hn) h1
        · cases h1
      · cases h
        exact i
  exact (key fuel _ ⟨fun a pa h => ⟨pa, h, List.Sublist.refl _⟩, by simp⟩ h).found v hv hs hl

/-- An instruction with opcode `op`, condition `cond` and one register. -/
def fwdSample (str op : Nat) (cond : Int) (r : Nat) : FInst := ⟨⟨false, 0, cond, op, [r], [r], []⟩, [r], str⟩

/-- Address 0 is decided first.  At address 4 the candidate with opcode 1, which only
the original of address 0 has, is removed; the last candidate of address 8, with a
register no original has, stays. -/
example : (fwdBuild enumBuilder (dictGet [(0, fwdSample 10 1 14 0), (4, fwdSample 20 2 14 1), (8, fwdSample 30 2 0 1)]) 5
      [(0, [fwdSample 10 1 14 0]), (4, [fwdSample 21 1 14 1, fwdSample 20 2 14 1]),
       (8, [fwdSample 30 2 0 1, fwdSample 31 2 14 1, fwdSample 32 2 0 1, fwdSample 33 2 0 9])]
      (budgetOf [fwdSample 10 1 14 0, fwdSample 20 2 14 1, fwdSample 30 2 0 1]) 1).map
      (fun r => r.map fun s => (s.program.map fun q => (q.1, q.2.map (·.str)), s.log.map (·.addr), s.sol)) =
    some (.ok ([(0, [10]), (4, [20]), (8, [30, 32, 33])], [0, 4, 8], 1)) := by decide +kernel

/-- The original of address 0 is missing. -/
example : (fwdBuild enumBuilder (dictGet [(0, fwdSample 10 1 14 0)]) 5
      [(0, [fwdSample 11 1 14 0, fwdSample 12 1 14 0])] (budgetOf [fwdSample 10 1 14 0]) 1).map
      (fun r => r.map fun s => s.sol) = some (.error .runtime) := by decide +kernel

end Verif
