import Verif.Proof.RecoveryFrame
import Verif.Props.Recuperator
import Verif.Proof.Evidence
import Verif.Props.Metadata
import Verif.Spec.Evidence

/-!
# C135: what the recovery uses of the original program

Only the counts of the conditions, opcodes and registers that occur in the
candidates, and the shortest and longest distances of the registers they read.
-/

namespace Verif

namespace Spec

/-- Two programs say the same about a candidate: its condition and its opcode are
as frequent in both, and, unless it is a branch, a push or a pop, the registers it
uses are as often used, and the shortest and the longest distance between a write
and a read of a register it reads are the same. -/
structure SaysTheSame (p p' : List MInst) (x : Cand) : Prop where
  cond : (defined p').countP (fun i => decide (i.cond = x.m.cond)) =
    (defined p).countP fun i => decide (i.cond = x.m.cond)
  op : (defined p').countP (fun i => decide (i.opcode = x.m.opcode)) =
    (defined p).countP fun i => decide (i.opcode = x.m.opcode)
  used : x.isBranch = false → x.isPush = false → x.isPop = false → ∀ r ∈ x.m.used, uses p' r = uses p r
  near : x.isBranch = false → x.isPush = false → x.isPop = false → ∀ r ∈ x.m.read, r < 20 →
    (distances (defined p') r).min? = (distances (defined p) r).min?
  far : x.isBranch = false → x.isPush = false → x.isPop = false → ∀ r ∈ x.m.read, r < 20 →
    (distances (defined p') r).max? = (distances (defined p) r).max?

/-- An instruction of the original program has nothing to do with a candidate. -/
structure Unrelated (z : MInst) (x : Cand) : Prop where
  cond : z.cond ≠ x.m.cond
  op : z.opcode ≠ x.m.opcode
  used : ∀ r ∈ x.m.used, r ∉ z.used
  read : ∀ r ∈ x.m.read, r ∉ z.read

end Spec

open Spec

/-- What two collectors answer about a candidate. -/
structure SameFor (c c' : Collector) (x : Cand) : Prop where
  cond : dictGet c'.conditionCnt x.m.cond = dictGet c.conditionCnt x.m.cond
  op : dictGet c'.instructionCnt x.m.opcode = dictGet c.instructionCnt x.m.opcode
  used : (x.isBranch || x.isPushPop) = false → ∀ r ∈ x.m.used, dictGet c'.storageCnt r = dictGet c.storageCnt r
  near : (x.isBranch || x.isPushPop) = false → ∀ r ∈ x.m.read, dictGet c'.minDist r = dictGet c.minDist r
  far : (x.isBranch || x.isPushPop) = false → ∀ r ∈ x.m.read, dictGet c'.maxDist r = dictGet c.maxDist r

theorem sameFor {p p' : List MInst} {x : Cand} (h : SaysTheSame p p' x) :
    SameFor (collectMeta {} p) (collectMeta {} p') x := by
  obtain ⟨a1, a2, a3, -, -⟩ := C35_counts p
  obtain ⟨b1, b2, b3, -, -⟩ := C35_counts p'
  have hk : ∀ hb : (x.isBranch || x.isPushPop) = false, x.isBranch = false ∧ x.isPush = false ∧ x.isPop = false := by
    intro hb
    simpa [Cand.isPushPop] using hb
  constructor
  · rw [a1, b1, h.cond]
  · rw [a2, b2, h.op]
  · intro hb r hr
    obtain ⟨k1, k2, k3⟩ := hk hb
    have := h.used k1 k2 k3 r hr
    unfold uses at this
    rw [a3, b3, this]
  · intro hb r hr
    obtain ⟨k1, k2, k3⟩ := hk hb
    by_cases hl : r < 20
    · rw [(C36_distances p r hl).1, (C36_distances p' r hl).1, h.near k1 k2 k3 r hr hl]
    · rw [(C36_untracked p r (by omega)).1, (C36_untracked p' r (by omega)).1]
  · intro hb r hr
    obtain ⟨k1, k2, k3⟩ := hk hb
    by_cases hl : r < 20
    · rw [(C36_distances p r hl).2.1, (C36_distances p' r hl).2.1, h.far k1 k2 k3 r hr hl]
    · rw [(C36_untracked p r (by omega)).2, (C36_untracked p' r (by omega)).2]

theorem regMin_frame (num num' den : List (Nat × Nat)) (l : List Nat)
    (h : ∀ r ∈ l, dictGet num' r = dictGet num r) : ∀ q : Rat, regMin num' den l q = regMin num den l q := by
  induction l with
  | nil => intro q; rfl
  | cons r l ih =>
    intro q
    simp only [regMin, h r (by simp), ih fun r hr => h r (by simp [hr])]

theorem readLoop_frame (c c' : Collector) (p : CProg) (a : Int) (l : List Nat)
    (h1 : ∀ r ∈ l, dictGet c'.minDist r = dictGet c.minDist r)
    (h2 : ∀ r ∈ l, dictGet c'.maxDist r = dictGet c.maxDist r) :
    ∀ q : Rat, readLoop c' p a l q = readLoop c p a l q := by
  induction l with
  | nil => intro q; rfl
  | cons r l ih =>
    intro q
    have hb : distBounds c' r = distBounds c r := by
      unfold distBounds; rw [h1 r (by simp), h2 r (by simp)]
    simp only [readLoop, hb, ih (fun r hr => h1 r (by simp [hr])) (fun r hr => h2 r (by simp [hr]))]

theorem scoreCand_frame {c c' : Collector} (fns : Fns) (p : CProg) (cp : Counters) (pl : Place) (x : Scored)
    (h : x.c.m.ignore = false → SameFor c c' x.c) : scoreCand c' fns p cp pl x = scoreCand c fns p cp pl x := by
  unfold scoreCand
  split
  · rfl
  · rename_i hi
    have h := h (by simpa using hi)
    have e1 : ratioOr0 c'.conditionCnt cp.1 x.c.m.cond = ratioOr0 c.conditionCnt cp.1 x.c.m.cond := by
      unfold ratioOr0; rw [h.cond]
    have e2 : ratioOr0 c'.instructionCnt cp.2.1 x.c.m.opcode = ratioOr0 c.instructionCnt cp.2.1 x.c.m.opcode := by
      unfold ratioOr0; rw [h.op]
    have e3 : computeRegisters c' cp x.c = computeRegisters c cp x.c := by
      unfold computeRegisters
      split
      · rfl
      · rename_i hb
        rw [regMin_frame _ _ _ _ (h.used (by simpa using hb))]
    have e4 : computeDistance c' p x.c pl.addr = computeDistance c p x.c pl.addr := by
      unfold computeDistance
      split
      · rfl
      · rename_i hb
        rw [readLoop_frame c c' p _ _ (h.near (by simpa using hb)) (h.far (by simpa using hb))]
    rw [e1, e2, e3, e4]

theorem scoreCand_c {c : Collector} {fns : Fns} {p : CProg} {cp : Counters} {pl : Place} {x y : Scored}
    (h : scoreCand c fns p cp pl x = .ok y) : y.c = x.c := by
  unfold scoreCand at h
  split at h
  · cases h; rfl
  · cases h1 : ratioOr0 c.conditionCnt cp.1 x.c.m.cond with
    | error e => rw [h1] at h; simp [bind, Except.bind] at h
    | ok v1 =>
    cases h2 : ratioOr0 c.instructionCnt cp.2.1 x.c.m.opcode with
    | error e => rw [h1, h2] at h; simp [bind, Except.bind] at h
    | ok v2 =>
    cases h3 : computeRegisters c cp x.c with
    | error e => rw [h1, h2, h3] at h; simp [bind, Except.bind] at h
    | ok v3 =>
    cases h4 : computePushPop p fns x.c pl.addr pl.currentFn with
    | error e => rw [h1, h2, h3, h4] at h; simp [bind, Except.bind] at h
    | ok v4 =>
    cases h5 : computeBranch fns x.c pl.currentFn pl.low pl.high with
    | error e => rw [h1, h2, h3, h4, h5] at h; simp [bind, Except.bind] at h
    | ok v5 =>
      rw [h1, h2, h3, h4, h5] at h
      simp only [bind, Except.bind] at h
      split at h
      · cases h; rfl
      · cases h6 : computeCfg p x.c pl.addr with
        | error e => rw [h6] at h; simp at h
        | ok v6 => rw [h6] at h; cases h; rfl

/-- The answers needed are the same for every defined candidate. -/
def Framed (c c' : Collector) (x : Scored) : Prop := x.c.m.ignore = false → SameFor c c' x.c

theorem mapM_frame {α : Type} (f g : α → Py α) (l : List α) (h : ∀ x ∈ l, g x = f x) : l.mapM g = l.mapM f := by
  induction l with
  | nil => rfl
  | cons x l ih =>
    rw [List.mapM_cons, List.mapM_cons, h x (by simp), ih fun y hy => h y (by simp [hy])]

theorem mapM_mem {α : Type} (f : α → Py α) (P : α → Prop) (h : ∀ x y, f x = .ok y → P x → P y) : ∀ (l l' : List α),
    l.mapM f = .ok l' → (∀ x ∈ l, P x) → ∀ y ∈ l', P y := by
  intro l
  induction l with
  | nil =>
    intro l' hl _
    rw [List.mapM_nil] at hl
    cases hl
    simp
  | cons x l ih =>
    intro l' hl hp
    rw [List.mapM_cons] at hl
    cases hx : f x with
    | error e => rw [hx] at hl; simp [bind, Except.bind] at hl
    | ok y =>
      cases hr : l.mapM f with
      | error e => rw [hx, hr] at hl; simp [bind, Except.bind] at hl
      | ok ys =>
        rw [hx, hr] at hl
        simp only [bind, Except.bind, pure, Except.pure, Except.ok.injEq] at hl
        subst hl
        intro z hz
        rcases List.mem_cons.1 hz with rfl | hz
        · exact h x _ hx (hp x (by simp))
        · exact ih ys hr (fun w hw => hp w (by simp [hw])) z hz

theorem scoreOne_frame {c c' : Collector} (fns : Fns) (p : CProg) (cp : Counters) (pl : Place) (x : RInst Scored)
    (h : Framed c c' x.data) : scoreOne c' fns p cp pl x = scoreOne c fns p cp pl x := by
  unfold scoreOne; rw [scoreCand_frame fns p cp pl x.data h]

theorem scoreOne_same {c : Collector} {fns : Fns} {p : CProg} {cp : Counters} {pl : Place} {x y : RInst Scored}
    (h : scoreOne c fns p cp pl x = .ok y) : y.data.c = x.data.c := by
  unfold scoreOne at h
  cases h1 : scoreCand c fns p cp pl x.data with
  | error e => rw [h1] at h; simp [bind, Except.bind] at h
  | ok d =>
    rw [h1] at h
    simp only [bind, Except.bind] at h
    cases h2 : scoreOf d with
    | error e => rw [h2] at h; simp at h
    | ok v => rw [h2] at h; cases h; exact scoreCand_c h1

theorem scoreLoop_frame {c c' : Collector} (fns : Fns) (p : CProg) (cp : Counters) (lo hi : Int)
    (l : List (Int × List (RInst Scored))) : (∀ q ∈ l, ∀ x ∈ q.2, Framed c c' x.data) → ∀ (b : Bool) (cur : Int),
    scoreLoop c' fns p cp lo hi b cur l = scoreLoop c fns p cp lo hi b cur l := by
  induction l with
  | nil => intros; rfl
  | cons q l ih =>
    intro h b cur
    unfold scoreLoop
    simp only []
    generalize (if (dictGet fns q.1).isSome = true then q.1 else cur) = k
    rw [mapM_frame (scoreOne c fns p cp ⟨q.1, k, lo, hi, b⟩) (scoreOne c' fns p cp ⟨q.1, k, lo, hi, b⟩) q.2
      (fun x hx => scoreOne_frame fns p cp _ x (h q (by simp) x hx)), ih fun r hr => h r (by simp [hr])]

theorem scoreLoop_all {c : Collector} (P : Cand → Prop) (fns : Fns) (p : CProg) (cp : Counters) (lo hi : Int)
    (l : List (Int × List (RInst Scored))) : (∀ q ∈ l, ∀ x ∈ q.2, P x.data.c) →
    ∀ (b : Bool) (cur : Int) (r : List (List (RInst Scored))), scoreLoop c fns p cp lo hi b cur l = .ok r →
    AllData (fun s : Scored => P s.c) r := by
  induction l with
  | nil =>
    intro _ b cur r h
    simp only [scoreLoop, Except.ok.injEq] at h
    subst h
    intro v hv; simp at hv
  | cons q l ih =>
    intro hp b cur r h
    unfold scoreLoop at h
    simp only [] at h
    generalize (if (dictGet fns q.1).isSome = true then q.1 else cur) = k at h
    cases h1 : q.2.mapM (scoreOne c fns p cp ⟨q.1, k, lo, hi, b⟩) with
    | error e => rw [h1] at h; simp [bind, Except.bind] at h
    | ok v =>
      cases h2 : scoreLoop c fns p cp lo hi false k l with
      | error e => rw [h1, h2] at h; simp [bind, Except.bind] at h
      | ok rest =>
        rw [h1, h2] at h
        simp only [bind, Except.bind, pure, Except.pure, Except.ok.injEq] at h
        subst h
        intro w hw x hx
        rcases List.mem_cons.1 hw with rfl | hw
        · exact mapM_mem _ (fun y : RInst Scored => P y.data.c)
            (fun a b hab ha => by rw [scoreOne_same hab]; exact ha) q.2 _ h1 (hp q (by simp)) x hx
        · exact ih (fun r hr => hp r (by simp [hr])) false k rest h2 w hw x hx

theorem zip_all {P : RInst Scored → Prop} (addrs : List Int) (prog : List (List (RInst Scored)))
    (h : ∀ v ∈ prog, ∀ x ∈ v, P x) : ∀ q ∈ addrs.zip prog, ∀ x ∈ q.2, P x :=
  fun q hq x hx => h q.2 (List.of_mem_zip (a := q.1) (b := q.2) hq).2 x hx

/-- **C135.**  If two original programs say the same about every defined candidate,
the recovery with the counts and distances of the one runs exactly as with those of
the other: the same passes, exceptions, evidence, scores and remaining candidates.
-/
theorem C135_frame (p p' : List MInst) (fns : Fns) (addrs : List Int) (os : List (RInst Scored))
    (prog : List (List (RInst Scored)))
    (h : ∀ v ∈ prog, ∀ x ∈ v, x.data.c.m.ignore = false → SaysTheSame p p' x.data.c) (fuel : Nat) :
    recoveryLoop (fun _ q => recuperate (collectMeta {} p') fns addrs q) os fuel prog =
    recoveryLoop (fun _ q => recuperate (collectMeta {} p) fns addrs q) os fuel prog := by
  refine loop_allData (Framed (collectMeta {} p) (collectMeta {} p')) _ _ ?_ ?_ os prog
    (fun v hv x hx hi => sameFor (h v hv x hx hi)) fuel
  · intro _ q r hr hq
    unfold recuperate at hr
    cases addrs with
    | nil => simp at hr
    | cons a as =>
      simp only [] at hr
      cases hl : (a :: as).getLast? with
      | none => rw [hl] at hr; simp at hr
      | some z =>
        rw [hl] at hr
        exact scoreLoop_all (fun x => x.m.ignore = false → SameFor (collectMeta {} p) (collectMeta {} p') x)
          fns _ _ _ _ _ (zip_all (a :: as) q hq) _ _ r hr
  · intro _ q hq
    unfold recuperate
    cases addrs with
    | nil => rfl
    | cons a as =>
      simp only []
      cases (a :: as).getLast? with
      | none => rfl
      | some z =>
        simp only []
        exact scoreLoop_frame fns _ _ _ _ _ (zip_all (a :: as) q hq) _ _

theorem distances_unread (p q : List MInst) (s : Nat) (h : ∀ z ∈ q, s ∉ z.read) :
    distances (p ++ q) s = distances p s := by
  induction q using List.reverseRecOn with
  | nil => rw [List.append_nil]
  | append_singleton q z ih =>
    rw [← List.append_assoc, distances_append, ih fun w hw => h w (by simp [hw])]
    have : distAt (p ++ q ++ [z]) s (p ++ q).length = none := by
      unfold distAt
      rw [List.getElem?_concat_length]
      cases lastTouch (p ++ q ++ [z]) s (p ++ q).length with
      | none => rfl
      | some i =>
        simp only []
        cases (p ++ q ++ [z])[i]? with
        | none => rfl
        | some x => simp only []; rw [if_neg fun hc => h z (by simp) hc.1]
    rw [this]
    simp

/-- **C135.**  In particular, appending to the original program instructions that
have nothing to do with any defined candidate changes nothing; they may write the
registers the candidates only read. -/
theorem C135_appended (p zs : List MInst) (fns : Fns) (addrs : List Int) (os : List (RInst Scored))
    (prog : List (List (RInst Scored)))
    (h : ∀ z ∈ zs, z.ignore = false → ∀ v ∈ prog, ∀ x ∈ v, x.data.c.m.ignore = false → Unrelated z x.data.c)
    (fuel : Nat) :
    recoveryLoop (fun _ q => recuperate (collectMeta {} (p ++ zs)) fns addrs q) os fuel prog =
    recoveryLoop (fun _ q => recuperate (collectMeta {} p) fns addrs q) os fuel prog := by
  apply C135_frame
  intro v hv x hx hi
  have hd : defined (p ++ zs) = defined p ++ defined zs := List.filter_append ..
  have hz : ∀ z ∈ defined zs, Unrelated z x.data.c := by
    intro z hz
    obtain ⟨h1, h2⟩ := List.mem_filter.1 hz
    exact h z h1 (by simpa using h2) v hv x hx hi
  constructor
  · rw [hd, List.countP_append, Nat.add_eq_left]
    exact List.countP_eq_zero.2 fun z hz' => by simpa using (hz z hz').cond
  · rw [hd, List.countP_append, Nat.add_eq_left]
    exact List.countP_eq_zero.2 fun z hz' => by simpa using (hz z hz').op
  · intro _ _ _ r hr
    unfold uses
    rw [hd, List.map_append, List.sum_append]
    have : ((defined zs).map fun i => i.used.count r).sum = 0 := by
      apply List.sum_eq_zero
      intro n hn
      obtain ⟨z, hz', rfl⟩ := List.mem_map.1 hn
      exact List.count_eq_zero.2 ((hz z hz').used r hr)
    omega
  · intro _ _ _ r hr _
    rw [hd, distances_unread _ _ _ fun z hz' => (hz z hz').read r hr]
  · intro _ _ _ r hr _
    rw [hd, distances_unread _ _ _ fun z hz' => (hz z hz').read r hr]

/-- Two function tables know the same targets of a candidate. -/
def SameTarget (fns fns' : Fns) (x : Cand) : Prop :=
  x.m.ignore = false → x.isBranch = true → ∀ j, x.jump = some j → (dictGet fns' j).isSome = (dictGet fns j).isSome

theorem scoreCand_fns {c : Collector} {fns fns' : Fns} (p : CProg) (cp : Counters) (pl : Place) (x : Scored)
    (h1 : dictGet fns' pl.addr = dictGet fns pl.addr) (h2 : dictGet fns' pl.currentFn = dictGet fns pl.currentFn)
    (h : SameTarget fns fns' x.c) : scoreCand c fns' p cp pl x = scoreCand c fns p cp pl x := by
  have e1 : computePushPop p fns' x.c pl.addr pl.currentFn = computePushPop p fns x.c pl.addr pl.currentFn := by
    unfold computePushPop
    rw [h1]
  have e2 : computeBranch fns' x.c pl.currentFn pl.low pl.high = computeBranch fns x.c pl.currentFn pl.low pl.high := by
    unfold computeBranch
    split
    · rfl
    · rename_i hb
      have hb : x.c.m.ignore = false ∧ x.c.isBranch = true := by simpa using hb
      cases hj : x.c.jump with
      | none => rfl
      | some j =>
        have he : computeBranch.elsewhere fns' pl.low pl.high j = computeBranch.elsewhere fns pl.low pl.high j := by
          unfold computeBranch.elsewhere
          rw [h hb.1 hb.2 j hj]
        simp only [h2, he]
  unfold scoreCand
  rw [e1, e2]

theorem scoreLoop_fns {c : Collector} {fns fns' : Fns} (p : CProg) (cp : Counters) (lo hi : Int)
    (addrs : List Int) (ha : ∀ a ∈ addrs, dictGet fns' a = dictGet fns a)
    (l : List (Int × List (RInst Scored))) : (∀ q ∈ l, q.1 ∈ addrs) →
    (∀ q ∈ l, ∀ x ∈ q.2, SameTarget fns fns' x.data.c) → ∀ (b : Bool) (cur : Int), cur ∈ addrs →
    scoreLoop c fns' p cp lo hi b cur l = scoreLoop c fns p cp lo hi b cur l := by
  induction l with
  | nil => intros; rfl
  | cons q l ih =>
    intro hl h b cur hc
    have hq := hl q (by simp)
    unfold scoreLoop
    simp only []
    rw [ha q.1 hq]
    have hk : (if (dictGet fns q.1).isSome = true then q.1 else cur) ∈ addrs := by split <;> assumption
    generalize (if (dictGet fns q.1).isSome = true then q.1 else cur) = k at hk
    rw [mapM_frame (scoreOne c fns p cp ⟨q.1, k, lo, hi, b⟩) (scoreOne c fns' p cp ⟨q.1, k, lo, hi, b⟩) q.2
      (fun x hx => by
        unfold scoreOne
        rw [scoreCand_fns p cp ⟨q.1, k, lo, hi, b⟩ x.data (ha q.1 hq) (ha k hk) (h q (by simp) x hx)]),
      ih (fun r hr => hl r (by simp [hr])) (fun r hr => h r (by simp [hr])) false k hk]

/-- **C135.**  Of the function table the recovery uses only the functions that start
at an address of the program, and whether a function starts where a candidate
branch jumps to. -/
theorem C135_functions (coll : Collector) (fns fns' : Fns) (addrs : List Int) (os : List (RInst Scored))
    (prog : List (List (RInst Scored))) (ha : ∀ a ∈ addrs, fns'.lookup a = fns.lookup a)
    (h : ∀ v ∈ prog, ∀ x ∈ v, x.data.c.m.ignore = false → x.data.c.isBranch = true → ∀ j, x.data.c.jump = some j →
      (fns'.lookup j).isSome = (fns.lookup j).isSome) (fuel : Nat) :
    recoveryLoop (fun _ q => recuperate coll fns' addrs q) os fuel prog =
    recoveryLoop (fun _ q => recuperate coll fns addrs q) os fuel prog := by
  simp only [← dictGet_lookup] at ha h
  refine loop_allData (fun s : Scored => SameTarget fns fns' s.c) _ _ ?_ ?_ os prog
    (fun v hv x hx hi hb => h v hv x hx hi hb) fuel
  · intro _ q r hr hq
    unfold recuperate at hr
    cases addrs with
    | nil => simp at hr
    | cons a as =>
      simp only [] at hr
      cases hl : (a :: as).getLast? with
      | none => rw [hl] at hr; simp at hr
      | some z =>
        rw [hl] at hr
        exact scoreLoop_all (SameTarget fns fns') fns _ _ _ _ _ (zip_all (a :: as) q hq) _ _ r hr
  · intro _ q hq
    unfold recuperate
    cases addrs with
    | nil => rfl
    | cons a as =>
      simp only []
      cases (a :: as).getLast? with
      | none => rfl
      | some z =>
        simp only []
        exact scoreLoop_fns _ _ _ _ (a :: as) ha _
          (fun r hr => (List.of_mem_zip (a := r.1) (b := r.2) hr).1) (zip_all (a :: as) q hq) _ _ (by simp)

/-- The original program of the example. -/
def frameOrig : List Cand := [ordinary 10 14 2 [17, 2], ordinary 20 0 3 [3]]

/-- A corrupted form of it. -/
def frameProg : List (List Cand) :=
  [[ordinary 10 14 2 [17, 2], ordinary 11 0 3 [1, 3]], [ordinary 20 0 3 [3], ordinary 21 14 2 [3, 1]]]

/-- The encodings and scores after scoring with the counts of some instructions. -/
def frameScores (p : List Cand) : Option (List (List (Nat × Rat))) :=
  ((recuperate (collectMeta {} (p.map (·.m))) [(0, (0, 4))] [0, 4] (frameProg.map (List.map fresh))).toOption).map
    (List.map (List.map fun x => (x.enc, x.score)))

/-- An unrelated instruction changes no score; one more instruction with the opcode
of a candidate does. -/
theorem C135_case :
    (∀ v ∈ frameProg, ∀ x ∈ v, (ordinary 30 5 9 [7, 8]).m.cond ≠ x.m.cond ∧ (ordinary 30 5 9 [7, 8]).m.opcode ≠ x.m.opcode ∧
      (∀ r ∈ x.m.used, r ∉ (ordinary 30 5 9 [7, 8]).m.used) ∧ ∀ r ∈ x.m.read, r ∉ (ordinary 30 5 9 [7, 8]).m.read) ∧
    frameScores frameOrig = some [[(10, 1), (11, 0)], [(20, 13 / 160000), (21, 0)]] ∧
    frameScores (frameOrig ++ [ordinary 30 5 9 [7, 8]]) = some [[(10, 1), (11, 0)], [(20, 13 / 160000), (21, 0)]] ∧
    frameScores (frameOrig ++ [ordinary 30 5 3 [7, 8]]) ≠ frameScores frameOrig := by decide +kernel

/-- The scores of a program with a branch to 100, with a function table. -/
def tableScores (fns : Fns) : Option (List (List (Nat × Rat))) :=
  ((recuperate (collectMeta {} [(branchCand 20 0 100).m, (ordinary 10 14 2 [2]).m]) fns [0, 4]
    [[fresh (ordinary 10 14 2 [2]), fresh (ordinary 11 0 7 [2])],
     [fresh (branchCand 20 0 100), fresh (ordinary 21 14 2 [2])]]).toOption).map
    (List.map (List.map fun x => (x.enc, x.score)))

/-- A function that starts elsewhere changes no score, one that starts at the target
of a branch does. -/
theorem C135_functions_case :
    tableScores [(0, (0, 4)), (300, (300, 304))] = tableScores [(0, (0, 4))] ∧
    tableScores [(0, (0, 4)), (100, (100, 104))] ≠ tableScores [(0, (0, 4))] := by decide +kernel

end Verif
