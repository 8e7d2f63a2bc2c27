import Verif.Proof.SsaLeft
import Verif.Proof.DomOrder
import Verif.Spec.SsaTrace

/-! # Renaming follows its steps -/

namespace Verif
open Spec (Step)

/-- A step on the numbers of names. -/
def stepH (h : Nat → Nat) (st : Step) : Except Err (Nat → Nat) :=
  if st.reg < 20 then
    match st with
    | .define x => .ok (put h x (h x + 1))
    | .use x => if h x = 0 then .error .index else .ok h
    | .drop x => if h x = 0 then .error .index else .ok (put h x (h x - 1))
  else .error .key

theorem stepH_define (h : Nat → Nat) (x : Nat) :
    stepH h (.define x) = if x < 20 then .ok (put h x (h x + 1)) else .error .key := rfl

theorem stepH_use (h : Nat → Nat) (x : Nat) : stepH h (.use x) =
    if x < 20 then (if h x = 0 then .error .index else .ok h) else .error .key := rfl

theorem stepH_drop (h : Nat → Nat) (x : Nat) : stepH h (.drop x) =
    if x < 20 then (if h x = 0 then .error .index else .ok (put h x (h x - 1))) else .error .key := rfl

def scan (t : List Step) (h : Nat → Nat) : Except Err (Nat → Nat) := t.foldlM stepH h

theorem scan_append (t u : List Step) (h : Nat → Nat) : scan (t ++ u) h = scan t h >>= scan u := by
  unfold scan
  rw [List.foldlM_append]

theorem scan_cons (a : Step) (t : List Step) (h : Nat → Nat) : scan (a :: t) h = stepH h a >>= scan t := by
  unfold scan
  rw [List.foldlM_cons]

/-- A computation makes the steps. -/
def Tracks {σ : Type} (hgt : σ → Nat → Nat) (ok : σ → Prop) (m : Run σ) (t : List Step) (h : Nat → Nat) : Prop :=
  match scan t h with
  | .ok h' => ∃ s', m = pure s' ∧ hgt s' = h' ∧ ok s'
  | .error e => m = raiseRun e

theorem tracks_pure {σ : Type} {hgt : σ → Nat → Nat} {ok : σ → Prop} {s : σ} (h : ok s) :
    Tracks hgt ok (pure s) [] (hgt s) := ⟨s, rfl, rfl, h⟩

theorem tracks_bind {σ τ : Type} {hgt : σ → Nat → Nat} {hgt' : τ → Nat → Nat} {ok : σ → Prop} {ok' : τ → Prop}
    {m : Run σ} {f : σ → Run τ} {t u : List Step} {h : Nat → Nat} (h1 : Tracks hgt ok m t h)
    (h2 : ∀ s, ok s → Tracks hgt' ok' (f s) u (hgt s)) : Tracks hgt' ok' (m >>= f) (t ++ u) h := by
  unfold Tracks at h1 ⊢
  rw [scan_append]
  cases hs : scan t h with
  | error e =>
    rw [hs] at h1
    show m >>= f = raiseRun e
    rw [h1]
    rfl
  | ok h' =>
    rw [hs] at h1
    obtain ⟨s', rfl, rfl, h4⟩ := h1
    exact h2 s' h4

theorem tracks_imp {σ : Type} {hgt : σ → Nat → Nat} {ok ok' : σ → Prop} {m : Run σ} {t : List Step} {h : Nat → Nat}
    (hi : ∀ s, ok s → ok' s) (h1 : Tracks hgt ok m t h) : Tracks hgt ok' m t h := by
  unfold Tracks at h1 ⊢
  split
  · rename_i h' hs
    rw [hs] at h1
    obtain ⟨s', a, b, c⟩ := h1
    exact ⟨s', a, b, hi _ c⟩
  · rename_i e hs
    rw [hs] at h1
    exact h1

theorem tracks_fold {σ α : Type} {hgt : σ → Nat → Nat} {ok : σ → Prop} {f : σ → α → Run σ} {T : α → List Step} (l : List α) :
    (∀ a ∈ l, ∀ s, ok s → Tracks hgt ok (f s a) (T a) (hgt s)) → ∀ s, ok s →
    Tracks hgt ok (l.foldlM f s) (l.flatMap T) (hgt s) := by
  induction l with
  | nil => intro _ s hs; exact tracks_pure hs
  | cons a l ih =>
    intro hf s hs
    rw [List.foldlM_cons, List.flatMap_cons]
    exact tracks_bind (hf a (by simp) s hs) (ih fun b hb => hf b (by simp [hb]))

/-- How many names the registers have. -/
def heights (s : SsaSt) (x : Nat) : Nat := (s.stack x).length

/-- The merged registers are these. -/
def Merged (V : Nat → List Nat) (s : SsaSt) : Prop := ∀ b, phiVars s b = V b

theorem heights_put (s : SsaSt) (x : Nat) (l : List Nat) :
    heights { s with stack := put s.stack x l } = put (heights s) x l.length := by
  funext y
  unfold heights put
  dsimp only
  split <;> rfl

theorem newName_tracks (s : SsaSt) (x : Nat) :
    Tracks (fun r : Name × SsaSt => heights r.2) (fun r => r.2.phis = s.phis ∧ r.1 = (x, s.counter x + 1) ∧
      r.2.counter = put s.counter x (s.counter x + 1)) (newName s x) [.define x] (heights s) := by
  unfold Tracks newName
  rw [scan_cons, stepH_define]
  by_cases hx : x < 20
  · rw [if_pos hx, if_pos (show x < ssaStorages from hx)]
    refine ⟨_, rfl, ?_, rfl, rfl, rfl⟩
    exact heights_put { s with counter := put s.counter x (s.counter x + 1) } x _
  · rw [if_neg hx, if_neg (show ¬ x < ssaStorages from hx)]
    rfl

theorem stackTop_tracks (s : SsaSt) (x : Nat) :
    Tracks (fun _ : Nat => heights s) (fun _ => True) (stackTop s x) [.use x] (heights s) := by
  unfold Tracks stackTop
  rw [scan_cons, stepH_use]
  by_cases hx : x < 20
  · rw [if_pos hx, if_pos (show x < ssaStorages from hx)]
    unfold heights
    cases hs : s.stack x with
    | nil => rfl
    | cons a l => exact ⟨a, rfl, rfl, trivial⟩
  · rw [if_neg hx, if_neg (show ¬ x < ssaStorages from hx)]
    rfl

theorem stackPop_tracks {V : Nat → List Nat} (s : SsaSt) (hs : Merged V s) (x : Nat) :
    Tracks heights (Merged V) (stackPop s x) [.drop x] (heights s) := by
  unfold Tracks stackPop
  rw [scan_cons, stepH_drop]
  by_cases hx : x < 20
  · rw [if_pos hx, if_pos (show x < ssaStorages from hx)]
    by_cases h0 : s.stack x = []
    · have : heights s x = 0 := by unfold heights; rw [h0]; rfl
      rw [if_pos this, if_pos h0]
      rfl
    · have : heights s x ≠ 0 := by unfold heights; simpa using h0
      rw [if_neg this, if_neg h0]
      refine ⟨_, rfl, ?_, hs⟩
      rw [heights_put, List.length_dropLast]
      rfl
  · rw [if_neg hx, if_neg (show ¬ x < ssaStorages from hx)]
    rfl

theorem renameRead_tracks {V : Nat → List Nat} (i x : Nat) (s : SsaSt) (hs : Merged V s) :
    Tracks heights (Merged V) (renameRead i s x) [.use x] (heights s) := by
  unfold renameRead
  refine tracks_bind (u := []) (stackTop_tracks s x) fun t _ => ?_
  have : heights s = heights (if (x, t) ∈ s.rd i then s else { s with rd := put s.rd i (s.rd i ++ [(x, t)]) }) := by
    split <;> rfl
  rw [this]
  refine tracks_pure ?_
  split
  · exact hs
  · exact hs

theorem renameWrite_tracks {V : Nat → List Nat} (i x : Nat) (s : SsaSt) (hs : Merged V s) :
    Tracks heights (Merged V) (renameWrite i s x) [.define x] (heights s) := by
  unfold renameWrite
  refine tracks_bind (u := []) (newName_tracks s x) fun r hr => ?_
  refine tracks_pure (hgt := heights) (ok := Merged V) (s := { r.2 with wr := put r.2.wr i (r.2.wr i ++ [r.1]) }) fun b => ?_
  unfold phiVars
  show (r.2.phis b).map _ = _
  rw [hr.1]
  exact hs b

theorem flatMap_single {α β : Type} (f : α → β) (l : List α) : l.flatMap (fun x => [f x]) = l.map f :=
  List.flatMap_pure_eq_map f l

theorem renameInst_tracks {V : Nat → List Nat} (p : SsaProg) (i : Nat) (s : SsaSt) (hs : Merged V s) :
    Tracks heights (Merged V) (renameInst p s i)
      ((p.acc i).reads.map .use ++ (p.acc i).writes.map .define) (heights s) := by
  unfold renameInst
  rw [← flatMap_single, ← flatMap_single]
  exact tracks_bind (tracks_fold _ (fun x _ s hs => renameRead_tracks i x s hs) s hs) fun s hs =>
    tracks_fold _ (fun x _ s hs => renameWrite_tracks i x s hs) s hs

theorem rollInst_tracks {V : Nat → List Nat} (p : SsaProg) (x i : Nat) (s : SsaSt) (hs : Merged V s) :
    Tracks heights (Merged V) (rollInst p x s i) (if x ∈ (p.acc i).writes then [.drop x] else []) (heights s) := by
  unfold rollInst
  split
  · exact stackPop_tracks s hs x
  · exact tracks_pure hs

theorem rollPhi_tracks {V : Nat → List Nat} (p : SsaProg) (m : Nat) (e : Name × List Name) (s : SsaSt) (hs : Merged V s) :
    Tracks heights (Merged V) (rollPhi p m s e)
      (((p.insts m).filter fun i => decide (e.1.1 ∈ (p.acc i).writes)).map (fun _ => .drop e.1.1) ++ [.drop e.1.1])
      (heights s) := by
  unfold rollPhi
  have : ((p.insts m).filter fun i => decide (e.1.1 ∈ (p.acc i).writes)).map (fun _ => Step.drop e.1.1) =
      (p.insts m).flatMap fun i => if e.1.1 ∈ (p.acc i).writes then [Step.drop e.1.1] else [] := by
    induction p.insts m with
    | nil => rfl
    | cons a l ih =>
      rw [List.flatMap_cons, ← ih, List.filter_cons]
      by_cases h : e.1.1 ∈ (p.acc a).writes <;> simp [h]
  rw [this]
  exact tracks_bind (tracks_fold _ (fun i _ s hs => rollInst_tracks p _ i s hs) s hs) fun s hs =>
    stackPop_tracks s hs _

theorem appendParam_tracks (s : SsaSt) (e : Name × List Name) :
    Tracks (fun _ : Name × List Name => heights s) (fun r => r.1 = e.1) (appendParam s e) [.use e.1.1] (heights s) := by
  unfold appendParam
  exact tracks_bind (u := []) (stackTop_tracks s e.1.1) fun t _ => ⟨_, rfl, rfl, rfl⟩

theorem mapParams_tracks (s : SsaSt) (es : List (Name × List Name)) :
    Tracks (fun _ : List (Name × List Name) => heights s) (fun r => r.map (·.1) = es.map (·.1))
      (es.mapM (appendParam s)) (es.map fun e => .use e.1.1) (heights s) := by
  induction es with
  | nil => rw [List.mapM_nil]; exact ⟨[], rfl, rfl, rfl⟩
  | cons e es ih =>
    have ht : (e :: es).map (fun e => Step.use e.1.1) =
      [Step.use e.1.1] ++ (es.map (fun e => Step.use e.1.1) ++ []) := by simp
    rw [List.mapM_cons, ht]
    refine tracks_bind (appendParam_tracks s e) fun r hr => ?_
    refine tracks_bind ih fun rs hrs => ?_
    exact ⟨_, rfl, rfl, by simp [hr, hrs]⟩

theorem appendParams_tracks {V : Nat → List Nat} (b : Nat) (s : SsaSt) (hs : Merged V s) :
    Tracks heights (Merged V) (appendParams s b) ((V b).map .use) (heights s) := by
  unfold appendParams
  have : (V b).map Step.use = (s.phis b).map (fun e => Step.use e.1.1) ++ [] := by
    rw [← hs b]; unfold phiVars; simp
  rw [this]
  refine tracks_bind (mapParams_tracks s (s.phis b)) fun d hd => ?_
  refine tracks_pure (hgt := heights) (ok := Merged V) (s := { s with phis := put s.phis b d }) fun c => ?_
  unfold phiVars
  show (put s.phis b d c).map (·.1.1) = _
  by_cases hc : c = b
  · subst hc
    rw [put_same, ← hs c]
    unfold phiVars
    have h2 : ∀ d : List (Name × List Name), d.map (·.1.1) = (d.map (·.1)).map (·.1) := fun d => by simp
    rw [h2, hd, ← h2]
  · rw [put_ne _ _ _ hc]
    exact hs c

theorem foldPhis_tracks (s : SsaSt) (es : List (Name × List Name)) : ∀ (pre : List (Name × List Name))
    (acc : SsaSt × List (Name × List Name)),
    (acc.1.phis = s.phis ∧ acc.2.map (·.1.1) = pre.map (·.1.1) ∧ ∀ nm ∈ acc.2.map (·.1), nm.2 ≤ acc.1.counter nm.1) →
    Tracks (fun r : SsaSt × List (Name × List Name) => heights r.1)
      (fun r => r.1.phis = s.phis ∧ r.2.map (·.1.1) = (pre ++ es).map (·.1.1))
      (es.foldlM renamePhi acc) (es.map fun e => .define e.1.1) (heights acc.1) := by
  induction es with
  | nil =>
    intro pre acc hacc
    exact ⟨acc, rfl, rfl, hacc.1, by rw [List.append_nil]; exact hacc.2.1⟩
  | cons e es ih =>
    intro pre acc ⟨h1, h2, h3⟩
    rw [List.foldlM_cons, List.map_cons, show Step.define e.1.1 :: es.map (fun e => Step.define e.1.1) =
      ([Step.define e.1.1] ++ []) ++ es.map (fun e => Step.define e.1.1) by simp]
    have key : Tracks (fun r : SsaSt × List (Name × List Name) => heights r.1)
        (fun r => r.1.phis = s.phis ∧ r.2.map (·.1.1) = (pre ++ [e]).map (·.1.1) ∧
          ∀ nm ∈ r.2.map (·.1), nm.2 ≤ r.1.counter nm.1)
        (renamePhi acc e) ([Step.define e.1.1] ++ []) (heights acc.1) := by
      unfold renamePhi
      refine tracks_bind (newName_tracks acc.1 e.1.1) fun r hr => ?_
      obtain ⟨r1, r2, r3⟩ := hr
      have hnew : r.1 ∉ acc.2.map (·.1) := by
        intro h
        have := h3 _ h
        rw [r2] at this
        have : acc.1.counter e.1.1 + 1 ≤ acc.1.counter e.1.1 := this
        omega
      have hk := keys_dictSet acc.2 r.1 e.2
      rw [if_neg hnew] at hk
      have hm : ∀ d : List (Name × List Name), d.map (·.1.1) = (d.map (·.1)).map (·.1) := fun d => by simp
      refine tracks_pure (s := (r.2, dictSet acc.2 r.1 e.2)) (hgt := fun r : SsaSt × List (Name × List Name) => heights r.1)
        ⟨r1.trans h1, ?_, ?_⟩
      · show (dictSet acc.2 r.1 e.2).map (·.1.1) = _
        rw [hm, hk, List.map_append, ← hm, h2, List.map_append, r2]
        rfl
      · intro nm hnm
        have hnm : nm ∈ (dictSet acc.2 r.1 e.2).map (·.1) := hnm
        rw [hk] at hnm
        show nm.2 ≤ r.2.counter nm.1
        rw [r3]
        rcases List.mem_append.1 hnm with h | h
        · exact Nat.le_trans (h3 nm h) (put_counter_le _ _ _)
        · rw [List.mem_singleton.1 h, r2]
          show acc.1.counter e.1.1 + 1 ≤ put _ _ _ e.1.1
          rw [put_same]
    refine tracks_bind key fun r hr => ?_
    have := ih (pre ++ [e]) r hr
    rw [List.append_assoc, List.singleton_append] at this
    exact this

theorem renamePhis_tracks {V : Nat → List Nat} (n : Nat) (s : SsaSt) (hs : Merged V s) :
    Tracks heights (Merged V) (renamePhis s n) ((V n).map .define) (heights s) := by
  unfold renamePhis
  have : (V n).map Step.define = (s.phis n).map (fun e => Step.define e.1.1) ++ [] := by
    rw [← hs n]; unfold phiVars; simp
  rw [this]
  refine tracks_bind (foldPhis_tracks s (s.phis n) [] (s, []) ⟨rfl, rfl, by simp⟩) fun r hr => ?_
  refine tracks_pure (hgt := heights) (ok := Merged V) (s := { r.1 with phis := put r.1.phis n r.2 }) fun c => ?_
  unfold phiVars
  show (put r.1.phis n r.2 c).map (·.1.1) = _
  by_cases hc : c = n
  · subst hc
    rw [put_same, hr.2]
    exact hs c
  · rw [put_ne _ _ _ hc, hr.1]
    exact hs c

/-- The steps below some block, with enough fuel. -/
inductive Deep (domSucc : Nat → List Nat) : Nat → Nat → Prop
  | mk {fuel n : Nat} : (∀ c ∈ domSucc n, Deep domSucc fuel c) → Deep domSucc (fuel + 1) n

def traceOf (V : Nat → List Nat) (p : SsaProg) : Nat → Nat → List Step
  | 0, _ => []
  | fuel + 1, n => Spec.enterSteps V p.insts (fun i => (p.acc i).reads) (fun i => (p.acc i).writes) p.succ n ++
      (p.domSucc n).flatMap (traceOf V p fuel) ++ Spec.leaveSteps V p.insts (fun i => (p.acc i).writes) p.domSucc n

theorem renameNode_tracks {V : Nat → List Nat} (p : SsaProg) (fuel : Nat) : ∀ n, Deep p.domSucc fuel n →
    ∀ s, Merged V s → Tracks heights (Merged V) (renameNode p fuel s n) (traceOf V p fuel n) (heights s) := by
  induction fuel with
  | zero => intro n hd; cases hd
  | succ fuel ih =>
    intro n hd s hs
    cases hd with
    | mk hd =>
    rw [traceOf, renameNode, Spec.enterSteps, List.append_assoc, List.append_assoc, List.append_assoc]
    refine tracks_bind (renamePhis_tracks n s hs) fun s hs => ?_
    refine tracks_bind (tracks_fold _ (fun i _ s hs => renameInst_tracks p i s hs) s hs) fun s hs => ?_
    refine tracks_bind (tracks_fold _ (fun b _ s hs => appendParams_tracks b s hs) s hs) fun s hs => ?_
    refine tracks_bind (tracks_fold _ (fun c hc s hs => ih c (hd c hc) s hs) s hs) fun s hs => ?_
    unfold Spec.leaveSteps
    dsimp only
    rw [← hs ((p.domSucc n).getLast?.getD n)]
    unfold phiVars
    rw [List.flatMap_map]
    exact tracks_fold _ (fun e _ s hs => rollPhi_tracks p _ e s hs) s hs

/-! ### Numbers of names and steps made -/

theorem scan_heights (t : List Step) : ∀ h h', scan t h = .ok h' → ∀ x,
    h' x + t.count (.drop x) = h x + t.count (.define x) := by
  induction t with
  | nil => intro h h' e x; cases e; rfl
  | cons st t ih =>
    intro h h' e x
    rw [scan_cons] at e
    cases hs : stepH h st with
    | error _ => rw [hs] at e; cases e
    | ok h1 =>
      rw [hs] at e
      have := ih h1 h' e x
      cases st with
      | define y =>
        rw [stepH_define] at hs
        split at hs
        · cases hs
          by_cases hx : x = y
          · subst hx
            rw [put_same] at this
            simp
            omega
          · rw [put_ne _ _ _ hx] at this
            simp [Ne.symm hx]
            omega
        · cases hs
      | use y =>
        rw [stepH_use] at hs
        split at hs
        · split at hs
          · cases hs
          · cases hs
            simp
            omega
        · cases hs
      | drop y =>
        rw [stepH_drop] at hs
        split at hs
        · split at hs
          · cases hs
          · cases hs
            by_cases hx : x = y
            · subst hx
              rw [put_same] at this
              simp
              omega
            · rw [put_ne _ _ _ hx] at this
              simp [Ne.symm hx]
              omega
        · cases hs

def stopErr (b : Bool) : Err := if b then .key else .index

theorem stepH_stuck {pre : List Step} {st : Step} {b : Bool} {h : Nat → Nat}
    (hh : ∀ x, h x + pre.count (.drop x) = 1 + pre.count (.define x)) (hs : Spec.Stuck pre st b) :
    stepH h st = .error (stopErr b) := by
  cases hs with
  | unknown h1 => exact if_neg (Nat.not_lt.2 h1)
  | @use x h1 h2 =>
    have := hh x
    rw [stepH_use, if_pos h1, if_pos (by omega)]
    rfl
  | @drop x h1 h2 =>
    have := hh x
    rw [stepH_drop, if_pos h1, if_pos (by omega)]
    rfl

theorem stepH_free {pre : List Step} {st : Step} {h : Nat → Nat}
    (hh : ∀ x, h x + pre.count (.drop x) = 1 + pre.count (.define x)) (hs : ∀ b, ¬ Spec.Stuck pre st b) :
    ∃ h', stepH h st = .ok h' := by
  have hr : st.reg < 20 := by
    by_contra hc
    exact hs true (.unknown (Nat.not_lt.1 hc))
  cases st with
  | define x => exact ⟨_, if_pos hr⟩
  | use x =>
    have h0 : h x ≠ 0 := fun h0 => hs false (.use hr (by have := hh x; omega))
    exact ⟨h, by rw [stepH_use, if_pos (show x < 20 from hr), if_neg h0]⟩
  | drop x =>
    have h0 : h x ≠ 0 := fun h0 => hs false (.drop hr (by have := hh x; omega))
    exact ⟨_, by rw [stepH_drop, if_pos (show x < 20 from hr), if_neg h0]⟩

theorem smooth_prefix {t u : List Step} (h : Spec.Smooth (t ++ u)) : Spec.Smooth t := by
  intro pre st post b e
  exact h pre st (post ++ u) b (by rw [e]; simp)

theorem scan_smooth (t : List Step) : Spec.Smooth t → ∃ h, scan t (fun _ => 1) = .ok h := by
  induction t using List.reverseRecOn with
  | nil => intro _; exact ⟨_, rfl⟩
  | append_singleton t st ih =>
    intro hs
    obtain ⟨h, e⟩ := ih (smooth_prefix hs)
    obtain ⟨h', e'⟩ := stepH_free (scan_heights t _ _ e) fun b => hs t st [] b rfl
    refine ⟨h', ?_⟩
    rw [scan_append, e]
    show scan [st] h = _
    rw [scan_cons, e']
    rfl

theorem scan_stops {t : List Step} {b : Bool} (hs : Spec.StopsAt t b) : scan t (fun _ => 1) = .error (stopErr b) := by
  obtain ⟨pre, st, post, rfl, h1, h2⟩ := hs
  obtain ⟨h, e⟩ := scan_smooth pre h2
  rw [scan_append, e]
  show scan (st :: post) h = _
  rw [scan_cons, stepH_stuck (scan_heights pre _ _ e) h1]
  rfl

theorem smooth_or_stops (t : List Step) : Spec.Smooth t ∨ ∃ b, Spec.StopsAt t b := by
  induction t using List.reverseRecOn with
  | nil =>
    left
    intro pre st post b e
    simp at e
  | append_singleton t st ih =>
    rcases ih with h | ⟨b, pre, st', post, rfl, h1, h2⟩
    · by_cases hb : ∃ b, Spec.Stuck t st b
      · obtain ⟨b, hb⟩ := hb
        exact Or.inr ⟨b, t, st, [], rfl, hb, h⟩
      · left
        intro pre st' post b e
        rcases List.eq_nil_or_concat post with rfl | ⟨post', a, rfl⟩
        · obtain ⟨e1, e2⟩ := List.append_inj' e rfl
          cases e2
          subst e1
          exact fun h => hb ⟨b, h⟩
        · rw [List.concat_eq_append, ← List.cons_append, ← List.append_assoc] at e
          obtain ⟨e1, _⟩ := List.append_inj' e rfl
          exact h pre st' post' b e1
    · exact Or.inr ⟨b, pre, st', post ++ [st], by simp, h1, h2⟩

/-! ### The steps of the walk -/

theorem traceOf_trace {V : Nat → List Nat} (p : SsaProg) {succ : Nat → List Nat} {R : Nat → Prop}
    (hR : ∀ n, R n → ∀ c ∈ p.domSucc n, R c) (hsucc : ∀ n, R n → p.succ n = succ n) (fuel : Nat) :
    ∀ ns : List Nat, (∀ n ∈ ns, R n ∧ Deep p.domSucc fuel n) →
      Spec.Trace V p.insts (fun i => (p.acc i).reads) (fun i => (p.acc i).writes) succ p.domSucc ns
        (ns.flatMap (traceOf V p fuel)) := by
  induction fuel with
  | zero =>
    intro ns h
    cases ns with
    | nil => exact .nil
    | cons n ns => cases (h n (by simp)).2
  | succ fuel ih =>
    intro ns
    induction ns with
    | nil => intro _; exact .nil
    | cons n ns ih2 =>
      intro h
      obtain ⟨h1, h2⟩ := h n (by simp)
      cases h2 with
      | mk h2 =>
      rw [List.flatMap_cons, traceOf]
      have : Spec.enterSteps V p.insts (fun i => (p.acc i).reads) (fun i => (p.acc i).writes) p.succ n =
          Spec.enterSteps V p.insts (fun i => (p.acc i).reads) (fun i => (p.acc i).writes) succ n := by
        unfold Spec.enterSteps
        rw [hsucc n h1]
      rw [this]
      exact .cons (ih _ fun c hc => ⟨hR n h1 c hc, h2 c hc⟩) (ih2 fun m hm => h m (by simp [hm]))

theorem trace_unique {V insts reads writes succ domSucc : Nat → List Nat} {ns : List Nat} {t : List Step}
    (h : Spec.Trace V insts reads writes succ domSucc ns t) : ∀ t', Spec.Trace V insts reads writes succ domSucc ns t' → t' = t := by
  induction h with
  | nil => intro t' h; cases h; rfl
  | cons _ _ ih1 ih2 =>
    intro t' h
    cases h with
    | cons h1 h2 => rw [ih1 _ h1, ih2 _ h2]

theorem deep_of_count {succ : Nat → List Nat} {root : Nat} {nodes : List Nat} {domSucc : Nat → List Nat}
    (hnodes : ∀ x, Spec.Reach succ root x → x ∈ nodes)
    (hd : ∀ d w, w ∈ domSucc d → Spec.Reach succ root w ∧ Spec.Idom succ root d w) : ∀ (fuel n : Nat),
    Spec.Reach succ root n → nodes.length < fuel + domCount succ root nodes n → Deep domSucc fuel n := by
  intro fuel
  induction fuel with
  | zero =>
    intro n hn h
    have := domCount_le succ root nodes n
    omega
  | succ fuel ih =>
    intro n hn h
    refine .mk fun c hc => ?_
    obtain ⟨h1, h2⟩ := hd n c hc
    have := domCount_lt (hnodes c h1) h1 h2
    exact ih c h1 (by omega)

/-! ### A walk in which nothing is dropped twice -/

theorem count_flatMap_le {α : Type} (l : List α) (f g : α → List Step) (a b : Step)
    (h : ∀ x ∈ l, (f x).count a ≤ (g x).count b) : (l.flatMap f).count a ≤ (l.flatMap g).count b := by
  induction l with
  | nil => simp
  | cons x l ih =>
    rw [List.flatMap_cons, List.flatMap_cons, List.count_append, List.count_append]
    exact Nat.add_le_add (h x (by simp)) (ih fun y hy => h y (by simp [hy]))

theorem count_map_other {α : Type} (l : List α) (f : α → Step) (a : Step) (h : ∀ x, f x ≠ a) : (l.map f).count a = 0 := by
  rw [List.count_eq_zero]
  intro hm
  obtain ⟨x, _, hx⟩ := List.mem_map.1 hm
  exact h x hx

section
variable {V insts reads writes succ domSucc : Nat → List Nat}

theorem enter_drop (n x : Nat) : (Spec.enterSteps V insts reads writes succ n).count (.drop x) = 0 := by
  rw [List.count_eq_zero]
  unfold Spec.enterSteps
  simp

theorem leave_define (n x : Nat) : (Spec.leaveSteps V insts writes domSucc n).count (.define x) = 0 := by
  rw [List.count_eq_zero]
  unfold Spec.leaveSteps
  simp

/-- The names dropped for a block were given in it. -/
theorem leave_le (hV : ∀ b, (V b).Nodup) (n x : Nat) :
    (Spec.leaveSteps V insts writes domSucc n).count (.drop x) ≤
      (Spec.enterSteps V insts reads writes succ ((domSucc n).getLast?.getD n)).count (.define x) := by
  unfold Spec.leaveSteps
  dsimp only
  generalize (domSucc n).getLast?.getD n = m
  have key : ∀ l : List Nat, l.Nodup →
      (l.flatMap fun y => ((insts m).filter fun i => decide (y ∈ writes i)).map (fun _ => Step.drop y) ++ [.drop y]).count
        (.drop x) ≤ if x ∈ l then ((insts m).filter fun i => decide (x ∈ writes i)).length + 1 else 0 := by
    intro l
    induction l with
    | nil => simp
    | cons y l ih =>
      intro hn
      rw [List.nodup_cons] at hn
      rw [List.flatMap_cons, List.count_append]
      have := ih hn.2
      by_cases hy : x = y
      · subst hy
        rw [if_neg hn.1] at this
        simp [List.count_append, List.count_replicate, List.map_const'] at this ⊢
        omega
      · have h0 : (((insts m).filter fun i => decide (y ∈ writes i)).map (fun _ => Step.drop y) ++ [Step.drop y]).count
            (Step.drop x) = 0 := by
          rw [List.count_eq_zero]
          simp [hy, Ne.symm hy]
        rw [h0]
        simp only [List.mem_cons, hy, false_or]
        omega
  refine Nat.le_trans (key _ (hV m)) ?_
  split
  · rename_i hx
    unfold Spec.enterSteps
    rw [List.count_append, List.count_append]
    have h1 : 1 ≤ ((V m).map Step.define).count (.define x) :=
      List.count_pos_iff.2 (List.mem_map_of_mem hx)
    have h2 : ((insts m).filter fun i => decide (x ∈ writes i)).length ≤
        ((insts m).flatMap fun i => (reads i).map Step.use ++ (writes i).map Step.define).count (.define x) := by
      induction insts m with
      | nil => simp
      | cons i l ih =>
        rw [List.flatMap_cons, List.count_append, List.filter_cons]
        by_cases hi : x ∈ writes i
        · have : 1 ≤ ((reads i).map Step.use ++ (writes i).map Step.define).count (.define x) :=
            List.count_pos_iff.2 (by simp [hi])
          simp only [hi, decide_true, if_true, List.length_cons]
          omega
        · simp only [hi, decide_false]
          simp only [Bool.false_eq_true, if_false]
          omega
    omega
  · exact Nat.zero_le _

/-- The names that the blocks having blocks below them still hold. -/
def held (V insts reads writes succ domSucc : Nat → List Nat) (x : Nat) (ns : List Nat) : Nat :=
  ((ns.filter fun n => decide (domSucc n ≠ [])).map fun n =>
    (Spec.enterSteps V insts reads writes succ n).count (.define x)).sum

theorem nat_le_sum {a : Nat} {l : List Nat} (h : a ∈ l) : a ≤ l.sum := by
  induction l with
  | nil => cases h
  | cons b l ih =>
    rw [List.sum_cons]
    rcases List.mem_cons.1 h with rfl | h
    · omega
    · have := ih h
      omega

theorem held_le {x m : Nat} {ns : List Nat} (hm : m ∈ ns) (hd : domSucc m ≠ []) :
    (Spec.enterSteps V insts reads writes succ m).count (.define x) ≤ held V insts reads writes succ domSucc x ns := by
  unfold held
  exact nat_le_sum (List.mem_map.2 ⟨m, List.mem_filter.2 ⟨hm, by simpa using hd⟩, rfl⟩)

theorem prefix_append_cases {pre a b : List Step} (h : pre <+: a ++ b) : pre <+: a ∨ ∃ c, pre = a ++ c ∧ c <+: b := by
  obtain ⟨r, e⟩ := h
  rcases List.append_eq_append_iff.1 e with ⟨c, h1, _⟩ | ⟨c, h1, h2⟩
  · exact Or.inl ⟨c, h1.symm⟩
  · exact Or.inr ⟨c, h1, ⟨r, h2.symm⟩⟩

theorem trace_balanced (hV : ∀ b, (V b).Nodup) {R : Nat → Prop} (hR : ∀ n, R n → ∀ c ∈ domSucc n, R c)
    (hlast : ∀ n m, R n → (domSucc n).getLast? = some m → domSucc m = [] → V m = []) (x : Nat) {ns : List Nat} {t : List Step}
    (h : Spec.Trace V insts reads writes succ domSucc ns t) : (∀ n ∈ ns, R n) →
    t.count (.drop x) + held V insts reads writes succ domSucc x ns ≤ t.count (.define x) ∧
      ∀ pre, pre <+: t → pre.count (.drop x) ≤ pre.count (.define x) := by
  induction h with
  | nil =>
    intro _
    refine ⟨by simp [held], fun pre hp => ?_⟩
    rw [List.prefix_nil.1 hp]
    simp
  | @cons n ns t u h1 h2 ih1 ih2 =>
    intro hns
    have hn := hns n (by simp)
    obtain ⟨a1, a2⟩ := ih1 (hR n hn)
    obtain ⟨b1, b2⟩ := ih2 fun m hm => hns m (by simp [hm])
    have e1 := enter_drop (V := V) (insts := insts) (reads := reads) (writes := writes) (succ := succ) n x
    have e2 := leave_define (V := V) (insts := insts) (writes := writes) (domSucc := domSucc) n x
    have e3 := leave_le (insts := insts) (reads := reads) (writes := writes) (succ := succ) (domSucc := domSucc) hV n x
    have hh : held V insts reads writes succ domSucc x (n :: ns) = (if domSucc n = [] then 0 else
        (Spec.enterSteps V insts reads writes succ n).count (.define x)) + held V insts reads writes succ domSucc x ns := by
      unfold held
      rw [List.filter_cons]
      by_cases hd : domSucc n = [] <;> simp [hd]
    have htot : t.count (.drop x) + (Spec.leaveSteps V insts writes domSucc n).count (.drop x) +
        (if domSucc n = [] then 0 else (Spec.enterSteps V insts reads writes succ n).count (.define x)) ≤
        (Spec.enterSteps V insts reads writes succ n).count (.define x) + t.count (.define x) := by
      by_cases hd : domSucc n = []
      · rw [if_pos hd]
        rw [hd] at e3
        have e3 : _ ≤ (Spec.enterSteps V insts reads writes succ n).count (.define x) := e3
        omega
      · rw [if_neg hd]
        cases hl : (domSucc n).getLast? with
        | none => exact absurd (List.getLast?_eq_none_iff.1 hl) hd
        | some m =>
          rw [hl] at e3
          have e3 : _ ≤ (Spec.enterSteps V insts reads writes succ m).count (.define x) := e3
          by_cases hm : domSucc m = []
          · have h0 : Spec.leaveSteps V insts writes domSucc n = [] := by
              unfold Spec.leaveSteps
              rw [hl]
              show (V m).flatMap _ = []
              rw [hlast n m hn hl hm]
              rfl
            rw [h0]
            simp
            omega
          · have := held_le (V := V) (insts := insts) (reads := reads) (writes := writes) (succ := succ) (x := x)
              (List.mem_of_getLast? hl) hm
            omega
    refine ⟨?_, ?_⟩
    · rw [hh]
      simp only [List.count_append]
      omega
    · intro pre hp
      rcases prefix_append_cases hp with hp | ⟨c, rfl, hc⟩
      · rcases prefix_append_cases hp with hp | ⟨c, rfl, hc⟩
        · rcases prefix_append_cases hp with hp | ⟨c, rfl, hc⟩
          · have := hp.sublist.count_le (.drop x)
            omega
          · have := a2 c hc
            simp only [List.count_append]
            omega
        · have := hc.sublist.count_le (.drop x)
          simp only [List.count_append]
          omega
      · have := b2 c hc
        simp only [List.count_append]
        omega
end

theorem trace_regs {V insts reads writes succ domSucc : Nat → List Nat} {R : Nat → Prop} (hR : ∀ n, R n → ∀ c ∈ domSucc n, R c)
    (hV : ∀ b, ∀ x ∈ V b, x < 20) (hr : ∀ n, R n → ∀ i ∈ insts n, (∀ x ∈ reads i, x < 20) ∧ ∀ x ∈ writes i, x < 20)
    {ns : List Nat} {t : List Step} (h : Spec.Trace V insts reads writes succ domSucc ns t) : (∀ n ∈ ns, R n) →
    ∀ st ∈ t, st.reg < 20 := by
  induction h with
  | nil => simp
  | @cons n ns t u h1 h2 ih1 ih2 =>
    intro hns st hst
    have hn := hns n (by simp)
    simp only [List.mem_append] at hst
    rcases hst with ((hst | hst) | hst) | hst
    · unfold Spec.enterSteps at hst
      simp only [List.mem_append, List.mem_map, List.mem_flatMap] at hst
      rcases hst with (⟨x, h, rfl⟩ | ⟨i, hi, ⟨x, h, rfl⟩ | ⟨x, h, rfl⟩⟩) | ⟨b, _, x, h, rfl⟩
      · exact hV _ _ h
      · exact (hr n hn i hi).1 x h
      · exact (hr n hn i hi).2 x h
      · exact hV _ _ h
    · exact ih1 (hR n hn) st hst
    · unfold Spec.leaveSteps at hst
      simp only [List.mem_append, List.mem_map, List.mem_flatMap, List.mem_singleton] at hst
      obtain ⟨x, h, ⟨_, _, rfl⟩ | rfl⟩ := hst
      · exact hV _ _ h
      · exact hV _ _ h
    · exact ih2 (fun m hm => hns m (by simp [hm])) st hst

end Verif
