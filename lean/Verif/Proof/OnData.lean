import Verif.Model.Recovery
import Mathlib.Data.List.Sort
import Mathlib.Data.List.InsertIdx

/-!
The report, the pruning and the recovery loop only ask a candidate for its
encoding, its text and its score: changing anything else changes nothing.
-/

namespace Verif

variable {α β : Type}

/-- A candidate with other data. -/
def onData (u : α → β) (x : RInst α) : RInst β := ⟨x.enc, x.str, x.score, u x.data⟩


theorem while_on {σ τ : Type} (g : σ → τ) (c : σ → Bool) (c' : τ → Bool) (f : σ → Py σ) (f' : τ → Py τ)
    (hc : ∀ s, c' (g s) = c s) (hf : ∀ s, f' (g s) = (f s).map g) (fuel : Nat) : ∀ s,
    whileLoop c' f' fuel (g s) = (whileLoop c f fuel s).map (Except.map g) := by
  induction fuel with
  | zero => intro s; rfl
  | succ n ih =>
    intro s
    simp only [whileLoop, hc, hf]
    split
    · cases f s with
      | error e => rfl
      | ok t => exact ih t
    · rfl

theorem prune1_on (u : α → β) (s : PruneSt α) :
    pruneTurn1 ⟨s.v.map (onData u), s.i, s.one, s.less⟩ =
    (pruneTurn1 s).map fun t => (⟨t.v.map (onData u), t.i, t.one, t.less⟩ : PruneSt β) := by
  unfold pruneTurn1
  simp only [List.getElem?_map]
  cases h : s.v[s.i]? with
  | none => rfl
  | some x =>
    have hs : (onData u x).score = x.score := rfl
    simp only [Option.map_some, hs, List.eraseIdx_map]
    split
    · rfl
    · split
      · rfl
      · split <;> rfl

theorem prune2_on (u : α → β) (s : PruneSt α) :
    pruneTurn2 ⟨s.v.map (onData u), s.i, s.one, s.less⟩ =
    (pruneTurn2 s).map fun t => (⟨t.v.map (onData u), t.i, t.one, t.less⟩ : PruneSt β) := by
  unfold pruneTurn2
  simp only [List.getElem?_map]
  cases h : s.v[s.i]? with
  | none => rfl
  | some x =>
    have hs : (onData u x).score = x.score := rfl
    simp only [Option.map_some, hs, List.eraseIdx_map]
    split <;> rfl

theorem removeBad_on (u : α → β) (fuel : Nat) (v : List (RInst α)) :
    removeBad fuel (v.map (onData u)) =
    (removeBad fuel v).map (Except.map fun r => (r.1.map (onData u), r.2)) := by
  have w1 := while_on (fun t : PruneSt α => (⟨t.v.map (onData u), t.i, t.one, t.less⟩ : PruneSt β))
    pruneCond pruneCond pruneTurn1 pruneTurn1 (fun s => by simp [pruneCond]) (prune1_on u) fuel
  have w2 := while_on (fun t : PruneSt α => (⟨t.v.map (onData u), t.i, t.one, t.less⟩ : PruneSt β))
    pruneCond pruneCond pruneTurn2 pruneTurn2 (fun s => by simp [pruneCond]) (prune2_on u) fuel
  unfold removeBad
  rw [w1 ⟨v, 0, 0, 0⟩]
  cases whileLoop pruneCond pruneTurn1 fuel ⟨v, 0, 0, 0⟩ with
  | none => rfl
  | some r =>
    cases r with
    | error e => rfl
    | ok s =>
      simp only [Option.map_some, Except.map]
      split
      · rw [w2 { s with i := 0 }]
        cases whileLoop pruneCond pruneTurn2 fuel { s with i := 0 } with
        | none => rfl
        | some r =>
          cases r with
          | error e => rfl
          | ok t => simp [bind, Except.bind, pure, Except.pure, Except.map]
      · simp [Except.map]

theorem pruneAll_on (u : α → β) (fuel : Nat) (vs : List (List (RInst α))) :
    pruneAll fuel (vs.map (List.map (onData u))) =
    (pruneAll fuel vs).map (Except.map fun r => (r.1.map (List.map (onData u)), r.2)) := by
  induction vs with
  | nil => rfl
  | cons v vs ih =>
    simp only [List.map_cons, pruneAll, removeBad_on, ih]
    cases removeBad fuel v with
    | none => rfl
    | some r =>
      cases r with
      | error e => rfl
      | ok a =>
        cases pruneAll fuel vs with
        | none => rfl
        | some r => cases r <;> rfl

theorem sort_on (u : α → β) (l : List (RInst α)) :
    sortScore (l.map (onData u)) = (sortScore l).map (onData u) := by
  unfold sortScore
  exact (List.map_insertionSort _ _ (onData u) l fun _ _ _ _ => Iff.rfl).symm

theorem depth_on (u : α → β) (o : RInst α) (l : List (RInst α)) (s : Nat × Bool × List (Nat × Nat)) :
    (l.map (onData u)).foldl (depthTurn (onData u o)) s = l.foldl (depthTurn o) s := by
  rw [List.foldl_map]; rfl

theorem reportAddr_on (u : α → β) (r : Report) (o : RInst α) (l : List (RInst α)) :
    reportAddr r (onData u o) (l.map (onData u)) =
    (reportAddr r o l).map fun q => (q.1, q.2.map (onData u)) := by
  unfold reportAddr
  rw [sort_on, List.length_map]
  split
  · cases h : sortScore l with
    | nil => rfl
    | cons c1 t =>
      cases t with
      | nil => rfl
      | cons c2 t =>
        simp only [List.map_cons]
        rw [← List.map_cons, ← List.map_cons, depth_on]
        rfl
  · rfl

theorem reportLoop_on (u : α → β) (os : List (RInst α)) : ∀ (r : Report) (ls : List (List (RInst α))),
    reportLoop r (os.map (onData u)) (ls.map (List.map (onData u))) =
    (reportLoop r os ls).map fun q => (q.1, q.2.map (List.map (onData u))) := by
  induction os with
  | nil => intros; rfl
  | cons o os ih =>
    intro r ls
    cases ls with
    | nil => rfl
    | cons l ls =>
      simp only [List.map_cons, reportLoop, reportAddr_on]
      cases reportAddr r o l with
      | error e => rfl
      | ok q =>
        show (reportLoop q.1 (os.map (onData u)) (ls.map (List.map (onData u))) >>= _) =
          Except.map _ (reportLoop q.1 os ls >>= _)
        rw [ih]
        cases reportLoop q.1 os ls <;> rfl

theorem printReport_on (u : α → β) (os : List (RInst α)) (ls : List (List (RInst α))) :
    printReport (os.map (onData u)) (ls.map (List.map (onData u))) =
    (printReport os ls).map fun q => (q.1, q.2.map (List.map (onData u))) := by
  unfold printReport
  rw [reportLoop_on]
  cases reportLoop {} os ls with
  | error e => rfl
  | ok q =>
    show (if q.1.errors = 0 then _ else _) = Except.map _ (if q.1.errors = 0 then _ else _)
    split <;> rfl

theorem pass_on (u : α → β) (score : Nat → List (List (RInst α)) → Py (List (List (RInst α))))
    (score' : Nat → List (List (RInst β)) → Py (List (List (RInst β)))) (orig : List (RInst α))
    (s : Nat × List (List (RInst α)) × Bool)
    (h : score' s.1 (s.2.1.map (List.map (onData u))) = (score s.1 s.2.1).map (List.map (List.map (onData u)))) :
    recoveryPass score' (orig.map (onData u)) (s.1, s.2.1.map (List.map (onData u)), s.2.2) =
    (recoveryPass score orig s).map fun t => (t.1, t.2.1.map (List.map (onData u)), t.2.2) := by
  unfold recoveryPass
  simp only [h]
  cases score s.1 s.2.1 with
  | error e => rfl
  | ok p =>
    show (printReport (orig.map (onData u)) (p.map (List.map (onData u))) >>= _) =
      Except.map _ (printReport orig p >>= _)
    rw [printReport_on]
    cases printReport orig p with
    | error e => rfl
    | ok q =>
      have hl : ((q.2.map (List.map (onData u))).map List.length).sum = (q.2.map List.length).sum := by
        rw [List.map_map]; congr 1; apply List.map_congr_left; intro x _; simp
      simp only [Except.map, bind, Except.bind]
      rw [hl, pruneAll_on]
      cases pruneAll ((q.2.map List.length).sum + 1) q.2 with
      | none => rfl
      | some r => cases r <;> rfl

theorem loop_on (u : α → β) (score : Nat → List (List (RInst α)) → Py (List (List (RInst α))))
    (score' : Nat → List (List (RInst β)) → Py (List (List (RInst β)))) (orig : List (RInst α))
    (h : ∀ n p, score' n (p.map (List.map (onData u))) = (score n p).map (List.map (List.map (onData u))))
    (prog : List (List (RInst α))) (fuel : Nat) :
    recoveryLoop score' (orig.map (onData u)) fuel (prog.map (List.map (onData u))) =
    (recoveryLoop score orig fuel prog).map
      (Except.map fun t => (t.1, t.2.1.map (List.map (onData u)), t.2.2)) :=
  while_on (fun t : Nat × List (List (RInst α)) × Bool => (t.1, t.2.1.map (List.map (onData u)), t.2.2))
    _ _ _ _ (fun _ => rfl) (fun s => pass_on u score score' orig s (h _ _)) fuel (1, prog, true)

end Verif
