import Verif.Props.Recuperator
import Verif.Proof.OnData

/-!
# C127: where the program is loaded does not matter

A program and the same program loaded `d` bytes higher: every address, every
function and every jump moves by `d`, nothing else changes.
-/

namespace Verif

namespace Spec

/-- The same candidate when everything is loaded `d` higher. -/
def movedCand (d : Int) (x : Cand) : Cand := { x with jump := x.jump.map (· + d) }

/-- The same candidate with its evidence and its score. -/
def movedInst (d : Int) (x : RInst Scored) : RInst Scored :=
  { x with data := { x.data with c := movedCand d x.data.c } }

/-- The same functions. -/
def movedFns (d : Int) (fns : Fns) : Fns := fns.map fun q => (q.1 + d, (q.2.1 + d, q.2.2 + d))

end Spec

open Spec

/-- The same program without evidence. -/
def mvProg (d : Int) (p : CProg) : CProg := p.map fun q => (q.1 + d, q.2.map (movedCand d))

theorem get_mv {β γ : Type} (d : Int) (g : β → γ) (l : List (Int × β)) (k : Int) :
    dictGet (l.map fun q => (q.1 + d, g q.2)) (k + d) = (dictGet l k).map g := by
  induction l with
  | nil => rfl
  | cons q t ih =>
    unfold dictGet at ih ⊢
    by_cases h : q.1 = k
    · simp [h]
    · have h2 : ¬ q.1 + d = k + d := fun e => h (by omega)
      simp only [List.map_cons, List.find?_cons, h, h2, decide_false]
      exact ih

theorem get_mvProg (d : Int) (p : CProg) (k : Int) :
    dictGet (mvProg d p) (k + d) = (dictGet p k).map (List.map (movedCand d)) := get_mv d _ p k

theorem get_mvFns (d : Int) (fns : Fns) (k : Int) :
    dictGet (movedFns d fns) (k + d) = (dictGet fns k).map fun q => (q.1 + d, q.2 + d) :=
  get_mv d (fun q : Int × Int => (q.1 + d, q.2 + d)) fns k

theorem filter_mv (d : Int) (l : List Cand) :
    (l.map (movedCand d)).filter (fun i => !i.m.ignore) = (l.filter fun i => !i.m.ignore).map (movedCand d) := by
  rw [List.filter_map]; rfl

theorem countP_mv (d : Int) (l : List Cand) (f : Cand → Bool) (hf : ∀ x, f (movedCand d x) = f x) :
    (l.map (movedCand d)).countP f = l.countP f := by
  rw [List.countP_map]
  exact List.countP_congr fun x _ => by simp [hf]

theorem any_mv (d : Int) (l : List Cand) (f : Cand → Bool) (hf : ∀ x, f (movedCand d x) = f x) :
    (l.map (movedCand d)).any f = l.any f := by
  rw [List.any_map]; congr 1; funext x; exact hf x

theorem opProb_mv (d : Int) (p : CProg) (f : Cand → Bool) (hf : ∀ x, f (movedCand d x) = f x) (a : Int)
    (regs : List Nat) : opProb (mvProg d p) f (a + d) regs = opProb p f a regs := by
  unfold opProb
  rw [get_mvProg]
  cases dictGet p a with
  | none => rfl
  | some l =>
    simp only [Option.map_some, filter_mv, countP_mv d _ f hf, List.length_map]
    rw [any_mv d _ (fun i => f i && regsMatch i.regsWritten regs) (fun x => by rw [hf]; rfl)]

theorem popLoop_mv (d : Int) (p : CProg) (as : List Int) :
    ∀ (a b c : Nat) (q : Rat), popLoop (mvProg d p) (as.map (· + d)) a b c q = popLoop p as a b c q := by
  induction as with
  | nil => intros; rfl
  | cons x as ih =>
    intro a b c q
    simp only [List.map_cons]
    unfold popLoop
    rw [get_mvProg]
    cases dictGet p x with
    | none => rfl
    | some l =>
      simp only [Option.map_some, filter_mv, List.length_map, countP_mv d _ (·.isBranch) (fun _ => rfl),
        countP_mv d _ (·.isPop) (fun _ => rfl), ih]

theorem downRange_mv (d a b : Int) : downRange (a + d) (b + d) = (downRange a b).map (· + d) := by
  unfold downRange
  rw [List.map_map, show a + d - (b + d) = a - b by omega]
  apply List.map_congr_left
  intro k _
  simp only [Function.comp_apply]; omega

theorem pushPop_mv (d : Int) (p : CProg) (fns : Fns) (x : Cand) (a f : Int) :
    computePushPop (mvProg d p) (movedFns d fns) (movedCand d x) (a + d) (f + d) = computePushPop p fns x a f := by
  unfold computePushPop
  rw [get_mvProg, get_mvFns]
  cases dictGet p a with
  | none => rfl
  | some l =>
    simp only [Option.map_some, List.length_map]
    rw [opProb_mv d p (·.isPush) (fun _ => rfl)]
    cases dictGet fns a with
    | none => rfl
    | some q =>
      simp only [Option.map_some, downRange_mv, popLoop_mv]
      rw [opProb_mv d p (·.isPop) (fun _ => rfl)]
      rfl

theorem allAt_mv (d : Int) (p : CProg) (a : Int) : allAt (mvProg d p) (a + d) = (allAt p a).map (movedCand d) := by
  unfold allAt; rw [get_mvProg]; cases dictGet p a <;> rfl

theorem validAt_mv (d : Int) (p : CProg) (a : Int) :
    validAt (mvProg d p) (a + d) = (validAt p a).map (movedCand d) := by
  unfold validAt; rw [get_mvProg]
  cases dictGet p a with
  | none => rfl
  | some l => exact filter_mv d l

theorem cfg_mv (d : Int) (p : CProg) (x : Cand) (a : Int) :
    computeCfg (mvProg d p) (movedCand d x) (a + d) = computeCfg p x a := by
  unfold computeCfg
  rw [show a + d - 4 = a - 4 + d by omega, show a + d + 4 = a + 4 + d by omega, validAt_mv, validAt_mv, allAt_mv]
  simp only [List.length_map]
  rw [countP_mv d _ _ (fun _ => rfl), countP_mv d _ _ (fun _ => rfl), countP_mv d _ _ (fun _ => rfl),
    countP_mv d _ _ (fun _ => rfl)]
  rfl

theorem distLoop_mv (d : Int) (p : CProg) (r : Nat) (as : List Int) :
    ∀ q : Rat, distLoop (mvProg d p) r (as.map (· + d)) q = distLoop p r as q := by
  induction as with
  | nil => intros; rfl
  | cons x as ih =>
    intro q
    simp only [List.map_cons]
    unfold distLoop
    rw [get_mvProg]
    cases dictGet p x with
    | none => exact ih q
    | some l =>
      simp only [Option.map_some, filter_mv, List.length_map]
      rw [countP_mv d _ (fun i => decide (r ∈ i.m.written)) (fun _ => rfl)]
      simp only [ih]

theorem distRange_mv (d a : Int) (x y : Nat) : distRange (a + d) x y = (distRange a x y).map (· + d) := by
  unfold distRange
  rw [List.map_map]
  apply List.map_congr_left
  intro k _
  simp only [Function.comp_apply]; omega

theorem readLoop_mv (d : Int) (coll : Collector) (p : CProg) (a : Int) (rs : List Nat) :
    ∀ q : Rat, readLoop coll (mvProg d p) (a + d) rs q = readLoop coll p a rs q := by
  induction rs with
  | nil => intros; rfl
  | cons r rs ih =>
    intro q
    simp only [readLoop, distRange_mv, distLoop_mv, ih]

theorem branch_mv (d : Int) (fns : Fns) (x : Cand) (f lo hi : Int) :
    computeBranch (movedFns d fns) (movedCand d x) (f + d) (lo + d) (hi + d) = computeBranch fns x f lo hi := by
  have he : ∀ j, computeBranch.elsewhere (movedFns d fns) (lo + d) (hi + d) (j + d) =
      computeBranch.elsewhere fns lo hi j := by
    intro j
    unfold computeBranch.elsewhere
    rw [get_mvFns, Option.isSome_map]
    simp only [show (hi + d < j + d) = (hi < j) from propext (by omega),
      show (j + d < lo + d) = (j < lo) from propext (by omega)]
  unfold computeBranch
  rw [get_mvFns]
  show (if x.m.ignore || !x.isBranch then _ else match x.jump.map (· + d) with | none => _ | some j => _) = _
  cases x.jump with
  | none => rfl
  | some j =>
    simp only [Option.map_some, he, show (f + d ≤ j + d) = (f ≤ j) from propext (by omega)]
    cases dictGet fns f with
    | none => rfl
    | some q =>
      simp only [Option.map_some, show (j + d ≤ q.2 + d) = (j ≤ q.2) from propext (by omega)]

theorem dist_mv (d : Int) (coll : Collector) (p : CProg) (x : Cand) (a : Int) :
    computeDistance coll (mvProg d p) (movedCand d x) (a + d) = computeDistance coll p x a := by
  unfold computeDistance
  rw [readLoop_mv]; rfl

theorem scoreCand_mv (d : Int) (coll : Collector) (fns : Fns) (p : CProg) (cp : Counters) (pl : Place) (x : Scored) :
    scoreCand coll (movedFns d fns) (mvProg d p) cp ⟨pl.addr + d, pl.currentFn + d, pl.low + d, pl.high + d, pl.first⟩
      { x with c := movedCand d x.c } =
    (scoreCand coll fns p cp pl x).map fun y => { y with c := movedCand d y.c } := by
  unfold scoreCand
  simp only [pushPop_mv, branch_mv, dist_mv, cfg_mv]
  show (if x.c.m.ignore then _ else _) = _
  split
  · rfl
  · show (ratioOr0 coll.conditionCnt cp.1 x.c.m.cond >>= fun pc => ratioOr0 coll.instructionCnt cp.2.1 x.c.m.opcode >>= fun po =>
      computeRegisters coll cp x.c >>= fun pr => _) = _
    cases ratioOr0 coll.conditionCnt cp.1 x.c.m.cond with
    | error e => rfl
    | ok pc =>
    cases ratioOr0 coll.instructionCnt cp.2.1 x.c.m.opcode with
    | error e => rfl
    | ok po =>
    cases computeRegisters coll cp x.c with
    | error e => rfl
    | ok pr =>
    cases h1 : computePushPop p fns x.c pl.addr pl.currentFn with
    | error e => rfl
    | ok pp =>
    cases h2 : computeBranch fns x.c pl.currentFn pl.low pl.high with
    | error e => rfl
    | ok pb =>
      cases h3 : computeCfg p x.c pl.addr with
      | error e => cases h : pl.first <;> rfl
      | ok pg => cases h : pl.first <;> rfl

theorem scoreOne_mv (d : Int) (coll : Collector) (fns : Fns) (p : CProg) (cp : Counters) (pl : Place)
    (x : RInst Scored) :
    scoreOne coll (movedFns d fns) (mvProg d p) cp ⟨pl.addr + d, pl.currentFn + d, pl.low + d, pl.high + d, pl.first⟩
      (movedInst d x) = (scoreOne coll fns p cp pl x).map (movedInst d) := by
  unfold scoreOne
  show (scoreCand coll (movedFns d fns) (mvProg d p) cp _ { x.data with c := movedCand d x.data.c } >>= _) = _
  rw [scoreCand_mv]
  cases scoreCand coll fns p cp pl x.data with
  | error e => rfl
  | ok y =>
    show (scoreOf { y with c := movedCand d y.c } >>= _) = _
    have : scoreOf { y with c := movedCand d y.c } = scoreOf y := rfl
    rw [this]
    show _ = Except.map (movedInst d) (scoreOf y >>= _)
    cases scoreOf y <;> rfl

theorem mapM_mv {α : Type} (f g : α → Py α) (u : α → α) (h : ∀ x, g (u x) = (f x).map u) (l : List α) :
    (l.map u).mapM g = (l.mapM f).map (List.map u) := by
  induction l with
  | nil => rfl
  | cons x l ih =>
    rw [List.map_cons, List.mapM_cons, List.mapM_cons, ih, h]
    cases f x with
    | error e => rfl
    | ok y => cases l.mapM f <;> rfl

theorem scoreLoop_mv (d : Int) (coll : Collector) (fns : Fns) (p : CProg) (cp : Counters) (lo hi : Int)
    (l : List (Int × List (RInst Scored))) : ∀ (b : Bool) (cur : Int),
    scoreLoop coll (movedFns d fns) (mvProg d p) cp (lo + d) (hi + d) b (cur + d)
      (l.map fun q => (q.1 + d, q.2.map (movedInst d))) =
    (scoreLoop coll fns p cp lo hi b cur l).map (List.map (List.map (movedInst d))) := by
  induction l with
  | nil => intros; rfl
  | cons q l ih =>
    intro b cur
    simp only [List.map_cons]
    unfold scoreLoop
    simp only [get_mvFns, Option.isSome_map]
    have hc : (if (dictGet fns q.1).isSome = true then q.1 + d else cur + d) =
        (if (dictGet fns q.1).isSome = true then q.1 else cur) + d := by split <;> rfl
    rw [hc]
    generalize (if (dictGet fns q.1).isSome = true then q.1 else cur) = c
    have := mapM_mv (scoreOne coll fns p cp ⟨q.1, c, lo, hi, b⟩)
      (scoreOne coll (movedFns d fns) (mvProg d p) cp ⟨q.1 + d, c + d,
        lo + d, hi + d, b⟩) (movedInst d) (fun x => scoreOne_mv d coll fns p cp ⟨q.1, c, lo, hi, b⟩ x) q.2
    rw [this, ih]
    cases q.2.mapM (scoreOne coll fns p cp ⟨q.1, c, lo, hi, b⟩) with
    | error e => rfl
    | ok y =>
      show (Except.map _ (scoreLoop coll fns p cp lo hi false _ l) >>= _) =
        Except.map _ (scoreLoop coll fns p cp lo hi false _ l >>= _)
      cases scoreLoop coll fns p cp lo hi false c l <;> rfl

theorem bare_mv (d : Int) (addrs : List Int) (prog : List (List (RInst Scored))) :
    bare (addrs.map (· + d)) (prog.map (List.map (movedInst d))) = mvProg d (bare addrs prog) := by
  unfold bare mvProg
  rw [List.map_map, List.zip_map, List.zip_map_right, List.map_map]
  apply List.map_congr_left
  rintro ⟨a, l⟩ _
  simp only [movedInst, Function.comp_def, List.map_map, Prod.map]
  rfl

theorem counters_mv (d : Int) (p : CProg) : counters (mvProg d p) = counters p := by
  unfold counters collectCorrupted mvProg
  simp only [List.map_map, List.foldl_map, Function.comp_def]
  rfl

/-- Scoring a program loaded elsewhere gives the same evidence and the same
scores, or the same exception. -/
theorem recuperate_mv (d : Int) (coll : Collector) (fns : Fns) (addrs : List Int) (prog : List (List (RInst Scored))) :
    recuperate coll (movedFns d fns) (addrs.map (· + d)) (prog.map (List.map (movedInst d))) =
    (recuperate coll fns addrs prog).map (List.map (List.map (movedInst d))) := by
  unfold recuperate
  cases addrs with
  | nil => rfl
  | cons a as =>
    have hl : ((a :: as).map (· + d)).getLast? = ((a :: as).getLast?).map (· + d) := List.getLast?_map ..
    simp only [bare_mv, counters_mv, hl]
    cases h : (a :: as).getLast? with
    | none => rfl
    | some z =>
      simp only [List.map_cons, Option.map_some]
      rw [← scoreLoop_mv, ← List.map_cons (f := (· + d)), List.zip_map]
      rfl

/-- **C127.** A recovery of the program loaded `d` bytes higher, addresses,
functions and jump targets alike, runs exactly as the recovery of the program
where it was: the same passes, the same exceptions, the same candidates left at
the corresponding addresses with the same evidence and the same scores. -/
theorem C127_relocation (d : Int) (coll : Collector) (fns : Fns) (addrs : List Int) (os : List (RInst Scored))
    (prog : List (List (RInst Scored))) (fuel : Nat) :
    recoveryLoop (fun _ p => recuperate coll (movedFns d fns) (addrs.map (· + d)) p) (os.map (movedInst d)) fuel
      (prog.map (List.map (movedInst d))) =
    (recoveryLoop (fun _ p => recuperate coll fns addrs p) os fuel prog).map
      (Except.map fun t => (t.1, t.2.1.map (List.map (movedInst d)), t.2.2)) :=
  loop_on (fun y : Scored => { y with c := movedCand d y.c }) _ _ os (fun _ p => recuperate_mv d coll fns addrs p) prog fuel

/-- The encodings and scores after one scoring of a program of branches. -/
def branchScores (fns : Fns) (addrs : List Int) (prog : List (List (RInst Scored))) :
    Option (List (List (Nat × Rat))) :=
  ((recuperate (collectMeta {} [(branchCand 10 14 4).m, (ordinary 20 0 4 [3]).m]) fns addrs prog).toOption).map
    (List.map (List.map fun x => (x.enc, x.score)))

/-- Three branches and another candidate. -/
def branchProg : List (List (RInst Scored)) :=
  [[fresh (branchCand 10 14 4), fresh (branchCand 11 14 400)], [fresh (ordinary 20 0 4 [3]), fresh (branchCand 21 14 400)]]

/-- A program of one function, the same program 65536 bytes higher, and, for
comparison, the higher program whose branches were left pointing at the old
place: only the last one is scored differently. -/
theorem C127_case :
    branchScores [(0, (0, 4))] [0, 4] branchProg =
      some [[(10, 67 / 400), (11, 1 / 4000)], [(20, 1), (21, 13 / 80000)]] ∧
    branchScores (movedFns 65536 [(0, (0, 4))]) [65536, 65540] (branchProg.map (List.map (movedInst 65536))) =
      some [[(10, 67 / 400), (11, 1 / 4000)], [(20, 1), (21, 13 / 80000)]] ∧
    branchScores (movedFns 65536 [(0, (0, 4))]) [65536, 65540] branchProg =
      some [[(10, 1 / 4000), (11, 1 / 4000)], [(20, 1), (21, 13 / 80000)]] := by decide +kernel

end Verif
