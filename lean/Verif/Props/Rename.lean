import Verif.Props.Recuperator
import Verif.Props.Metadata
import Verif.Proof.OnData

/-!
# C129: names of conditions, opcodes and registers do not matter

Apart from the condition "always" and the registers `sp`, `lr`, `pc` and `cpsr`,
the recovery only asks whether two conditions, opcodes or registers are the same.
-/

namespace Verif

namespace Spec

/-- A renaming of conditions, opcodes and registers that keeps what is different
different, the condition "always", the four special registers, and the tracked
registers among themselves. -/
structure Renaming where
  cond : Int → Int
  op : Nat → Nat
  reg : Nat → Nat
  condInj : ∀ a b, cond a = cond b → a = b
  opInj : ∀ a b, op a = op b → a = b
  regInj : ∀ a b, reg a = reg b → a = b
  always : cond 14 = 14
  sp : reg 13 = 13
  lr : reg 14 = 14
  pc : reg 15 = 15
  cpsr : reg 17 = 17
  tracked : ∀ k, reg k < 20 ↔ k < 20

variable (ρ : Renaming)

/-- A renamed instruction, as the collectors see it. -/
def renamedM (x : MInst) : MInst :=
  { x with cond := ρ.cond x.cond, opcode := ρ.op x.opcode, used := x.used.map ρ.reg,
           read := x.read.map ρ.reg, written := x.written.map ρ.reg }

/-- A renamed candidate. -/
def renamedCand (x : Cand) : Cand :=
  { x with m := renamedM ρ x.m, regsRead := x.regsRead.map ρ.reg, regsWritten := x.regsWritten.map ρ.reg }

/-- A renamed candidate with its evidence. -/
def renamedScored (x : Scored) : Scored := { x with c := renamedCand ρ x.c }

/-- A renamed candidate with its evidence and its score. -/
def renamedInst (x : RInst Scored) : RInst Scored := { x with data := renamedScored ρ x.data }

end Spec

open Spec

variable (ρ : Renaming)

theorem mem_reg (k : Nat) (l : List Nat) : ρ.reg k ∈ l.map ρ.reg ↔ k ∈ l := by
  constructor
  · intro h
    obtain ⟨a, ha, he⟩ := List.mem_map.1 h
    exact ρ.regInj _ _ he ▸ ha
  · exact List.mem_map_of_mem

theorem count_reg (k : Nat) (l : List Nat) : (l.map ρ.reg).count (ρ.reg k) = l.count k :=
  List.count_map_of_injective l ρ.reg (fun a b => ρ.regInj a b) k

theorem cond_iff (a b : Int) : ρ.cond a = ρ.cond b ↔ a = b := ⟨ρ.condInj a b, congrArg _⟩

theorem op_iff (a b : Nat) : ρ.op a = ρ.op b ↔ a = b := ⟨ρ.opInj a b, congrArg _⟩

theorem defined_ren (p : List MInst) : defined (p.map (renamedM ρ)) = (defined p).map (renamedM ρ) := by
  unfold defined; rw [List.filter_map]; rfl

theorem lastTouch_ren (p : List MInst) (s j : Nat) : lastTouch (p.map (renamedM ρ)) (ρ.reg s) j = lastTouch p s j := by
  unfold lastTouch
  congr 1
  funext i
  rw [List.getElem?_map]
  cases p[i]? with
  | none => rfl
  | some x => simp [renamedM, mem_reg, -List.mem_map]

theorem distances_ren (p : List MInst) (s : Nat) : distances (p.map (renamedM ρ)) (ρ.reg s) = distances p s := by
  unfold distances
  rw [List.length_map]
  congr 1
  funext j
  unfold distAt
  rw [lastTouch_ren, List.getElem?_map]
  cases p[j]? with
  | none => rfl
  | some y =>
    cases lastTouch p s j with
    | none => rfl
    | some i =>
      simp only [Option.map_some, List.getElem?_map]
      cases p[i]? with
      | none => rfl
      | some x => simp [renamedM, mem_reg, -List.mem_map]

/-- What the collectors answer about the renamed things. -/
structure SameColl (c c' : Collector) : Prop where
  cond : ∀ k, dictGet c'.conditionCnt (ρ.cond k) = dictGet c.conditionCnt k
  op : ∀ k, dictGet c'.instructionCnt (ρ.op k) = dictGet c.instructionCnt k
  reg : ∀ k, dictGet c'.storageCnt (ρ.reg k) = dictGet c.storageCnt k
  mn : ∀ k, dictGet c'.minDist (ρ.reg k) = dictGet c.minDist k
  mx : ∀ k, dictGet c'.maxDist (ρ.reg k) = dictGet c.maxDist k

theorem sameColl (p : List MInst) : SameColl ρ (collectMeta {} p) (collectMeta {} (p.map (renamedM ρ))) := by
  obtain ⟨a1, a2, a3, -, -⟩ := C35_counts p
  obtain ⟨b1, b2, b3, -, -⟩ := C35_counts (p.map (renamedM ρ))
  constructor
  · intro k
    rw [a1, b1, defined_ren, List.countP_map]
    have : (fun x : MInst => decide (x.cond = ρ.cond k)) ∘ renamedM ρ = fun x => decide (x.cond = k) := by
      funext x; simp [renamedM, cond_iff]
    rw [this]
  · intro k
    rw [a2, b2, defined_ren, List.countP_map]
    have : (fun x : MInst => decide (x.opcode = ρ.op k)) ∘ renamedM ρ = fun x => decide (x.opcode = k) := by
      funext x; simp [renamedM, op_iff]
    rw [this]
  · intro k
    rw [a3, b3, defined_ren, List.map_map]
    have : (fun x : MInst => x.used.count (ρ.reg k)) ∘ renamedM ρ = fun x => x.used.count k := by
      funext x; exact count_reg ρ k x.used
    rw [this]
  · intro k
    by_cases h : k < 20
    · rw [(C36_distances p k h).1, (C36_distances _ _ ((ρ.tracked k).2 h)).1, defined_ren, distances_ren]
    · rw [(C36_untracked p k (by omega)).1, (C36_untracked _ (ρ.reg k) (by have := ρ.tracked k; omega)).1]
  · intro k
    by_cases h : k < 20
    · rw [(C36_distances p k h).2.1, (C36_distances _ _ ((ρ.tracked k).2 h)).2.1, defined_ren, distances_ren]
    · rw [(C36_untracked p k (by omega)).2, (C36_untracked _ (ρ.reg k) (by have := ρ.tracked k; omega)).2]

/-- The renamed program without evidence. -/
def renProg (p : CProg) : CProg := p.map fun q => (q.1, q.2.map (renamedCand ρ))

/-- What the counters of the corrupted program answer about the renamed things. -/
structure SameCnt (c c' : Counters) : Prop where
  cond : ∀ k, dictGet c'.1 (ρ.cond k) = dictGet c.1 k
  op : ∀ k, dictGet c'.2.1 (ρ.op k) = dictGet c.2.1 k
  reg : ∀ k, dictGet c'.2.2 (ρ.reg k) = dictGet c.2.2 k

theorem sameCnt (p : CProg) : SameCnt ρ (counters p) (counters (renProg ρ p)) := by
  have hw : ∀ f g : MInst → Bool, (∀ x, g (renamedM ρ x) = f x) →
      addressesWith ((renProg ρ p).map fun q => (q.1, q.2.map (·.m))) g =
      addressesWith (p.map fun q => (q.1, q.2.map (·.m))) f := by
    intro f g h
    unfold addressesWith renProg
    rw [List.map_map, List.countP_map, List.countP_map]
    congr 1
    funext q
    simp only [Function.comp_apply, List.map_map, List.any_map]
    congr 1
    funext x
    simp only [Function.comp_apply]
    rw [show (renamedCand ρ x).m = renamedM ρ x.m from rfl, h]
    rfl
  unfold counters
  obtain ⟨a1, a2, a3⟩ := C37_addresses (p.map fun q => (q.1, q.2.map (·.m)))
  obtain ⟨b1, b2, b3⟩ := C37_addresses ((renProg ρ p).map fun q => (q.1, q.2.map (·.m)))
  constructor
  · intro k
    rw [a1, b1, hw (fun i => decide (i.cond = k)) _ fun x => by simp [renamedM, cond_iff]]
  · intro k
    rw [a2, b2, hw (fun i => decide (i.opcode = k)) _ fun x => by simp [renamedM, op_iff]]
  · intro k
    rw [a3, b3, hw (fun i => decide (k ∈ i.used)) _ fun x => by simp [renamedM, mem_reg, -List.mem_map]]

theorem get_ren (p : CProg) (k : Int) : dictGet (renProg ρ p) k = (dictGet p k).map (List.map (renamedCand ρ)) := by
  unfold renProg
  induction p with
  | nil => rfl
  | cons q t ih =>
    unfold dictGet at ih ⊢
    by_cases h : q.1 = k
    · simp [h]
    · simp only [List.map_cons, List.find?_cons, h, decide_false]
      exact ih

theorem filter_ren (l : List Cand) :
    (l.map (renamedCand ρ)).filter (fun i => !i.m.ignore) = (l.filter fun i => !i.m.ignore).map (renamedCand ρ) := by
  rw [List.filter_map]; rfl

theorem countP_ren (l : List Cand) (f g : Cand → Bool) (hf : ∀ x, g (renamedCand ρ x) = f x) :
    (l.map (renamedCand ρ)).countP g = l.countP f := by
  rw [List.countP_map]
  exact List.countP_congr fun x _ => by simp [hf]

theorem any_ren (l : List Cand) (f g : Cand → Bool) (hf : ∀ x, g (renamedCand ρ x) = f x) :
    (l.map (renamedCand ρ)).any g = l.any f := by
  rw [List.any_map]; congr 1; funext x; exact hf x

theorem regsMatch_ren (a b : List Nat) : regsMatch (a.map ρ.reg) (b.map ρ.reg) = regsMatch a b := by
  unfold regsMatch
  rw [List.all_map, List.all_map]
  have e15 : ∀ r, ρ.reg r = regPC ↔ r = regPC := fun r => ⟨fun h => ρ.regInj _ _ (h.trans ρ.pc.symm), fun h => by rw [h]; exact ρ.pc⟩
  have e14 : ∀ r, ρ.reg r = regLR ↔ r = regLR := fun r => ⟨fun h => ρ.regInj _ _ (h.trans ρ.lr.symm), fun h => by rw [h]; exact ρ.lr⟩
  have e13 : ∀ r, ρ.reg r = regSP ↔ r = regSP := fun r => ⟨fun h => ρ.regInj _ _ (h.trans ρ.sp.symm), fun h => by rw [h]; exact ρ.sp⟩
  congr 1
  · congr 1; funext r
    simp only [Function.comp_apply, mem_reg, e15]
  · congr 1; funext r
    simp only [Function.comp_apply, mem_reg, e14, e13]

theorem opProb_ren (p : CProg) (f : Cand → Bool) (hf : ∀ x, f (renamedCand ρ x) = f x) (a : Int) (regs : List Nat) :
    opProb (renProg ρ p) f a (regs.map ρ.reg) = opProb p f a regs := by
  unfold opProb
  rw [get_ren]
  cases dictGet p a with
  | none => rfl
  | some l =>
    simp only [Option.map_some, filter_ren, countP_ren ρ _ f f hf, List.length_map]
    rw [any_ren ρ _ (fun i => f i && regsMatch i.regsWritten regs) _
      (fun x => by rw [hf]; exact congrArg _ (regsMatch_ren ρ _ _))]

theorem popLoop_ren (p : CProg) (as : List Int) :
    ∀ (a b c : Nat) (q : Rat), popLoop (renProg ρ p) as a b c q = popLoop p as a b c q := by
  induction as with
  | nil => intros; rfl
  | cons x as ih =>
    intro a b c q
    unfold popLoop
    rw [get_ren]
    cases dictGet p x with
    | none => rfl
    | some l =>
      simp only [Option.map_some, filter_ren, List.length_map, countP_ren ρ _ (·.isBranch) (·.isBranch) (fun _ => rfl),
        countP_ren ρ _ (·.isPop) (·.isPop) (fun _ => rfl), ih]

theorem pushPop_ren (p : CProg) (fns : Fns) (x : Cand) (a f : Int) :
    computePushPop (renProg ρ p) fns (renamedCand ρ x) a f = computePushPop p fns x a f := by
  unfold computePushPop
  rw [get_ren]
  cases dictGet p a with
  | none => rfl
  | some l =>
    simp only [Option.map_some, List.length_map, popLoop_ren]
    rw [show (renamedCand ρ x).regsWritten = x.regsWritten.map ρ.reg from rfl, opProb_ren ρ p (·.isPush) (fun _ => rfl)]
    cases dictGet fns a with
    | none => rfl
    | some q =>
      simp only []
      rw [show (renamedCand ρ x).regsRead = x.regsRead.map ρ.reg from rfl, opProb_ren ρ p (·.isPop) (fun _ => rfl)]
      rfl

theorem allAt_ren (p : CProg) (a : Int) : allAt (renProg ρ p) a = (allAt p a).map (renamedCand ρ) := by
  unfold allAt; rw [get_ren]; cases dictGet p a <;> rfl

theorem validAt_ren (p : CProg) (a : Int) : validAt (renProg ρ p) a = (validAt p a).map (renamedCand ρ) := by
  unfold validAt; rw [get_ren]
  cases dictGet p a with
  | none => rfl
  | some l => exact filter_ren ρ l

theorem cfg_ren (p : CProg) (x : Cand) (a : Int) : computeCfg (renProg ρ p) (renamedCand ρ x) a = computeCfg p x a := by
  have hc : ∀ i : Cand, ((renamedCand ρ i).m.cond = (renamedCand ρ x).m.cond) = (i.m.cond = x.m.cond) := fun i =>
    propext (cond_iff ρ _ _)
  have hw : ∀ i : Cand, (regCPSR ∈ (renamedCand ρ i).regsWritten) = (regCPSR ∈ i.regsWritten) := fun i =>
    propext (by
      have := mem_reg ρ regCPSR i.regsWritten
      rw [show ρ.reg regCPSR = regCPSR from ρ.cpsr] at this
      exact this)
  have ha : ((renamedCand ρ x).m.cond = 14) = (x.m.cond = 14) := propext (by
    have := cond_iff ρ x.m.cond 14
    rw [ρ.always] at this
    exact this)
  unfold computeCfg
  rw [validAt_ren, validAt_ren, allAt_ren]
  simp only [List.length_map]
  rw [countP_ren ρ _ (fun i => decide (i.m.cond = x.m.cond)) _ (fun i => by simp only [hc]),
    countP_ren ρ _ (fun i => decide (regCPSR ∈ i.regsWritten)) _ (fun i => by simp only [hw]),
    countP_ren ρ _ (fun i => decide (i.m.cond = x.m.cond ∧ regCPSR ∈ i.regsWritten)) _ (fun i => by simp only [hc, hw]),
    countP_ren ρ _ (fun i => decide (i.m.cond = x.m.cond)) _ (fun i => by simp only [hc])]
  simp only [ha]

theorem distLoop_ren (p : CProg) (r : Nat) (as : List Int) :
    ∀ q : Rat, distLoop (renProg ρ p) (ρ.reg r) as q = distLoop p r as q := by
  induction as with
  | nil => intros; rfl
  | cons x as ih =>
    intro q
    unfold distLoop
    rw [get_ren]
    cases dictGet p x with
    | none => exact ih q
    | some l =>
      simp only [Option.map_some, filter_ren, List.length_map]
      rw [countP_ren ρ _ (fun i => decide (r ∈ i.m.written)) _
        (fun i => decide_eq_decide.2 (mem_reg ρ r i.m.written))]
      simp only [ih]

theorem readLoop_ren {coll coll' : Collector} (h : SameColl ρ coll coll') (p : CProg) (a : Int) (rs : List Nat) :
    ∀ q : Rat, readLoop coll' (renProg ρ p) a (rs.map ρ.reg) q = readLoop coll p a rs q := by
  induction rs with
  | nil => intros; rfl
  | cons r rs ih =>
    intro q
    have hb : distBounds coll' (ρ.reg r) = distBounds coll r := by
      unfold distBounds; rw [h.mn, h.mx]
    simp only [List.map_cons, readLoop, hb, distLoop_ren, ih]

theorem dist_ren {coll coll' : Collector} (h : SameColl ρ coll coll') (p : CProg) (x : Cand) (a : Int) :
    computeDistance coll' (renProg ρ p) (renamedCand ρ x) a = computeDistance coll p x a := by
  unfold computeDistance
  rw [show (renamedCand ρ x).m.read = x.m.read.map ρ.reg from rfl, readLoop_ren ρ h]
  rfl

theorem regMin_ren {num den num' den' : List (Nat × Nat)} (hn : ∀ k, dictGet num' (ρ.reg k) = dictGet num k)
    (hd : ∀ k, dictGet den' (ρ.reg k) = dictGet den k) (l : List Nat) :
    ∀ q : Rat, regMin num' den' (l.map ρ.reg) q = regMin num den l q := by
  induction l with
  | nil => intros; rfl
  | cons r l ih =>
    intro q
    simp only [List.map_cons, regMin, hn, hd, ih]

theorem registers_ren {coll coll' : Collector} (h : SameColl ρ coll coll') {cp cp' : Counters} (hc : SameCnt ρ cp cp')
    (x : Cand) : computeRegisters coll' cp' (renamedCand ρ x) = computeRegisters coll cp x := by
  unfold computeRegisters
  rw [show (renamedCand ρ x).m.used = x.m.used.map ρ.reg from rfl, regMin_ren ρ h.reg hc.reg]
  rfl

theorem scoreCand_ren {coll coll' : Collector} (h : SameColl ρ coll coll') {cp cp' : Counters} (hc : SameCnt ρ cp cp')
    (fns : Fns) (p : CProg) (pl : Place) (x : Scored) :
    scoreCand coll' fns (renProg ρ p) cp' pl (renamedScored ρ x) = (scoreCand coll fns p cp pl x).map (renamedScored ρ) := by
  have e1 : ratioOr0 coll'.conditionCnt cp'.1 (renamedScored ρ x).c.m.cond = ratioOr0 coll.conditionCnt cp.1 x.c.m.cond := by
    unfold ratioOr0
    rw [show (renamedScored ρ x).c.m.cond = ρ.cond x.c.m.cond from rfl, h.cond, hc.cond]
  have e2 : ratioOr0 coll'.instructionCnt cp'.2.1 (renamedScored ρ x).c.m.opcode =
      ratioOr0 coll.instructionCnt cp.2.1 x.c.m.opcode := by
    unfold ratioOr0
    rw [show (renamedScored ρ x).c.m.opcode = ρ.op x.c.m.opcode from rfl, h.op, hc.op]
  have e3 : computeRegisters coll' cp' (renamedScored ρ x).c = computeRegisters coll cp x.c := registers_ren ρ h hc x.c
  have e4 : computePushPop (renProg ρ p) fns (renamedScored ρ x).c pl.addr pl.currentFn =
      computePushPop p fns x.c pl.addr pl.currentFn := pushPop_ren ρ p fns x.c _ _
  have e5 : computeDistance coll' (renProg ρ p) (renamedScored ρ x).c pl.addr = computeDistance coll p x.c pl.addr :=
    dist_ren ρ h p x.c _
  have e6 : computeCfg (renProg ρ p) (renamedScored ρ x).c pl.addr = computeCfg p x.c pl.addr := cfg_ren ρ p x.c _
  have e7 : computeBranch fns (renamedScored ρ x).c pl.currentFn pl.low pl.high =
      computeBranch fns x.c pl.currentFn pl.low pl.high := rfl
  unfold scoreCand
  rw [e1, e2, e3, e4, e5, e6, e7]
  show (if x.c.m.ignore then _ else _) = _
  split
  · rfl
  · cases ratioOr0 coll.conditionCnt cp.1 x.c.m.cond with
    | error e => rfl
    | ok pc =>
    cases ratioOr0 coll.instructionCnt cp.2.1 x.c.m.opcode with
    | error e => rfl
    | ok po =>
    cases computeRegisters coll cp x.c with
    | error e => rfl
    | ok pr =>
    cases computePushPop p fns x.c pl.addr pl.currentFn with
    | error e => rfl
    | ok pp =>
    cases computeBranch fns x.c pl.currentFn pl.low pl.high with
    | error e => rfl
    | ok pb =>
      cases computeCfg p x.c pl.addr with
      | error e => cases h : pl.first <;> rfl
      | ok pg => cases h : pl.first <;> rfl

theorem scoreOne_ren {coll coll' : Collector} (h : SameColl ρ coll coll') {cp cp' : Counters} (hc : SameCnt ρ cp cp')
    (fns : Fns) (p : CProg) (pl : Place) (x : RInst Scored) :
    scoreOne coll' fns (renProg ρ p) cp' pl (renamedInst ρ x) = (scoreOne coll fns p cp pl x).map (renamedInst ρ) := by
  unfold scoreOne
  show (scoreCand coll' fns (renProg ρ p) cp' pl (renamedScored ρ x.data) >>= _) = _
  rw [scoreCand_ren ρ h hc]
  cases scoreCand coll fns p cp pl x.data with
  | error e => rfl
  | ok y =>
    show (scoreOf (renamedScored ρ y) >>= _) = _
    have : scoreOf (renamedScored ρ y) = scoreOf y := rfl
    rw [this]
    show _ = Except.map (renamedInst ρ) (scoreOf y >>= _)
    cases scoreOf y <;> rfl

theorem mapM_ren {α : Type} (f g : α → Py α) (u : α → α) (h : ∀ x, g (u x) = (f x).map u) (l : List α) :
    (l.map u).mapM g = (l.mapM f).map (List.map u) := by
  induction l with
  | nil => rfl
  | cons x l ih =>
    rw [List.map_cons, List.mapM_cons, List.mapM_cons, ih, h]
    cases f x with
    | error e => rfl
    | ok y => cases l.mapM f <;> rfl

theorem scoreLoop_ren {coll coll' : Collector} (h : SameColl ρ coll coll') {cp cp' : Counters} (hc : SameCnt ρ cp cp')
    (fns : Fns) (p : CProg) (lo hi : Int) (l : List (Int × List (RInst Scored))) : ∀ (b : Bool) (cur : Int),
    scoreLoop coll' fns (renProg ρ p) cp' lo hi b cur (l.map fun q => (q.1, q.2.map (renamedInst ρ))) =
    (scoreLoop coll fns p cp lo hi b cur l).map (List.map (List.map (renamedInst ρ))) := by
  induction l with
  | nil => intros; rfl
  | cons q l ih =>
    intro b cur
    simp only [List.map_cons]
    unfold scoreLoop
    simp only []
    generalize (if (dictGet fns q.1).isSome = true then q.1 else cur) = c
    rw [mapM_ren (scoreOne coll fns p cp ⟨q.1, c, lo, hi, b⟩) (scoreOne coll' fns (renProg ρ p) cp' ⟨q.1, c, lo, hi, b⟩)
      (renamedInst ρ) (fun x => scoreOne_ren ρ h hc fns p ⟨q.1, c, lo, hi, b⟩ x) q.2, ih]
    cases q.2.mapM (scoreOne coll fns p cp ⟨q.1, c, lo, hi, b⟩) with
    | error e => rfl
    | ok y =>
      show (Except.map _ (scoreLoop coll fns p cp lo hi false _ l) >>= _) =
        Except.map _ (scoreLoop coll fns p cp lo hi false _ l >>= _)
      cases scoreLoop coll fns p cp lo hi false c l <;> rfl

theorem recuperate_ren {coll coll' : Collector} (h : SameColl ρ coll coll') (fns : Fns) (addrs : List Int)
    (prog : List (List (RInst Scored))) :
    recuperate coll' fns addrs (prog.map (List.map (renamedInst ρ))) =
    (recuperate coll fns addrs prog).map (List.map (List.map (renamedInst ρ))) := by
  have hb : bare addrs (prog.map (List.map (renamedInst ρ))) = renProg ρ (bare addrs prog) := by
    unfold bare renProg
    rw [List.map_map, List.zip_map_right, List.zip_map_right, List.map_map]
    apply List.map_congr_left
    rintro ⟨a, l⟩ _
    simp only [renamedInst, Function.comp_def, List.map_map, Prod.map]
    rfl
  unfold recuperate
  rw [hb]
  cases addrs with
  | nil => rfl
  | cons a as =>
    simp only []
    cases (a :: as).getLast? with
    | none => rfl
    | some z =>
      simp only []
      rw [← scoreLoop_ren ρ h (sameCnt ρ (bare (a :: as) prog)), List.zip_map_right]
      rfl

/-- **C129.**  Renaming the conditions, opcodes and registers of the original
program and of all candidates alike, keeping "always" and the special registers,
the recovery runs exactly as before: the same passes, the same exceptions, the
same candidates left with the same evidence and the same scores. -/
theorem C129_names (fns : Fns) (addrs : List Int) (os : List (RInst Scored)) (prog : List (List (RInst Scored))) (fuel : Nat) :
    recoveryLoop (fun _ p => recuperate (collectMeta {} ((os.map (renamedInst ρ)).map (·.data.c.m))) fns addrs p)
      (os.map (renamedInst ρ)) fuel (prog.map (List.map (renamedInst ρ))) =
    (recoveryLoop (fun _ p => recuperate (collectMeta {} (os.map (·.data.c.m))) fns addrs p) os fuel prog).map
      (Except.map fun t => (t.1, t.2.1.map (List.map (renamedInst ρ)), t.2.2)) := by
  have hc : (os.map (renamedInst ρ)).map (·.data.c.m) = (os.map (·.data.c.m)).map (renamedM ρ) := by
    rw [List.map_map, List.map_map]; rfl
  rw [hc]
  exact loop_on (renamedScored ρ) _ _ os (fun _ p => recuperate_ren ρ (sameColl ρ _) fns addrs p) prog fuel

/-- Registers 1 and 2 and conditions 0 and 1 are exchanged, opcodes are numbered
from 100. -/
def swapNames : Renaming where
  cond c := if c = 0 then 1 else if c = 1 then 0 else c
  op o := o + 100
  reg r := if r = 1 then 2 else if r = 2 then 1 else r
  condInj a b h := by split_ifs at h <;> omega
  opInj a b h := by omega
  regInj a b h := by split_ifs at h <;> omega
  always := by decide
  sp := by decide
  lr := by decide
  pc := by decide
  cpsr := by decide
  tracked k := by split_ifs <;> omega

/-- The encodings and scores after scoring a program once. -/
def namedScores (os : List Cand) (prog : List (List Cand)) : Option (List (List (Nat × Rat))) :=
  ((recuperate (collectMeta {} (os.map (·.m))) [(0, (0, 4))] [0, 4] (prog.map (List.map fresh))).toOption).map
    (List.map (List.map fun x => (x.enc, x.score)))

/-- An original program. -/
def namedOrig : List Cand := [ordinary 10 14 2 [17, 2], ordinary 20 0 3 [3]]

/-- A corrupted form of it. -/
def namedProg : List (List Cand) :=
  [[ordinary 10 14 2 [17, 2], ordinary 11 0 3 [1, 3]], [ordinary 20 0 3 [3], ordinary 21 14 2 [3, 1]]]

/-- Exchanging "always" with another condition. -/
def notAlways (x : Cand) : Cand :=
  { x with m := { x.m with cond := if x.m.cond = 0 then 14 else if x.m.cond = 14 then 0 else x.m.cond } }

/-- Renaming changes no score; exchanging the condition "always" with another,
which is not a renaming, does. -/
theorem C129_case :
    namedScores namedOrig namedProg = some [[(10, 1), (11, 0)], [(20, 13 / 160000), (21, 0)]] ∧
    namedScores (namedOrig.map (renamedCand swapNames)) (namedProg.map (List.map (renamedCand swapNames))) =
      some [[(10, 1), (11, 0)], [(20, 13 / 160000), (21, 0)]] ∧
    namedScores (namedOrig.map notAlways) (namedProg.map (List.map notAlways)) =
      some [[(10, 1), (11, 0)], [(20, 1 / 40000), (21, 0)]] := by decide +kernel

end Verif
