import Verif.Proof.Recovery
import Verif.Model.Recuperator

/-!
# What a pass of the recovery keeps of every candidate

Two scorings that agree on the programs having a property kept by the scoring
give the same recovery.
-/

namespace Verif

variable {α : Type}

/-- Every candidate has the property. -/
def AllData (P : α → Prop) (prog : List (List (RInst α))) : Prop := ∀ v ∈ prog, ∀ x ∈ v, P x.data

theorem report_allData (P : α → Prop) : ∀ (os : List (RInst α)) (iss : List (List (RInst α))) (r : Report)
    (r' : Report) (iss' : List (List (RInst α))), reportLoop r os iss = .ok (r', iss') →
    AllData P iss → AllData P iss' := by
  intro os
  induction os with
  | nil =>
    intro iss r r' iss' h hp
    simp only [reportLoop, Except.ok.injEq, Prod.mk.injEq] at h
    exact h.2 ▸ hp
  | cons o os ih =>
    intro iss r r' iss' h hp
    cases iss with
    | nil => simp [reportLoop] at h
    | cons l iss =>
      obtain ⟨r1, l1, a1, a2, -, -, -⟩ := reportAddr_ok r o l
      simp only [reportLoop, a1, bind, Except.bind] at h
      cases h2 : reportLoop r1 os iss with
      | error e => rw [h2] at h; simp at h
      | ok q =>
        rw [h2] at h
        simp only [pure, Except.pure, Except.ok.injEq, Prod.mk.injEq] at h
        rw [← h.2]
        intro v hv x hx
        rcases List.mem_cons.1 hv with rfl | hv
        · exact hp l (by simp) x (a2.mem_iff.1 hx)
        · exact ih iss r1 q.1 q.2 h2 (fun w hw => hp w (by simp [hw])) v hv x hx

theorem pruneAll_allData (P : α → Prop) (iss iss' : List (List (RInst α))) (b : Bool)
    (h : pruneAll ((iss.map List.length).sum + 1) iss = some (.ok (iss', b))) (hp : AllData P iss) :
    AllData P iss' := by
  have hmem : ∀ (l : List (List (RInst α))) (v : List (RInst α)), v ∈ l → v.length ≤ (l.map List.length).sum := by
    intro l
    induction l with
    | nil => simp
    | cons w l ih =>
      intro v hv
      rcases List.mem_cons.1 hv with rfl | hv
      · simp
      · have := ih v hv; simp; omega
  obtain ⟨q, c, f1, f2, -⟩ := pruneAll_ok ((iss.map List.length).sum + 1) iss
    (fun v hv => by have := hmem iss v hv; omega)
  rw [f1] at h
  simp only [Option.some.injEq, Except.ok.injEq, Prod.mk.injEq] at h
  rw [← h.1]
  clear f1 h hmem
  induction f2 with
  | nil => intro v hv; simp at hv
  | cons hvw _ ih =>
    intro v hv x hx
    rcases List.mem_cons.1 hv with rfl | hv
    · exact hp _ (by simp) x (hvw.subset hx)
    · exact ih (fun w hw => hp w (by simp [hw])) v hv x hx

theorem pass_allData (P : α → Prop) (score : Nat → List (List (RInst α)) → Py (List (List (RInst α))))
    (hs : ∀ n p q, score n p = .ok q → AllData P p → AllData P q) (orig : List (RInst α))
    (s t : Nat × List (List (RInst α)) × Bool) (h : recoveryPass score orig s = .ok t)
    (hp : AllData P s.2.1) : AllData P t.2.1 := by
  unfold recoveryPass at h
  cases h1 : score s.1 s.2.1 with
  | error e => rw [h1] at h; simp [bind, Except.bind] at h
  | ok p =>
    have p1 := hs _ _ _ h1 hp
    rw [h1] at h
    simp only [bind, Except.bind] at h
    cases h2 : printReport orig p with
    | error e => rw [h2] at h; simp at h
    | ok q =>
      have p2 : AllData P q.2 := by
        unfold printReport at h2
        cases h3 : reportLoop {} orig p with
        | error e => rw [h3] at h2; simp [bind, Except.bind] at h2
        | ok z =>
          rw [h3] at h2
          simp only [bind, Except.bind] at h2
          split at h2
          · simp at h2
          · simp only [pure, Except.pure, Except.ok.injEq] at h2
            rw [← h2]
            exact report_allData P orig p {} z.1 z.2 h3 p1
      rw [h2] at h
      simp only [] at h
      cases h4 : pruneAll ((q.2.map List.length).sum + 1) q.2 with
      | none => rw [h4] at h; simp at h
      | some z =>
        rw [h4] at h
        cases z with
        | error e => simp at h
        | ok y =>
          simp only [pure, Except.pure, Except.ok.injEq] at h
          rw [← h]
          exact pruneAll_allData P q.2 y.1 y.2 h4 p2

theorem loop_allData (P : α → Prop) (score score' : Nat → List (List (RInst α)) → Py (List (List (RInst α))))
    (hs : ∀ n p q, score n p = .ok q → AllData P p → AllData P q)
    (he : ∀ n p, AllData P p → score' n p = score n p) (orig : List (RInst α))
    (prog : List (List (RInst α))) (hp : AllData P prog) (fuel : Nat) :
    recoveryLoop score' orig fuel prog = recoveryLoop score orig fuel prog := by
  unfold recoveryLoop
  suffices H : ∀ (fuel : Nat) (s : Nat × List (List (RInst α)) × Bool), AllData P s.2.1 →
      whileLoop (fun s => s.2.2) (recoveryPass score' orig) fuel s =
      whileLoop (fun s => s.2.2) (recoveryPass score orig) fuel s from H fuel _ hp
  intro fuel
  induction fuel with
  | zero => intro s _; rfl
  | succ n ih =>
    intro s h
    have e : recoveryPass score' orig s = recoveryPass score orig s := by
      unfold recoveryPass; rw [he _ _ h]
    unfold whileLoop
    rw [e]
    split
    · cases h1 : recoveryPass score orig s with
      | error e => rfl
      | ok t => exact ih t (pass_allData P score hs orig s t h1 h)
    · rfl

end Verif
