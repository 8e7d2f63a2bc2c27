import Verif.Model.RunRecovery
import Verif.Props.Recuperator
import Verif.Props.SolutionIO
import Verif.Proof.Rules

/-! # Lemmas about the whole run -/

namespace Verif
open Verif.Spec

/-! ### The program as a dictionary -/

theorem toDict_append (l l' : List CInst) :
    toDict (l ++ l') = l'.foldl (fun d i => dictSet d i.address [i]) (toDict l) := by
  unfold toDict; rw [List.foldl_append]

theorem dictSet_fresh {β : Type} (d : List (Nat × β)) (k : Nat) (v : β) (h : k ∉ d.map (·.1)) :
    dictSet d k v = d ++ [(k, v)] := by
  induction d with
  | nil => rfl
  | cons q d ih =>
    simp only [List.map_cons, List.mem_cons, not_or] at h
    obtain ⟨q1, q2⟩ := q
    simp only [dictSet]
    rw [if_neg (fun e => h.1 (by simpa using e.symm)), ih h.2]
    rfl

theorem toDict_map (l : List CInst) (h : (l.map (·.address)).Nodup) :
    toDict l = l.map fun i => (i.address, [i]) := by
  induction l using List.reverseRecOn with
  | nil => rfl
  | append_singleton l i ih =>
    rw [List.map_append, List.nodup_append] at h
    obtain ⟨h1, _, h3⟩ := h
    rw [toDict_append, ih h1]
    simp only [List.foldl_cons, List.foldl_nil, List.map_append, List.map_cons, List.map_nil]
    apply dictSet_fresh
    rw [List.map_map]
    intro hm
    exact h3 _ hm _ (by simp) rfl

/-! ### Reports -/

theorem reportLoop_perm {α : Type} : ∀ (os : List (RInst α)) (iss : List (List (RInst α))) (r r' : Report)
    (iss' : List (List (RInst α))), reportLoop r os iss = .ok (r', iss') →
    os.length ≤ iss.length ∧ List.Forall₂ List.Perm iss' iss ∧
      (r'.errors ≠ r.errors → ∃ l ∈ iss', 1 < l.length) := by
  intro os
  induction os with
  | nil =>
    intro iss r r' iss' h
    simp only [reportLoop, Except.ok.injEq, Prod.mk.injEq] at h
    obtain ⟨rfl, rfl⟩ := h
    exact ⟨by simp, List.forall₂_same.2 fun _ _ => List.Perm.refl _, fun h => absurd rfl h⟩
  | cons o os ih =>
    intro iss r r' iss' h
    cases iss with
    | nil => simp [reportLoop] at h
    | cons i iss =>
      obtain ⟨r1, l1, e1, e2, e3, e4, _⟩ := reportAddr_ok r o i
      rw [reportLoop, e1] at h
      cases h2 : reportLoop r1 os iss with
      | error e => simp [bind, Except.bind, h2] at h
      | ok q =>
        simp only [bind, Except.bind, h2, pure, Except.pure, Except.ok.injEq, Prod.mk.injEq] at h
        obtain ⟨rfl, rfl⟩ := h
        obtain ⟨f1, f2, f3⟩ := ih iss r1 q.1 q.2 h2
        refine ⟨by simpa using f1, List.Forall₂.cons e2 f2, ?_⟩
        intro hne
        by_cases hi : 1 < i.length
        · exact ⟨l1, by simp, by rw [e2.length_eq]; exact hi⟩
        · rw [if_neg hi] at e4
          obtain ⟨l, hl, hl'⟩ := f3 (by omega)
          exact ⟨l, by simp [hl], hl'⟩

/-- A report that succeeds sorts the candidates of the addresses; some address has
several. -/
theorem printReport_perm {α : Type} {os : List (RInst α)} {iss iss' : List (List (RInst α))} {r : Report}
    (h : printReport os iss = .ok (r, iss')) :
    os.length ≤ iss.length ∧ List.Forall₂ List.Perm iss' iss ∧ ∃ l ∈ iss', 1 < l.length := by
  unfold printReport at h
  cases h1 : reportLoop {} os iss with
  | error e => rw [h1] at h; simp [bind, Except.bind] at h
  | ok q =>
    rw [h1] at h
    simp only [bind, Except.bind, pure, Except.pure] at h
    split at h
    · simp at h
    · rename_i hz
      simp only [Except.ok.injEq, Prod.mk.injEq] at h
      obtain ⟨f1, f2, f3⟩ := reportLoop_perm os iss {} q.1 q.2 h1
      rw [← h.2]
      exact ⟨f1, f2, f3 hz⟩

theorem within_of_perm {α : Type} {a b : List (List (RInst α))} (h : List.Forall₂ List.Perm a b) : Within a b :=
  within_of_mem (h.flip.imp fun _ _ (hp : List.Perm _ _) x hx => hp.mem_iff.1 hx)

/-! ### The loop -/

theorem loop_within {α : Type} (score : Nat → List (List (RInst α)) → Py (List (List (RInst α))))
    (orig : List (RInst α)) (hs : KeepsCandidates orig.length score) :
    ∀ (fuel : Nat) (p : Nat) (b : Bool) (prog : List (List (RInst α))) (s : Nat × List (List (RInst α)) × Bool),
    orig.length = prog.length →
    whileLoop (fun s => s.2.2) (recoveryPass score orig) fuel (p, prog, b) = some (.ok s) →
    Within s.2.1 prog := by
  intro fuel
  induction fuel with
  | zero => intro p b prog s _ h; simp [whileLoop] at h
  | succ fuel ih =>
    intro p b prog s hl h
    rw [whileLoop] at h
    split at h
    · rcases pass_cases score orig hs p prog hl b with ⟨e, he⟩ | ⟨prog', b', h1, h2, h3, _⟩
      · rw [he] at h; simp at h
      · rw [h1] at h
        exact (ih _ _ _ _ (by omega) h).trans h3
    · simp only [Option.some.injEq, Except.ok.injEq] at h
      subst h
      exact within_of_mem (List.forall₂_same.2 fun _ _ _ h => h)

/-! ### The end of the run -/

theorem continuous_keeps {v v' : List (RInst Scored)} (h : continuous v = .ok v') :
    v'.map (fun x : RInst Scored => (x.enc, x.str)) = v.map (fun x : RInst Scored => (x.enc, x.str)) := by
  unfold continuous at h
  split at h
  · refine mapM_map _ _ _ ?_ _ _ h
    intro x y hxy
    cases hp : probRules x.data.scores x.data.c with
    | error e => rw [hp] at hxy; simp [bind, Except.bind] at hxy
    | ok q =>
      rw [hp] at hxy
      simp only [bind, Except.bind, pure, Except.pure, Except.ok.injEq] at hxy
      subst hxy
      rfl
  · simp only [Except.ok.injEq] at h
    rw [h]

theorem leftOf_sub (dec : Nat → Nat → Answers) (a : Nat) : ∀ (v : List (RInst Scored)) (fs : List FInst),
    ∀ x ∈ leftOf dec a v fs, x ∈ v := by
  intro v
  induction v with
  | nil => intro fs x hx; simp [leftOf] at hx
  | cons y v ih =>
    intro fs x hx
    cases fs with
    | nil => simp [leftOf] at hx
    | cons f fs =>
      rw [leftOf] at hx
      split at hx
      · rcases List.mem_cons.1 hx with rfl | hx
        · simp
        · exact List.mem_cons_of_mem _ (ih _ _ hx)
      · exact List.mem_cons_of_mem _ (ih _ _ hx)

theorem leftOf_within (dec : Nat → Nat → Answers) (f : Nat → List FInst) :
    ∀ (addrs : List Nat) (prog : List (List (RInst Scored))), addrs.length = prog.length →
    Within ((addrs.zip prog).map fun q => leftOf dec q.1 q.2 (f q.1)) prog := by
  intro addrs
  induction addrs with
  | nil =>
    intro prog h
    have : prog = [] := List.length_eq_zero_iff.1 h.symm
    subst this
    exact List.Forall₂.nil
  | cons a addrs ih =>
    intro prog h
    cases prog with
    | nil => simp at h
    | cons v prog =>
      simp only [List.zip_cons_cons, List.map_cons]
      exact List.Forall₂.cons (fun x hx => ⟨x, leftOf_sub dec a v _ x hx, rfl, rfl⟩)
        (ih prog (by simpa using h))

/-- What the end of a run leaves is a part of what it was given, and some address has
several candidates left. -/
theorem finishRun_within (dec : Nat → Nat → Answers) (orig : List CInst) (addrs : List Nat)
    (prog prog' : List (List (RInst Scored))) (hl : addrs.length = prog.length)
    (h : finishRun dec orig addrs prog = some (.ok prog')) :
    Within prog' prog ∧ ∃ v ∈ prog', 1 < v.length := by
  unfold finishRun at h
  dsimp only at h
  cases h1 : prog.mapM continuous with
  | error e => rw [h1] at h; simp [bind, Except.bind] at h
  | ok prog1 =>
    have w1 : Within prog1 prog := by
      apply within_of_eq
      exact mapM_map continuous _ _ (fun x y hxy => continuous_keeps hxy) _ _ h1
    rw [h1] at h
    cases h2 : printReport (orig.map fun i => decoded dec i.address i.encoding) prog1 with
    | error e => simp [bind, Except.bind, h2] at h
    | ok r =>
      obtain ⟨r, prog2⟩ := r
      obtain ⟨_, p2, _⟩ := printReport_perm h2
      simp only [bind, Except.bind, h2, pure, Except.pure] at h
      split at h
      · simp at h
      · simp at h
      · rename_i s _
        simp only [Option.some.injEq] at h
        split at h
        · simp at h
        · rename_i r3 h3
          simp only [Except.ok.injEq] at h
          obtain ⟨r3, prog3⟩ := r3
          simp only at h
          subst h
          obtain ⟨_, p3, m3⟩ := printReport_perm h3
          refine ⟨?_, m3⟩
          have hl2 : addrs.length = prog2.length := by
            rw [hl, p2.length_eq, w1.length_eq]
          exact ((within_of_perm p3).trans (leftOf_within dec (fun a => (dictGet s.program a).getD []) addrs prog2 hl2)).trans
            ((within_of_perm p2).trans w1)

end Verif
