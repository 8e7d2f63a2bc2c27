import Verif.Model.Recuperator

/-!
# Which candidates one pass of the recovery keeps

Said with two counts only: how many of the original instructions have a feature, and at how
many addresses some candidate has it.
-/

namespace Verif.Spec

/-- The originals with a feature. -/
def originalsWith (orig : List (Int × MInst)) (f : MInst → Bool) : Nat :=
  (orig.filter fun q => !q.2.ignore && f q.2).length

/-- The addresses where some candidate has the feature. -/
def placesWith (prog : List (Int × List Cand)) (f : MInst → Bool) : Nat :=
  (prog.filter fun q => q.2.any fun x => !x.m.ignore && f x.m).length

/-- As many originals as addresses: every address that can have the feature must have it. -/
def Forced (orig : List (Int × MInst)) (prog : List (Int × List Cand)) (f : MInst → Bool) : Prop :=
  placesWith prog f ≤ originalsWith orig f

/-- Neither a branch nor a push or a pop: its registers are compared. -/
def Ordinary (x : Cand) : Prop := x.isBranch = false ∧ x.isPush = false ∧ x.isPop = false

/-- Its condition, its opcode or all of its registers are forced. -/
def Sure (orig : List (Int × MInst)) (prog : List (Int × List Cand)) (x : Cand) : Prop :=
  Forced orig prog (fun i => i.cond = x.m.cond) ∨ Forced orig prog (fun i => i.opcode = x.m.opcode) ∨
    (Ordinary x ∧ ∀ r ∈ x.m.used, Forced orig prog fun i => r ∈ i.used)

/-- Its condition, its opcode or one of its registers does not occur in the original. -/
def SpokenAgainst (orig : List (Int × MInst)) (x : Cand) : Prop :=
  originalsWith orig (fun i => i.cond = x.m.cond) = 0 ∨ originalsWith orig (fun i => i.opcode = x.m.opcode) = 0 ∨
    (Ordinary x ∧ ∃ r ∈ x.m.used, originalsWith orig (fun i => r ∈ i.used) = 0)

/-- It scores one. -/
def Wins (orig : List (Int × MInst)) (prog : List (Int × List Cand)) (x : Cand) : Prop :=
  x.m.ignore = false ∧ ¬ SpokenAgainst orig x ∧ Sure orig prog x

/-- It scores more than zero. -/
def Scores (orig : List (Int × MInst)) (prog : List (Int × List Cand)) (x : Cand) : Prop :=
  x.m.ignore = false ∧ ¬ SpokenAgainst orig x ∧
    (Sure orig prog x ∨ x.isBranch = true ∨ (x.isPush = false ∧ x.isPop = false))

/-- It remains among the candidates `cs` of its address. -/
def LeftOver (orig : List (Int × MInst)) (prog : List (Int × List Cand)) (cs : List Cand) (x : Cand) : Prop :=
  Wins orig prog x ∨ ((∀ y ∈ cs, ¬ Wins orig prog y) ∧ Scores orig prog x)

instance (orig : List (Int × MInst)) (prog : List (Int × List Cand)) (f : MInst → Bool) : Decidable (Forced orig prog f) := by
  unfold Forced; infer_instance
instance (x : Cand) : Decidable (Ordinary x) := by unfold Ordinary; infer_instance
instance (orig : List (Int × MInst)) (prog : List (Int × List Cand)) (x : Cand) : Decidable (Sure orig prog x) := by
  unfold Sure; infer_instance
instance (orig : List (Int × MInst)) (x : Cand) : Decidable (SpokenAgainst orig x) := by
  unfold SpokenAgainst; infer_instance
instance (orig : List (Int × MInst)) (prog : List (Int × List Cand)) (x : Cand) : Decidable (Wins orig prog x) := by
  unfold Wins; infer_instance
instance (orig : List (Int × MInst)) (prog : List (Int × List Cand)) (x : Cand) : Decidable (Scores orig prog x) := by
  unfold Scores; infer_instance
instance (orig : List (Int × MInst)) (prog : List (Int × List Cand)) (cs : List Cand) (x : Cand) :
    Decidable (LeftOver orig prog cs x) := by
  unfold LeftOver; infer_instance

/-- What a pass leaves of a program. -/
def afterPass (orig : List (Int × MInst)) (prog : List (Int × List Cand)) : List (Int × List Cand) :=
  prog.map fun q => (q.1, q.2.filter fun x => decide (LeftOver orig prog q.2 x))

/-- What some passes leave of a program. -/
def afterPasses (orig : List (Int × MInst)) (prog : List (Int × List Cand)) : Nat → List (Int × List Cand)
  | 0 => prog
  | k + 1 => afterPass orig (afterPasses orig prog k)

/-- Every original is among the candidates of its address. -/
def HasOriginals (orig : List (Int × MInst)) (prog : List (Int × List Cand)) : Prop :=
  ∀ q ∈ orig, ∃ v, (q.1, v) ∈ prog ∧ ∃ x ∈ v, x.m = q.2

instance (orig : List (Int × MInst)) (prog : List (Int × List Cand)) : Decidable (HasOriginals orig prog) :=
  decidable_of_iff (∀ q ∈ orig, ∃ t ∈ prog, t.1 = q.1 ∧ ∃ x ∈ t.2, x.m = q.2) <| by
    unfold HasOriginals
    refine forall_congr' fun q => forall_congr' fun _ => ⟨?_, ?_⟩
    · rintro ⟨t, ht, e, h⟩
      exact ⟨t.2, by rw [← e]; exact ht, h⟩
    · rintro ⟨v, hv, h⟩
      exact ⟨_, hv, rfl, h⟩

/-- The same candidates at every address, perhaps in another order. -/
def SameCandidates (p q : List (Int × List Cand)) : Prop :=
  List.Forall₂ (fun a b => a.1 = b.1 ∧ a.2.Perm b.2) p q

end Verif.Spec
