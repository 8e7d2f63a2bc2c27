import Verif.Model.Basic

/-!
# Random draws

`random` is replaced by a list of raw draws.  A computation consumes draws from
the front; when it needs one and the list is empty the result is `none`: the
run has not finished.  Theorems quantify over the list of draws, that is, over
every behaviour of the generator.
-/

namespace Verif

/-- The raw draws. -/
abbrev Draws := List Nat

/-- A computation that draws random numbers and may raise. -/
def Rnd (α : Type) : Type := Draws → Option (Py (α × Draws))

namespace Rnd

/-- A value without drawing. -/
def ret {α : Type} (a : α) : Rnd α := fun ds => some (.ok (a, ds))

/-- An exception. -/
def raise {α : Type} (e : Err) : Rnd α := fun _ => some (.error e)

/-- Sequencing. -/
def seq {α β : Type} (m : Rnd α) (f : α → Rnd β) : Rnd β := fun ds =>
  match m ds with
  | none => none
  | some (.error e) => some (.error e)
  | some (.ok (a, ds')) => f a ds'

instance : Monad Rnd where
  pure := ret
  bind := seq

/-- A computation that does not draw. -/
def lift {α : Type} (m : Py α) : Rnd α := fun ds => some (m.map fun a => (a, ds))

end Rnd

/-- `random.randint(lo, hi)`: a raw draw brought into the range; `ValueError`
for an empty range.  Every value of the range is reached by some draw. -/
def randint (lo hi : Nat) : Rnd Nat := fun ds =>
  if hi < lo then some (.error .value)
  else match ds with
    | [] => none
    | d :: ds => some (.ok (lo + d % (hi - lo + 1), ds))

end Verif
