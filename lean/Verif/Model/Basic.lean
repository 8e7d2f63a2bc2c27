/-!
# Shared conventions of the model

Python exceptions are values of type `Err`; a function that may raise returns
`Py α`.  The state reached inside a function that raises is not modelled: the
callers in `/repo` never look at it.
-/

namespace Verif

/-- The exception classes that the modelled code can raise.  `addition` is
pygraph's `AdditionError`, `struct` is `struct.error`, `os` is
`FileNotFoundError`. -/
inductive Err
  | runtime | key | index | value | type | attribute | overflow | struct
  | zeroDiv | addition | os
  deriving DecidableEq, Repr

/-- A Python computation that returns a value or raises. -/
abbrev Py := Except Err

/-- Python list indexing `l[i]`, negative indexes counting from the end. -/
def pyGet {α : Type} (l : List α) (i : Int) : Py α :=
  let j := if i < 0 then i + l.length else i
  if j < 0 then .error .index
  else match l[j.toNat]? with
    | some x => .ok x
    | none => .error .index

/-- Python item assignment `l[i] = x`, negative indexes counting from the end. -/
def pySet {α : Type} (l : List α) (i : Int) (x : α) : Py (List α) :=
  let j := if i < 0 then i + l.length else i
  if j < 0 ∨ (l.length : Int) ≤ j then .error .index
  else .ok (l.set j.toNat x)

/-- Python `l.pop(0)`: the remaining list. -/
def pyPop0 {α : Type} : List α → Py (List α)
  | [] => .error .index
  | _ :: t => .ok t

/-- A Python `while` loop given `fuel` tests of its condition.  `none` means
that the loop is still running; otherwise the final state or the exception. -/
def whileLoop {σ : Type} (cond : σ → Bool) (body : σ → Py σ) : Nat → σ → Option (Py σ)
  | 0, _ => none
  | fuel + 1, s =>
      if cond s then
        match body s with
        | .error e => some (.error e)
        | .ok s' => whileLoop cond body fuel s'
      else some (.ok s)

/-- `for x in range(a, b): s = f(s, x)`. -/
def forRange {σ : Type} (a b : Nat) (f : σ → Nat → σ) (s : σ) : σ :=
  (List.range' a (b - a)).foldl f s

/-- Looking a key up in a `dict` kept as an association list. -/
def dictGet {α β : Type} [DecidableEq α] (d : List (α × β)) (k : α) : Option β :=
  (d.find? fun p => p.1 = k).map (·.2)

/-- `d[k] = v`: an existing key keeps its place, a new one goes to the end. -/
def dictSet {α β : Type} [DecidableEq α] (d : List (α × β)) (k : α) (v : β) : List (α × β) :=
  match d with
  | [] => [(k, v)]
  | p :: t => if p.1 = k then (k, v) :: t else p :: dictSet t k v

end Verif
