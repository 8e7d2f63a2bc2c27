import Verif.Model.Cfg

/-!
# Specification: what the edges of a control flow graph stand for
-/

namespace Verif.Spec

/-- A sequence of instructions and what is known of them. -/
structure Line where
  line : List Nat
  cond : Nat → Nat
  branch : Nat → Bool
  link : Nat → Bool
  target : Nat → Option Nat

/-- An instruction opens a group unless it comes right after one with the same
condition that is no branch or opens a group itself.  The earlier instructions are
given last first. -/
def Opens (cond : Nat → Nat) (branch : Nat → Bool) : List Nat → Nat → Bool
  | [], _ => true
  | j :: d, k => cond j != cond k || (branch j && !Opens cond branch d j)

/-- After the instructions `d`, the instruction `k` opens a group. -/
def Line.opens (L : Line) (d : List Nat) (k : Nat) : Bool := Opens L.cond L.branch d.reverse k

/-- `k` opens the group after the one that `s` opens. -/
def Line.NextGroup (L : Line) (s k : Nat) : Prop :=
  ∃ d m r, L.line = d ++ s :: (m ++ k :: r) ∧
    (∀ m1 x m2, m = m1 ++ x :: m2 → L.opens (d ++ s :: m1) x = false) ∧ L.opens (d ++ s :: m) k = true

/-- From `i` to `j` there are, after `i`, only instructions with the condition of `i`
that are no branches. -/
def Line.Run (L : Line) (i j : Nat) : Prop :=
  ∃ d m r, L.line = d ++ i :: (m ++ r) ∧ (i :: m).getLast? = some j ∧
    ∀ x ∈ m, L.branch x = false ∧ L.cond x = L.cond i

section
variable (L : Line) (kind : Nat → BlockKind) (insts : Nat → List Nat) (first : Nat → Nat)

/-- The node `v` is a block that starts with `k`, or the conditional node before `k`. -/
def Enters (v k : Nat) : Prop :=
  (kind v = .block ∧ (insts v).head? = some k) ∨ (kind v = .cond ∧ first v = k)

/-- What an edge may stand for.  For a conditional node `first` is the instruction it
guards, for an unknown node the branch it belongs to. -/
inductive EdgeMeans : Nat → Nat → Prop
  /-- The program starts. -/
  | start {u v k : Nat} {r : List Nat} : kind u = .root → L.line = k :: r → Enters kind insts first v k → EdgeMeans u v
  /-- There is no instruction at all. -/
  | empty {u v : Nat} : kind u = .root → kind v = .fin → L.line = [] → EdgeMeans u v
  /-- A branch leaves for an unknown place. -/
  | leave {u v j : Nat} : kind u = .block → kind v = .unknown → L.branch (first v) = true →
      L.target (first v) = none → (insts u).getLast? = some j → L.Run (first v) j → EdgeMeans u v
  /-- It never comes back. -/
  | away {u v : Nat} : kind u = .unknown → kind v = .fin → EdgeMeans u v
  /-- A call returns to the instruction after it. -/
  | back {u v k : Nat} {d r : List Nat} : kind u = .unknown → L.link (first u) = true →
      L.line = d ++ first u :: k :: r → Enters kind insts first v k → EdgeMeans u v
  /-- The condition holds. -/
  | holds {u v : Nat} : kind u = .cond → Enters kind insts first v (first u) → EdgeMeans u v
  /-- The condition does not hold. -/
  | fails {u v k : Nat} : kind u = .cond → L.NextGroup (first u) k → Enters kind insts first v k → EdgeMeans u v
  /-- The next instruction; after a branch only when it is of the same group. -/
  | next {u v i k : Nat} {d r : List Nat} : kind u = .block → (insts u).getLast? = some i →
      L.line = d ++ i :: k :: r → (L.branch i = true → L.opens (d ++ [i]) k = false) →
      Enters kind insts first v k → EdgeMeans u v
  /-- The instruction after the next one, which is a branch of the same group. -/
  | over {u v i b k : Nat} {d r : List Nat} : kind u = .block → (insts u).getLast? = some i →
      L.line = d ++ i :: b :: k :: r → L.branch i = false → L.branch b = true → L.link b = false →
      L.cond b = L.cond i → Enters kind insts first v k → EdgeMeans u v
  /-- A branch back, or to itself; it never leads to a conditional node. -/
  | jump {u v i j k : Nat} : kind u = .block → (insts u).getLast? = some j → L.Run i j → L.branch i = true →
      L.target i = some k → k ≤ i → kind v = .block → (insts v).head? = some k → EdgeMeans u v
  /-- The program ends. -/
  | stop {u v i : Nat} {d : List Nat} : kind u = .block → kind v = .fin → (insts u).getLast? = some i →
      L.line = d ++ [i] → EdgeMeans u v
  /-- The program ends with a branch of the same group. -/
  | stopOver {u v i b : Nat} {d : List Nat} : kind u = .block → kind v = .fin → (insts u).getLast? = some i →
      L.line = d ++ [i, b] → L.branch b = true → L.link b = false → L.cond b = L.cond i → EdgeMeans u v

end

end Verif.Spec
