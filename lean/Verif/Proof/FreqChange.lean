import Verif.Model.FreqChange
import Verif.Proof.Basic

/-! # C97: trying to make frequent parts more frequent -/

namespace Verif
namespace Spec

/-- What happened to one instruction with a part: the parts that were tried instead and
whether the last of them was accepted. -/
structure Trial where
  part : Int
  inst : CInst
  tried : List Int
  accepted : Bool

/-- A trial turns the calls `before` into the calls `after`: it goes down the list of
parts `sorted` from its end, as far as the position after the number of the part, asks
whether the changed instruction is good, and stops at the first one accepted. -/
structure Trial.Made (qos : List QosCall → Bool) (changed : CInst → Int → Int → Nat) (sorted : List Int)
    (before : List QosCall) (t : Trial) (after : List QosCall) : Prop where
  order : t.tried <+: (sorted.drop (t.part.toNat + 1)).reverse
  calls : after = before ++ t.tried.map fun q => (changed t.inst t.part q, t.inst.address)
  stop : ∀ k < t.tried.length,
    (qos (before ++ (t.tried.take (k + 1)).map fun q => (changed t.inst t.part q, t.inst.address)) = true ↔
      t.accepted = true ∧ k + 1 = t.tried.length)
  all : t.accepted = false → t.tried = (sorted.drop (t.part.toNat + 1)).reverse
  some : t.accepted = true → t.tried ≠ []

/-- Several trials one after the other. -/
inductive MadeAll (qos : List QosCall → Bool) (changed : CInst → Int → Int → Nat) (sorted : List Int) :
    List QosCall → List Trial → List QosCall → Prop
  | done (calls : List QosCall) : MadeAll qos changed sorted calls [] calls
  | next {before mid after : List QosCall} {t : Trial} {ts : List Trial} :
      t.Made qos changed sorted before mid → MadeAll qos changed sorted mid ts after →
        MadeAll qos changed sorted before (t :: ts) after

/-- The trials for a part that were accepted. -/
def acceptedFor (ts : List Trial) (part : Int) : Nat :=
  ts.countP fun t => t.accepted && decide (t.part = part)

end Spec
open Spec

theorem madeAll_append {qos : List QosCall → Bool} {changed : CInst → Int → Int → Nat} {sorted : List Int} :
    ∀ {a b c : List QosCall} {ts us : List Trial}, MadeAll qos changed sorted a ts b →
      MadeAll qos changed sorted b us c → MadeAll qos changed sorted a (ts ++ us) c := by
  intro a b c ts us h1 h2
  induction h1 with
  | done _ => exact h2
  | next hm _ ih => exact .next hm (ih h2)

/-- The dictionary with a part counted down. -/
def countDown (freq : List (Int × Int)) (part : Int) : List (Int × Int) :=
  match dictGet freq part with
  | some f => dictSet freq part (f - 1)
  | none => freq

theorem dictGet_countDown (freq : List (Int × Int)) (part k : Int) :
    dictGet (countDown freq part) k = (dictGet freq k).map fun f => f - if part = k then 1 else 0 := by
  unfold countDown
  cases h : dictGet freq part with
  | none =>
    simp only
    by_cases hk : part = k
    · subst hk; rw [h]; rfl
    · simp [hk]
  | some f =>
    simp only
    rw [dictGet_dictSet]
    by_cases hk : part = k
    · subst hk; rw [h]; simp
    · simp [hk]

theorem keys_countDown (freq : List (Int × Int)) (part : Int) :
    (countDown freq part).map (·.1) = freq.map (·.1) := by
  unfold countDown
  cases h : dictGet freq part with
  | none => rfl
  | some f =>
    simp only
    rw [keys_dictSet, if_pos ((dictGet_isSome freq part).1 (by rw [h]; rfl))]

section
variable {qos : List QosCall → Bool} {changer : CInst → Int → Int → Py (Nat × Bool)}
  {changed : CInst → Int → Int → Nat}

theorem changeAll_once (hc : ∀ i p q, changer i p q = .ok (changed i p q, false)) (inst : CInst) (part q : Int)
    (fuel : Nat) (s : ChangeState) :
    changeAll qos changer inst part q (fuel + 1) false s =
      some (.ok (qos (s.calls ++ [(changed inst part q, inst.address)]),
        ⟨if qos (s.calls ++ [(changed inst part q, inst.address)]) then countDown s.freq part else s.freq,
         s.calls ++ [(changed inst part q, inst.address)]⟩)) := by
  unfold changeAll
  rw [hc]
  simp only [Bool.false_or, countDown, Bool.false_eq_true, if_false]
  rfl

theorem changeDown_made (hc : ∀ i p q, changer i p q = .ok (changed i p q, false)) (fuel : Nat) (sorted : List Int)
    (inst : CInst) (part : Int) (hp : 0 ≤ part) : ∀ (n : Nat) (s : ChangeState),
    n ≤ (sorted.drop (part.toNat + 1)).length →
    ∃ tried accepted s', changeDown qos changer (fuel + 1) sorted inst part n s = some (.ok s') ∧
      tried <+: ((sorted.drop (part.toNat + 1)).take n).reverse ∧
      s'.calls = s.calls ++ tried.map (fun q => (changed inst part q, inst.address)) ∧
      s'.freq = (if accepted then countDown s.freq part else s.freq) ∧
      (∀ k < tried.length,
        (qos (s.calls ++ (tried.take (k + 1)).map fun q => (changed inst part q, inst.address)) = true ↔
          accepted = true ∧ k + 1 = tried.length)) ∧
      (accepted = false → tried = ((sorted.drop (part.toNat + 1)).take n).reverse) ∧
      (accepted = true → tried ≠ []) := by
  intro n
  induction n with
  | zero =>
    intro s _
    exact ⟨[], false, s, rfl, by simp, by simp, by simp, by simp, by simp, by simp⟩
  | succ n ih =>
    intro s hn
    have hlt : part.toNat + 1 + n < sorted.length := by
      rw [List.length_drop] at hn; omega
    have hget : pyGet sorted (part + (n + 1)) = .ok sorted[part.toNat + 1 + n] := by
      unfold pyGet
      have h1 : ¬ (part + (n + 1) < 0) := by omega
      have h2 : (part + (n + 1)).toNat = part.toNat + 1 + n := by omega
      simp only [if_neg h1, h2, List.getElem?_eq_getElem hlt]
    have hcand : ((sorted.drop (part.toNat + 1)).take (n + 1)).reverse =
        sorted[part.toNat + 1 + n] :: ((sorted.drop (part.toNat + 1)).take n).reverse := by
      rw [List.take_add_one]
      have : (sorted.drop (part.toNat + 1))[n]? = some sorted[part.toNat + 1 + n] := by
        rw [List.getElem?_drop, List.getElem?_eq_getElem hlt]
      rw [this]
      simp
    unfold changeDown
    rw [hget]
    simp only
    rw [changeAll_once hc]
    generalize hq : sorted[part.toNat + 1 + n] = q at *
    by_cases hans : qos (s.calls ++ [(changed inst part q, inst.address)]) = true
    · simp only [hans, if_true]
      refine ⟨[q], true, _, rfl, ?_, by simp, by simp, ?_, by simp, by simp⟩
      · rw [hcand]; exact ⟨_, rfl⟩
      · intro k hk
        have : k = 0 := by simpa using hk
        subst this
        simpa using hans
    · have hans' : qos (s.calls ++ [(changed inst part q, inst.address)]) = false := by simpa using hans
      simp only [hans', Bool.false_eq_true, if_false]
      obtain ⟨tried, accepted, s', h1, h2, h3, h4, h5, h6, h7⟩ := ih
        ⟨s.freq, s.calls ++ [(changed inst part q, inst.address)]⟩ (by omega)
      refine ⟨q :: tried, accepted, s', h1, ?_, ?_, h4, ?_, ?_, by simp⟩
      · rw [hcand]
        exact List.prefix_cons_inj q |>.2 h2
      · rw [h3]; simp
      · intro k hk
        cases k with
        | zero =>
          simp only [Nat.zero_add, List.take_succ_cons, List.take_zero, List.map_cons, List.map_nil, hans',
            Bool.false_eq_true, List.length_cons, false_iff]
          rintro ⟨ha, hl⟩
          exact h7 ha (List.eq_nil_of_length_eq_zero (by omega))
        | succ k =>
          have := h5 k (by simpa using hk)
          simp only [List.append_assoc, List.cons_append, List.nil_append] at this
          simp only [List.take_succ_cons, List.map_cons, List.length_cons]
          rw [this]
          constructor
          · rintro ⟨a, b⟩; exact ⟨a, by omega⟩
          · rintro ⟨a, b⟩; exact ⟨a, by omega⟩
      · intro ha
        rw [hcand, h6 ha]

theorem changeInsts_made (hc : ∀ i p q, changer i p q = .ok (changed i p q, false)) (fuel : Nat) (sorted : List Int)
    (part : Int) (hp : 0 ≤ part) : ∀ (insts : List CInst) (s : ChangeState),
    ∃ ts s', changeInsts qos changer (fuel + 1) sorted part insts s = some (.ok s') ∧
      MadeAll qos changed sorted s.calls ts s'.calls ∧
      ts.map (fun t => (t.part, t.inst)) = insts.map (fun i => (part, i)) ∧
      s'.freq.map (·.1) = s.freq.map (·.1) ∧
      ∀ k, dictGet s'.freq k = (dictGet s.freq k).map fun f => f - (acceptedFor ts k : Int) := by
  intro insts
  induction insts with
  | nil =>
    intro s
    exact ⟨[], s, rfl, .done _, rfl, rfl, fun k => by simp [acceptedFor]⟩
  | cons i insts ih =>
    intro s
    have hn : ((sorted.length : Int) - 1 - part).toNat = (sorted.drop (part.toNat + 1)).length := by
      rw [List.length_drop]; omega
    obtain ⟨tried, accepted, s1, h1, h2, h3, h4, h5, h6, h7⟩ := changeDown_made hc fuel sorted i part hp
      ((sorted.length : Int) - 1 - part).toNat s (by omega)
    rw [hn, List.take_length] at h2 h6
    obtain ⟨ts, s2, g1, g2, g3, g4, g5⟩ := ih s1
    refine ⟨⟨part, i, tried, accepted⟩ :: ts, s2, ?_, ?_, ?_, ?_, ?_⟩
    · unfold changeInsts
      rw [h1]
      exact g1
    · exact .next ⟨h2, h3, h5, h6, h7⟩ g2
    · simp [g3]
    · rw [g4, h4]
      split
      · exact keys_countDown _ _
      · rfl
    · intro k
      rw [g5, h4]
      unfold acceptedFor
      rw [List.countP_cons]
      cases accepted with
      | true =>
        simp only [if_true, dictGet_countDown, Option.map_map, Bool.true_and, decide_eq_true_eq]
        congr 1
        funext f
        simp only [Function.comp]
        split <;> simp <;> omega
      | false => simp

theorem changeEach_made (hc : ∀ i p q, changer i p q = .ok (changed i p q, false)) (fuel : Nat) (sorted : List Int)
    (withPart : List (Int × List CInst)) : ∀ (parts : List Int) (s : ChangeState),
    (∀ p ∈ parts, 0 ≤ p ∧ p ∈ withPart.map (·.1)) →
    ∃ ts s', changeEach qos changer (fuel + 1) sorted withPart parts s = some (.ok s') ∧
      MadeAll qos changed sorted s.calls ts s'.calls ∧
      ts.map (fun t => (t.part, t.inst)) =
        parts.flatMap (fun p => ((dictGet withPart p).getD []).map fun i => (p, i)) ∧
      s'.freq.map (·.1) = s.freq.map (·.1) ∧
      ∀ k, dictGet s'.freq k = (dictGet s.freq k).map fun f => f - (acceptedFor ts k : Int) := by
  intro parts
  induction parts with
  | nil =>
    intro s _
    exact ⟨[], s, rfl, .done _, rfl, rfl, fun k => by simp [acceptedFor]⟩
  | cons p parts ih =>
    intro s hp
    obtain ⟨hp0, hpm⟩ := hp p (by simp)
    obtain ⟨insts, hi⟩ := Option.isSome_iff_exists.1 ((dictGet_isSome withPart p).2 hpm)
    obtain ⟨ts, s1, h1, h2, h3, h4, h5⟩ := changeInsts_made (qos := qos) hc fuel sorted p hp0 insts s
    obtain ⟨us, s2, g1, g2, g3, g4, g5⟩ := ih s1 fun q hq => hp q (by simp [hq])
    refine ⟨ts ++ us, s2, ?_, madeAll_append h2 g2, ?_, by rw [g4, h4], ?_⟩
    · unfold changeEach
      rw [hi]
      simp only
      rw [h1]
      exact g1
    · rw [List.map_append, h3, g3, List.flatMap_cons, hi]
      rfl
    · intro k
      rw [g5, h5, Option.map_map]
      congr 1
      funext f
      simp only [Function.comp, acceptedFor, List.countP_append]
      push_cast
      omega

end
end Verif
