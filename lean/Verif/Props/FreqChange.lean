import Verif.Proof.FreqChange

/-!
# C97: what trying to make frequent parts more frequent does

The code calls a changer for an instruction, a part and a new part, and a
quality-of-service function for the result.
-/

namespace Verif
open Spec

theorem freqSorted_perm (freq : List (Int × Int)) : (freqSorted freq).Perm (freq.map (·.1)) :=
  List.perm_insertionSort _ _

theorem freqSorted_sorted (freq : List (Int × Int)) :
    (freqSorted freq).Pairwise fun a b => (dictGet freq a).getD 0 ≤ (dictGet freq b).getD 0 := by
  have : Std.Total fun a b : Int => (dictGet freq a).getD 0 ≤ (dictGet freq b).getD 0 := ⟨fun a b => le_total _ _⟩
  have : IsTrans Int fun a b => (dictGet freq a).getD 0 ≤ (dictGet freq b).getD 0 :=
    ⟨fun a b c h1 h2 => le_trans h1 h2⟩
  exact List.pairwise_insertionSort _ _

/-- **C97.**  With a changer that never says there is more to change, and a table whose
parts are not negative and all have their instructions listed, the procedure returns.
The parts are visited from the least frequent to the most frequent, each with its
instructions in order.  Each instruction makes one trial: the new parts are tried from
the most frequent down to the position after the number of the part, until one is
accepted.  The table keeps its parts, and the count of a part drops by the number of its
instructions that were accepted. -/
theorem C97_trials_partial {qos : List QosCall → Bool} {changer : CInst → Int → Int → Py (Nat × Bool)}
    {changed : CInst → Int → Int → Nat} (hc : ∀ i p q, changer i p q = .ok (changed i p q, false))
    (withPart : List (Int × List CInst)) (freq : List (Int × Int))
    (hp : ∀ p ∈ freq.map (·.1), 0 ≤ p ∧ p ∈ withPart.map (·.1)) (fuel : Nat) (hf : 0 < fuel) :
    ∃ (sorted : List Int) (ts : List Trial) (s : ChangeState),
      changeParts qos changer fuel withPart freq = some (.ok s) ∧
      sorted.Perm (freq.map (·.1)) ∧
      sorted.Pairwise (fun a b => (dictGet freq a).getD 0 ≤ (dictGet freq b).getD 0) ∧
      ts.map (fun t => (t.part, t.inst)) =
        sorted.flatMap (fun p => ((dictGet withPart p).getD []).map fun i => (p, i)) ∧
      MadeAll qos changed sorted [] ts s.calls ∧
      s.freq.map (·.1) = freq.map (·.1) ∧
      ∀ k, dictGet s.freq k = (dictGet freq k).map fun f => f - (acceptedFor ts k : Int) := by
  obtain ⟨fuel, rfl⟩ : ∃ m, fuel = m + 1 := ⟨fuel - 1, by omega⟩
  obtain ⟨ts, s, h1, h2, h3, h4, h5⟩ := changeEach_made (qos := qos) hc fuel (freqSorted freq) withPart
    (freqSorted freq) ⟨freq, []⟩ fun p h => hp p ((freqSorted_perm freq).mem_iff.1 h)
  exact ⟨freqSorted freq, ts, s, h1, freqSorted_perm freq, freqSorted_sorted freq, h3, h2, h4, h5⟩

theorem sum_of_gets : ∀ (a b : List (Int × Int)) (d : Int → Nat), (a.map (·.1)).Nodup →
    b.map (·.1) = a.map (·.1) → (∀ k, dictGet b k = (dictGet a k).map fun f => f - (d k : Int)) →
    (b.map (·.2)).sum = (a.map (·.2)).sum - ((a.map fun e => (d e.1 : Int)).sum) := by
  intro a b d hn hk hg
  have key : b = a.map fun e => (e.1, e.2 - (d e.1 : Int)) := by
    have hlen : b.length = a.length := by simpa using congrArg List.length hk
    apply List.ext_getElem
    · simpa using hlen
    · intro i h1 h2
      have hia : i < a.length := by omega
      have hkey : b[i].1 = a[i].1 := by
        have h := congrArg (fun l : List Int => l[i]?) hk
        simpa [h1, hia] using h
      have hb : dictGet b b[i].1 = some b[i].2 :=
        dictGet_of_mem (by rw [hk]; exact hn) (List.getElem_mem h1)
      have ha : dictGet a a[i].1 = some a[i].2 := dictGet_of_mem hn (List.getElem_mem hia)
      rw [hkey, hg, ha] at hb
      simp only [Option.map_some, Option.some.injEq] at hb
      rw [List.getElem_map]
      exact Prod.ext hkey hb.symm
  rw [key, List.map_map]
  clear key hg hk hn b
  induction a with
  | nil => rfl
  | cons e a ih =>
    simp only [List.map_cons, List.sum_cons, Function.comp] at ih ⊢
    rw [ih]
    omega

theorem sum_acceptedFor : ∀ (keys : List Int) (ts : List Trial), keys.Nodup → (∀ t ∈ ts, t.part ∈ keys) →
    (keys.map fun k => (acceptedFor ts k : Int)).sum = (ts.countP (·.accepted) : Int) := by
  intro keys ts hn
  induction ts with
  | nil => intro _; simp [acceptedFor]
  | cons t ts ih =>
    intro h
    have ih := ih fun t' ht' => h t' (by simp [ht'])
    have hstep : ∀ k, (acceptedFor (t :: ts) k : Int) =
        (acceptedFor ts k : Int) + if t.part = k then (if t.accepted then 1 else 0) else 0 := by
      intro k
      unfold acceptedFor
      rw [List.countP_cons]
      cases t.accepted <;> by_cases hk : t.part = k <;> simp [hk]
    have hone : ∀ (ks : List Int) (v : Int), ks.Nodup → t.part ∈ ks →
        (ks.map fun k => if t.part = k then v else 0).sum = v := by
      intro ks v
      induction ks with
      | nil => simp
      | cons k ks ihk =>
        intro hn hm
        rw [List.nodup_cons] at hn
        rw [List.map_cons, List.sum_cons]
        by_cases hk : t.part = k
        · have hz : (ks.map fun k => if t.part = k then v else 0) = ks.map fun _ => 0 := by
            apply List.map_congr_left
            intro k' hk'
            have : t.part ≠ k' := by rintro rfl; exact hn.1 (hk ▸ hk')
            simp [this]
          rw [hz]
          simp [hk]
        · rw [if_neg hk, ihk hn.2 (by simpa [hk] using hm), Int.zero_add]
    have hsum : ∀ ks : List Int, (ks.map fun k => (acceptedFor (t :: ts) k : Int)).sum =
        (ks.map fun k => (acceptedFor ts k : Int)).sum +
          (ks.map fun k => if t.part = k then (if t.accepted then (1 : Int) else 0) else 0).sum := by
      intro ks
      induction ks with
      | nil => rfl
      | cons k ks ihk =>
        simp only [List.map_cons, List.sum_cons]
        rw [hstep, ihk]
        omega
    rw [hsum, ih, hone keys _ hn (h t (by simp)), List.countP_cons]
    cases t.accepted <;> simp

/-- **C97.**  Replacing a part by another one keeps the number of parts of the program,
yet the total of the table drops by one at every accepted trial: the table is no longer
the frequency of anything after the first one. -/
theorem C97_total_refuted {qos : List QosCall → Bool} {changer : CInst → Int → Int → Py (Nat × Bool)}
    {changed : CInst → Int → Int → Nat} (hc : ∀ i p q, changer i p q = .ok (changed i p q, false))
    (withPart : List (Int × List CInst)) (freq : List (Int × Int)) (hn : (freq.map (·.1)).Nodup)
    (hp : ∀ p ∈ freq.map (·.1), 0 ≤ p ∧ p ∈ withPart.map (·.1)) (fuel : Nat) (hf : 0 < fuel) :
    ∃ (sorted : List Int) (ts : List Trial) (s : ChangeState),
      changeParts qos changer fuel withPart freq = some (.ok s) ∧
      sorted.Perm (freq.map (·.1)) ∧
      ts.map (fun t => (t.part, t.inst)) =
        sorted.flatMap (fun p => ((dictGet withPart p).getD []).map fun i => (p, i)) ∧
      MadeAll qos changed sorted [] ts s.calls ∧
      (s.freq.map (·.2)).sum = (freq.map (·.2)).sum - (ts.countP (·.accepted) : Int) := by
  obtain ⟨sorted, ts, s, h1, hperm, _, hts, h2, hk, hg⟩ :=
    C97_trials_partial (qos := qos) hc withPart freq hp fuel hf
  refine ⟨sorted, ts, s, h1, hperm, hts, h2, ?_⟩
  rw [sum_of_gets freq s.freq (fun k => acceptedFor ts k) hn hk hg,
    ← sum_acceptedFor (freq.map (·.1)) ts hn, List.map_map]
  · rfl
  · intro t ht
    have : (t.part, t.inst) ∈ ts.map fun t => (t.part, t.inst) := List.mem_map_of_mem ht
    rw [hts] at this
    obtain ⟨p, hpm, hq⟩ := List.mem_flatMap.1 this
    obtain ⟨i, _, hi⟩ := List.mem_map.1 hq
    have : p = t.part := congrArg Prod.fst hi
    exact this ▸ hperm.mem_iff.1 hpm

/-- **C97.**  A part whose number is at least the number of parts less one is never
tried: the position in the list of parts is compared with the number of the part. -/
theorem C97_large_untried {qos : List QosCall → Bool} {changed : CInst → Int → Int → Nat} {sorted : List Int}
    {before after : List QosCall} {t : Trial} (h : t.Made qos changed sorted before after)
    (hl : (sorted.length : Int) - 1 ≤ t.part) : t.tried = [] ∧ t.accepted = false ∧ after = before := by
  have hd : sorted.drop (t.part.toNat + 1) = [] := List.drop_eq_nil_of_le (by omega)
  have ht : t.tried = [] := by
    have := h.order
    rw [hd] at this
    simpa using this
  refine ⟨ht, ?_, ?_⟩
  · cases ha : t.accepted with
    | false => rfl
    | true => exact absurd ht (h.some ha)
  · rw [h.calls, ht]; simp

theorem changeAll_more {qos : List QosCall → Bool} {changer : CInst → Int → Int → Py (Nat × Bool)} {inst : CInst}
    {part q : Int} {enc : Nat} (h : changer inst part q = .ok (enc, true)) :
    ∀ (fuel : Nat) (b : Bool) (s : ChangeState), changeAll qos changer inst part q fuel b s = none := by
  intro fuel
  induction fuel with
  | zero => intro b s; rfl
  | succ fuel ih =>
    intro b s
    unfold changeAll
    rw [h]
    exact ih _ _

/-- **C97 is false in general**, because the procedure need not return.  The changer is
always given the original instruction; if it says that there is more to change for the
first instruction of the least frequent part, no number of steps is enough. -/
theorem C97_more_refuted {qos : List QosCall → Bool} {changer : CInst → Int → Int → Py (Nat × Bool)}
    {withPart : List (Int × List CInst)} {freq : List (Int × Int)} {part q : Int} {inst : CInst}
    {rest : List CInst} {enc : Nat} (h0 : 0 ≤ part) (hl : part + 1 < (freqSorted freq).length)
    (hfirst : (freqSorted freq).head? = some part) (hlast : (freqSorted freq).getLast? = some q)
    (hw : dictGet withPart part = some (inst :: rest)) (hmore : changer inst part q = .ok (enc, true)) :
    ∀ fuel, changeParts qos changer fuel withPart freq = none := by
  intro fuel
  unfold changeParts
  obtain ⟨l, hl'⟩ : ∃ l, freqSorted freq = part :: l := by
    cases hs : freqSorted freq with
    | nil => rw [hs] at hfirst; simp at hfirst
    | cons a l => rw [hs] at hfirst; simp at hfirst; exact ⟨l, by rw [hfirst]⟩
  rw [show changeEach qos changer fuel (freqSorted freq) withPart (freqSorted freq) { freq := freq } =
    changeEach qos changer fuel (freqSorted freq) withPart (part :: l) { freq := freq } by rw [← hl']]
  unfold changeEach
  rw [hw]
  simp only
  unfold changeInsts
  obtain ⟨m, hm⟩ : ∃ m, (((freqSorted freq).length : Int) - 1 - part).toNat = m + 1 :=
    ⟨(((freqSorted freq).length : Int) - 1 - part).toNat - 1, by omega⟩
  rw [hm]
  unfold changeDown
  have hg : pyGet (freqSorted freq) (part + (m + 1)) = .ok q := by
    have he : part + ((m : Int) + 1) = (((freqSorted freq).length - 1 : Nat) : Int) := by omega
    have hlt : (freqSorted freq).length - 1 < (freqSorted freq).length := by omega
    rw [he, pyGet_nat _ _ hlt]
    rw [List.getLast?_eq_getElem?, List.getElem?_eq_getElem hlt] at hlast
    rw [Option.some.inj hlast]
  rw [hg]
  simp only
  rw [changeAll_more hmore]

/-! ## The only changer there is -/

/-- Some part has an instruction to try a new part in. -/
def Spec.SomeTrial (withPart : List (Int × List CInst)) (freq : List (Int × Int)) : Prop :=
  ∃ part ∈ freq.map (·.1), part + 1 < (freq.length : Int) ∧ ∃ insts, dictGet withPart part = some insts ∧ insts ≠ []

section
variable {qos : List QosCall → Bool}

theorem changeAll_attribute (inst : CInst) (part q : Int) (fuel : Nat) (b : Bool) (s : ChangeState) :
    changeAll qos (fun i r r' => modifyRegister i.encoding r.toNat r'.toNat) inst part q (fuel + 1) b s =
      some (.error .attribute) := by
  unfold changeAll modifyRegister
  rfl

theorem changeInsts_attribute (fuel : Nat) (sorted : List Int) (part : Int) (hp : 0 ≤ part) (insts : List CInst)
    (s : ChangeState) :
    changeInsts qos (fun i r r' => modifyRegister i.encoding r.toNat r'.toNat) (fuel + 1) sorted part insts s =
      if part + 1 < (sorted.length : Int) ∧ insts ≠ [] then some (.error .attribute) else some (.ok s) := by
  induction insts with
  | nil => simp [changeInsts]
  | cons i insts ih =>
    unfold changeInsts
    by_cases hl : part + 1 < (sorted.length : Int)
    · rw [if_pos ⟨hl, by simp⟩]
      obtain ⟨m, hm⟩ : ∃ m, ((sorted.length : Int) - 1 - part).toNat = m + 1 :=
        ⟨((sorted.length : Int) - 1 - part).toNat - 1, by omega⟩
      rw [hm]
      unfold changeDown
      have he : part + ((m : Int) + 1) = ((sorted.length - 1 : Nat) : Int) := by omega
      rw [he, pyGet_nat _ _ (by omega)]
      simp only
      rw [changeAll_attribute]
    · have hz : ((sorted.length : Int) - 1 - part).toNat = 0 := by omega
      rw [hz]
      simp only [changeDown]
      rw [ih, if_neg (by tauto), if_neg (by tauto)]

theorem changeEach_attribute (fuel : Nat) (sorted : List Int) (withPart : List (Int × List CInst)) :
    ∀ (parts : List Int) (s : ChangeState), (∀ p ∈ parts, 0 ≤ p ∧ p ∈ withPart.map (·.1)) →
    (changeEach qos (fun i r r' => modifyRegister i.encoding r.toNat r'.toNat) (fuel + 1) sorted withPart parts s =
        some (.error .attribute) ∧
      ∃ p ∈ parts, p + 1 < (sorted.length : Int) ∧ ∃ insts, dictGet withPart p = some insts ∧ insts ≠ []) ∨
    (changeEach qos (fun i r r' => modifyRegister i.encoding r.toNat r'.toNat) (fuel + 1) sorted withPart parts s =
        some (.ok s) ∧
      ¬ ∃ p ∈ parts, p + 1 < (sorted.length : Int) ∧ ∃ insts, dictGet withPart p = some insts ∧ insts ≠ []) := by
  intro parts
  induction parts with
  | nil => intro s _; right; simp [changeEach]
  | cons p parts ih =>
    intro s hp
    obtain ⟨hp0, hpm⟩ := hp p (by simp)
    obtain ⟨insts, hi⟩ := Option.isSome_iff_exists.1 ((dictGet_isSome withPart p).2 hpm)
    unfold changeEach
    rw [hi]
    simp only
    rw [changeInsts_attribute fuel sorted p hp0]
    by_cases hc : p + 1 < (sorted.length : Int) ∧ insts ≠ []
    · rw [if_pos hc]
      exact .inl ⟨rfl, p, by simp, hc.1, insts, hi, hc.2⟩
    · rw [if_neg hc]
      rcases ih s fun q hq => hp q (by simp [hq]) with ⟨h1, q, hq, h2⟩ | ⟨h1, h2⟩
      · exact .inl ⟨h1, q, by simp [hq], h2⟩
      · refine .inr ⟨h1, ?_⟩
        rintro ⟨q, hq, hlt, is, his, hne⟩
        rcases List.mem_cons.1 hq with rfl | hq
        · rw [hi] at his
          exact hc ⟨hlt, by rw [Option.some.inj his]; exact hne⟩
        · exact h2 ⟨q, hq, hlt, is, his, hne⟩

end

/-- **C97 is false for registers.**  Changing the registers of a program raises an
`AttributeError` before anything is changed as soon as there is one register to try,
and otherwise leaves the table as it was and asks nothing: in no case is a register
changed. -/
theorem C97_registers_refuted (qos : List QosCall → Bool) (withPart : List (Int × List CInst))
    (freq : List (Int × Int)) (hp : ∀ p ∈ freq.map (·.1), 0 ≤ p ∧ p ∈ withPart.map (·.1)) (fuel : Nat)
    (hf : 0 < fuel) :
    (SomeTrial withPart freq → changeRegisters qos fuel withPart freq = some (.error .attribute)) ∧
    (¬ SomeTrial withPart freq → changeRegisters qos fuel withPart freq = some (.ok ⟨freq, []⟩)) := by
  obtain ⟨fuel, rfl⟩ : ∃ m, fuel = m + 1 := ⟨fuel - 1, by omega⟩
  have hlen : (freqSorted freq).length = freq.length := by
    simpa using (freqSorted_perm freq).length_eq
  have hiff : (∃ p ∈ freqSorted freq, p + 1 < ((freqSorted freq).length : Int) ∧
      ∃ insts, dictGet withPart p = some insts ∧ insts ≠ []) ↔ SomeTrial withPart freq := by
    unfold SomeTrial
    rw [hlen]
    constructor
    · rintro ⟨p, hp, h⟩; exact ⟨p, (freqSorted_perm freq).mem_iff.1 hp, h⟩
    · rintro ⟨p, hp, h⟩; exact ⟨p, (freqSorted_perm freq).mem_iff.2 hp, h⟩
  have key := changeEach_attribute (qos := qos) fuel (freqSorted freq) withPart (freqSorted freq)
    { freq := freq } fun p h => hp p ((freqSorted_perm freq).mem_iff.1 h)
  rw [hiff] at key
  rcases key with ⟨h, hs⟩ | ⟨h, hs⟩
  · exact ⟨fun _ => h, fun hn => absurd hs hn⟩
  · exact ⟨fun hy => absurd hy hs, fun _ => h⟩

/-! ## A concrete case

Three parts 0, 1 and 2, with frequencies 5, 1 and 2.  From the least frequent they are
1, 2, 0.  Part 1 is tried with part 0 only.  Part 2 is not tried, though part 0 is more
frequent.  Part 0, the most frequent of all, is tried with part 0 itself and with the less
frequent part 2. -/

private def cInst : CInst := ⟨0xE1A00000, 0x40⟩
private def cChanged : CInst → Int → Int → Nat := fun i p q => i.encoding + 16 * p.toNat + q.toNat
private def cWith : List (Int × List CInst) := [(0, [cInst]), (1, [cInst]), (2, [cInst])]
private def cFreq : List (Int × Int) := [(0, 5), (1, 1), (2, 2)]

example : freqSorted cFreq = [1, 2, 0] := by decide +kernel

/-- With answers that are always negative. -/
theorem C97_case_rejected : changeParts (fun _ => false) (fun i p q => .ok (cChanged i p q, false)) 1 cWith cFreq =
    some (.ok ⟨cFreq, [(0xE1A00010, 0x40), (0xE1A00000, 0x40), (0xE1A00002, 0x40)]⟩) := by
  decide +kernel

/-- With answers that are always positive: part 0 is replaced by itself and counted
down. -/
theorem C97_case_accepted : changeParts (fun _ => true) (fun i p q => .ok (cChanged i p q, false)) 1 cWith cFreq =
    some (.ok ⟨[(0, 4), (1, 0), (2, 2)], [(0xE1A00010, 0x40), (0xE1A00000, 0x40)]⟩) := by
  decide +kernel

example : ∀ p ∈ cFreq.map (·.1), 0 ≤ p ∧ p ∈ cWith.map (·.1) := by decide +kernel
example : SomeTrial cWith cFreq := ⟨0, by decide +kernel, by decide +kernel, [cInst], by decide +kernel, by simp⟩
example : ¬ SomeTrial [(14, [cInst])] [(14, 3)] := by
  rintro ⟨p, hp, hlt, _⟩
  simp at hp
  subst hp
  simp at hlt

/-- The changer that says there is more for every instruction never ends. -/
example : ∀ fuel, changeParts (fun _ => true) (fun i p q => .ok (cChanged i p q, true)) fuel cWith cFreq = none :=
  C97_more_refuted (part := 1) (q := 0) (inst := cInst) (rest := []) (enc := 0xE1A00010) (by decide)
    (by decide +kernel) (by decide +kernel) (by decide +kernel) (by decide +kernel) (by decide +kernel)

end Verif
