import Verif.Proof.Predict

/-! # Property C15: predicting the lost bits -/

namespace Verif
open Spec

/-- C15, exact behaviour: for group sizes dividing 32 the predicted bits are,
for every bit `y` of a lost group in a round that the first listed packet still
takes part in, `y` itself when it is not the last bit of its word, and `y + 1`
when it is. No tuple is listed twice. -/
theorem C15_exact (bpi size p : Nat) (order lost : List Nat) (hd : bpi ∣ 32) (hn : order.Nodup)
    (hin : ∀ q ∈ p :: lost, q ∈ order) (fuel : Nat) (hf : 32 * size < fuel) :
    ∃ es, predictCorruption fuel order.length bpi size order (p :: lost) = some (.ok es) ∧
      es.Nodup ∧
      ∀ x, predictedBit bpi es x ↔
        ∃ y, lostBit bpi size order (p :: lost) y ∧
          bpi * (y / bpi / order.length * order.length + order.idxOf p) < 32 * size ∧
          x = if y % 32 = 31 then y + 1 else y := by
  have hp : 0 < bpi := Nat.pos_of_dvd_of_pos hd (by omega)
  have hP : 0 < order.length := by
    have := hin p (by simp)
    exact List.length_pos_of_mem this
  have hj : 0 < bpi * order.length := Nat.mul_pos hp hP
  have hr : predictRounds (bpi * order.idxOf p) (bpi * order.length) (size * 32) < fuel := by
    have : predictRounds (bpi * order.idxOf p) (bpi * order.length) (size * 32) ≤ size * 32 := by
      by_contra h
      have := (lt_predictRounds hj).1 (Nat.lt_of_not_le h)
      have := Nat.le_mul_of_pos_right (size * 32) hj
      omega
    omega
  obtain ⟨s, h1, h2, h3⟩ := predictLoop bpi (bpi * order.length) (size * 32)
    (bpi * order.idxOf p) (lost.map fun q => bpi * order.idxOf q) hj fuel hr
  refine ⟨s.errors, ?_, h2, ?_⟩
  · unfold predictCorruption
    rw [startBits_ok bpi order (p :: lost) hin]
    simp only [List.map_cons, h1]
    rfl
  · intro x
    -- the groups reported
    have hgroups : predictedBit bpi s.errors x ↔ ∃ t q, q ∈ p :: lost ∧
        bpi * (t * order.length + order.idxOf p) < 32 * size ∧
        bpi * (t * order.length + order.idxOf q) < 32 * size ∧
        predictedBit bpi (errTuples bpi (bpi * (t * order.length + order.idxOf q))) x := by
      have e : ∀ t a, bpi * a + t * (bpi * order.length) = bpi * (t * order.length + a) := by
        intro t a
        rw [Nat.mul_add, Nat.mul_left_comm, Nat.add_comm]
      constructor
      · rintro ⟨e', he, hb⟩
        rw [h3] at he
        obtain ⟨t, a, c1, c2, c3, c4⟩ := he
        have hq : ∃ q ∈ p :: lost, a = bpi * order.idxOf q := by
          rcases List.mem_cons.1 c2 with rfl | h
          · exact ⟨p, by simp, rfl⟩
          · obtain ⟨q, hq, rfl⟩ := List.mem_map.1 h
            exact ⟨q, by simp [hq], rfl⟩
        obtain ⟨q, hq, rfl⟩ := hq
        rw [e] at c1 c3 c4
        exact ⟨t, q, hq, by omega, by omega, e', c4, hb⟩
      · rintro ⟨t, q, hq, c1, c3, e', c4, hb⟩
        refine ⟨e', (h3 e').2 ⟨t, bpi * order.idxOf q, ?_, ?_, ?_, ?_⟩, hb⟩
        · rw [e]; omega
        · rcases List.mem_cons.1 hq with rfl | h
          · simp
          · exact List.mem_cons_of_mem _ (List.mem_map.2 ⟨q, h, rfl⟩)
        · rw [e]; omega
        · rw [e]; exact c4
    rw [hgroups]
    -- a group lies inside one word
    have hroom : ∀ i, bpi * i % 32 + bpi ≤ 32 := by
      intro i
      refine room_of_dvd hd ?_ (Nat.mod_lt _ (by omega))
      exact (Nat.dvd_mod_iff hd).2 (Nat.dvd_mul_right _ _)
    constructor
    · rintro ⟨t, q, hq, c1, c3, hb⟩
      have hidx := List.idxOf_lt_length_of_mem (hin q hq)
      have hmod : (t * order.length + order.idxOf q) % order.length = order.idxOf q := by
        rw [Nat.mul_comm, Nat.mul_add_mod, Nat.mod_eq_of_lt hidx]
      have hdiv : (t * order.length + order.idxOf q) / order.length = t := by
        rw [Nat.mul_comm, Nat.mul_add_div hP, Nat.div_eq_of_lt hidx, Nat.add_zero]
      have hget : order[order.idxOf q]? = some q := by
        rw [List.getElem?_eq_getElem hidx, List.getElem_idxOf]
      generalize t * order.length + order.idxOf q = i at *
      have hrm := hroom i
      rw [errTuples_bits] at hb
      have h1' := Nat.div_add_mod (bpi * i) 32
      -- the bit of the group that is meant
      have mk : ∀ y, bpi * i ≤ y → y < bpi * i + bpi → (x = if y % 32 = 31 then y + 1 else y) →
          ∃ y, lostBit bpi size order (p :: lost) y ∧
          bpi * (y / bpi / order.length * order.length + order.idxOf p) < 32 * size ∧
          x = if y % 32 = 31 then y + 1 else y := by
        intro y hy1 hy2 hx
        have hyi : y / bpi = i := by
          rw [Nat.div_eq_iff hp]
          rw [Nat.mul_comm] at hy1 hy2
          omega
        refine ⟨y, ⟨?_, q, hq, ?_⟩, ?_, hx⟩
        · obtain ⟨k, hk⟩ := hd
          have : bpi * i < bpi * (k * size) := by rw [← Nat.mul_assoc, ← hk]; exact c3
          have h5 : i + 1 ≤ k * size := Nat.lt_of_mul_lt_mul_left this
          have := Nat.mul_le_mul_left bpi h5
          rw [← Nat.mul_assoc, ← hk, Nat.mul_add] at this
          omega
        · rw [hyi, hmod, hget]
        · rw [hyi, hdiv]; exact c1
      rcases hb with ⟨a, b, c⟩ | ⟨a, b, c⟩
      · refine mk x a b ?_
        rw [if_neg (by omega)]
      · refine mk (x - 1) (by omega) (by omega) ?_
        rw [if_pos (by omega)]; omega
    · rintro ⟨y, ⟨hy, q, hq, hget⟩, c1, hx⟩
      have hmodlt := Nat.mod_lt (y / bpi) hP
      have hidx : order.idxOf q = y / bpi % order.length := by
        rw [List.getElem?_eq_getElem hmodlt, Option.some.injEq] at hget
        rw [← hget]
        exact hn.idxOf_getElem _ hmodlt
      have hi : y / bpi / order.length * order.length + order.idxOf q = y / bpi := by
        rw [hidx, Nat.mul_comm]; exact Nat.div_add_mod _ _
      have h1' := Nat.div_add_mod y bpi
      have h2' := Nat.mod_lt y hp
      refine ⟨y / bpi / order.length, q, hq, c1, ?_, ?_⟩
      · rw [hi]; omega
      · rw [hi, errTuples_bits]
        have := hroom (y / bpi)
        have h3' := Nat.div_add_mod (bpi * (y / bpi)) 32
        split at hx <;> omega

/-- C15, error branches: no packet lost, or a packet that is not in the order. -/
theorem C15_rejections (fuel count bpi size : Nat) (order lost : List Nat) :
    (lost = [] → predictCorruption fuel count bpi size order lost = some (.error .index)) ∧
    ((∃ p ∈ lost, p ∉ order) →
      predictCorruption fuel count bpi size order lost = some (.error .value)) := by
  constructor
  · rintro rfl; rfl
  · intro h
    unfold predictCorruption
    rw [startBits_err bpi order lost h]

/-- **C15, what does hold** (missing: the last bit of each word, which is
reported as the first bit of the next word, and lists whose first packet is not
the earliest of the order; see the refutations): when the first listed packet
comes first in the order, the prediction agrees with the losses on every bit
that is neither the first nor the last of its word. -/
theorem C15_prediction_partial (bpi size p : Nat) (order lost : List Nat) (hd : bpi ∣ 32)
    (hn : order.Nodup) (hin : ∀ q ∈ p :: lost, q ∈ order)
    (hmin : ∀ q ∈ lost, order.idxOf p ≤ order.idxOf q) (fuel : Nat) (hf : 32 * size < fuel) :
    ∃ es, predictCorruption fuel order.length bpi size order (p :: lost) = some (.ok es) ∧
      (∀ x, x % 32 ≠ 0 → x % 32 ≠ 31 →
        (predictedBit bpi es x ↔ lostBit bpi size order (p :: lost) x)) ∧
      (∀ x, x % 32 = 0 → (predictedBit bpi es x ↔ 
        lostBit bpi size order (p :: lost) x ∨ 0 < x ∧ lostBit bpi size order (p :: lost) (x - 1))) ∧
      (∀ x, x % 32 = 31 → ¬ predictedBit bpi es x) := by
  have hp : 0 < bpi := Nat.pos_of_dvd_of_pos hd (by omega)
  obtain ⟨es, h1, _, h3⟩ := C15_exact bpi size p order lost hd hn hin fuel hf
  have hP : 0 < order.length := List.length_pos_of_mem (hin p (by simp))
  have hauto : ∀ y, lostBit bpi size order (p :: lost) y →
      bpi * (y / bpi / order.length * order.length + order.idxOf p) < 32 * size := by
    rintro y ⟨hy, q, hq, hget⟩
    have hmodlt := Nat.mod_lt (y / bpi) hP
    have hidx : order.idxOf q = y / bpi % order.length := by
      rw [List.getElem?_eq_getElem hmodlt, Option.some.injEq] at hget
      rw [← hget]
      exact hn.idxOf_getElem _ hmodlt
    have hle : order.idxOf p ≤ order.idxOf q := by
      rcases List.mem_cons.1 hq with rfl | h
      · exact Nat.le_refl _
      · exact hmin q h
    have hi : y / bpi / order.length * order.length + order.idxOf q = y / bpi := by
      rw [hidx, Nat.mul_comm]; exact Nat.div_add_mod _ _
    have : bpi * (y / bpi / order.length * order.length + order.idxOf p) ≤ bpi * (y / bpi) :=
      Nat.mul_le_mul_left _ (by omega)
    have := Nat.div_add_mod y bpi
    omega
  refine ⟨es, h1, ?_, ?_, ?_⟩
  · intro x hx0 hx31
    rw [h3]
    constructor
    · rintro ⟨y, hy, _, hx⟩
      split at hx
      · omega
      · rw [hx]; exact hy
    · intro h
      exact ⟨x, h, hauto x h, by rw [if_neg hx31]⟩
  · intro x hx
    rw [h3]
    constructor
    · rintro ⟨y, hy, _, hxy⟩
      split at hxy
      · right
        refine ⟨by omega, ?_⟩
        rw [hxy, Nat.add_sub_cancel]; exact hy
      · left; rw [hxy]; exact hy
    · rintro (h | ⟨h0, h⟩)
      · exact ⟨x, h, hauto x h, by rw [if_neg (by omega)]⟩
      · exact ⟨x - 1, h, hauto _ h, by rw [if_pos (by omega)]; omega⟩
  · intro x hx
    rw [h3]
    rintro ⟨y, _, _, hxy⟩
    split at hxy <;> omega

/-- C15, a further branch: with groups of zero bits or zero packets the
prediction never finishes (as soon as there is data). -/
theorem C15_no_progress (fuel count bpi size p : Nat) (order lost : List Nat) (hz : bpi * count = 0)
    (hin : ∀ q ∈ p :: lost, q ∈ order) (h0 : bpi * order.idxOf p < 32 * size) :
    predictCorruption fuel count bpi size order (p :: lost) = none := by
  unfold predictCorruption
  rw [startBits_ok bpi order (p :: lost) hin]
  simp only [List.map_cons, Option.map_eq_none_iff]
  have key : ∀ fuel (s : PCState), s.b.head? = some (bpi * order.idxOf p) →
      whileLoop (firstBelow (size * 32))
        (fun s => .ok (predictTurn bpi (bpi * count) (size * 32) s)) fuel s = none := by
    intro fuel
    induction fuel with
    | zero => intro s _; rfl
    | succ fuel ih =>
      intro s hs
      obtain ⟨b, es⟩ := s
      cases b with
      | nil => simp at hs
      | cons y b =>
        simp only [List.head?_cons, Option.some.injEq] at hs
        subst hs
        have hc : firstBelow (size * 32) ⟨bpi * order.idxOf p :: b, es⟩ = true := by
          simp only [firstBelow, decide_eq_true_eq]; omega
        simp only [whileLoop, hc, if_true]
        apply ih
        simp [predictTurn, hz]
  exact key fuel _ rfl

/-- Two groups of two bits, packet 1 lost, one word, sixteen packets. -/
example : (predictCorruption 40 4 2 1 [0, 1, 2, 3] [1]).bind Except.toOption =
    some [(0, 2, none), (0, 10, none), (0, 18, none), (0, 26, none)] := by decide

/-- **C15 is false of the code** at the end of a word: with four packets and
packet 3 lost, bit 31 is lost but not predicted, and bit 32 is predicted though
the data has 32 bits only. -/
theorem C15_refuted :
    ∃ es, predictCorruption 40 4 2 1 [0, 1, 2, 3] [3] = some (.ok es) ∧
      lostBit 2 1 [0, 1, 2, 3] [3] 31 ∧ ¬ predictedBit 2 es 31 ∧
      predictedBit 2 es 32 ∧ ¬ lostBit 2 1 [0, 1, 2, 3] [3] 32 := by
  refine ⟨[(0, 6, none), (0, 14, none), (0, 22, none), (0, 30, some 1), (1, 0, some 1)],
    by decide, ⟨by omega, 3, by simp, by decide⟩, ?_, ?_, ?_⟩
  · simp [predictedBit, tupleBits]
  · exact ⟨(1, 0, some 1), by simp, by simp [tupleBits]⟩
  · rintro ⟨h, _⟩; omega

/-- **C15 is false of the code** when the packets are not listed in the order
of transmission: with three packets and `[2, 0]` lost, the last round of packet
0 is not predicted, while listing them as `[0, 2]` does predict it. -/
theorem C15_order_refuted :
    ∃ es es', predictCorruption 40 3 2 1 [0, 1, 2] [2, 0] = some (.ok es) ∧
      predictCorruption 40 3 2 1 [0, 1, 2] [0, 2] = some (.ok es') ∧
      lostBit 2 1 [0, 1, 2] [2, 0] 30 ∧ ¬ predictedBit 2 es 30 ∧ predictedBit 2 es' 30 := by
  refine ⟨[(0, 4, none), (0, 0, none), (0, 10, none), (0, 6, none), (0, 16, none), (0, 12, none),
    (0, 22, none), (0, 18, none), (0, 28, none), (0, 24, none)], _, by decide, rfl,
    ⟨by omega, 0, by simp, by decide⟩, ?_, ?_⟩
  · simp [predictedBit, tupleBits]
  · exact ⟨(0, 30, some 1), by decide, by simp [tupleBits]⟩

end Verif
