import Verif.Spec.Tape
import Verif.Props.Straddle
import Verif.Proof.Interleave

/-! A queue follows its tape. -/

namespace Verif
open Spec

theorem overlay_overlay (v t : Nat) (a b : List Bool) :
    overlay (overlay v t a) t b = overlay v t (b ++ a.drop b.length) := by
  apply Nat.eq_of_testBit_eq
  intro i
  simp only [testBit_overlay, List.length_append, List.length_drop]
  by_cases hb : t ≤ i ∧ i < t + b.length
  · rw [if_pos hb, if_pos (by omega), List.getElem?_append_left (by omega)]
  · rw [if_neg hb]
    by_cases ha : t ≤ i ∧ i < t + a.length
    · rw [if_pos ha, if_pos (by omega), List.getElem?_append_right (by omega), List.getElem?_drop,
        show b.length + (i - t - b.length) = i - t by omega]
    · rw [if_neg ha, if_neg (by omega)]

theorem overlay_small {v lo : Nat} {bs : List Bool} (hv : v < 2 ^ 32) (h : lo + bs.length ≤ 32) :
    overlay v lo bs < 2 ^ 32 := by
  apply Nat.lt_pow_two_of_testBit
  intro i hi
  rw [testBit_overlay, if_neg (by omega)]
  exact Nat.testBit_lt_two_pow (lt_of_lt_of_le hv (Nat.pow_le_pow_right (by omega) hi))

/-- Bits of a word among its 32 bits. -/
theorem bitsAt_of_word (b p w : Nat) (h : p + w ≤ 32) : bitsAt b p w = ((bitsAt b 0 32).drop p).take w := by
  have e := bitsAt_add b 0 p (w + (32 - (p + w)))
  rw [show p + (w + (32 - (p + w))) = 32 by omega] at e
  rw [e, List.drop_left' (by simp), Nat.zero_add, bitsAt_add, List.take_left' (by simp)]

theorem bitsAt_take (v f n k : Nat) (h : k ≤ n) : (bitsAt v f n).take k = bitsAt v f k := by
  obtain ⟨m, rfl⟩ := Nat.exists_eq_add_of_le h
  rw [bitsAt_add, List.take_left' (by simp)]

/-- The queue has written `S` and been read up to `d`. -/
structure OnTape (q : BitQueue) (S : List Bool) (d : Nat) : Prop where
  eq : q.eqBit = S.length % 32
  dq : q.dqBit = d % 32
  word : q.eqWord + 1 = q.bytes.length
  le : d ≤ S.length
  bits : stream q.bytes = S.drop (32 * (d / 32)) ++ List.replicate (32 - S.length % 32) false
  small : ∀ b ∈ q.bytes, b < 2 ^ 32

theorem OnTape.new (ws : Nat) : OnTape (BitQueue.new ws) [] 0 where
  eq := rfl
  dq := rfl
  word := rfl
  le := by simp
  bits := by simp [BitQueue.new, bitsAt_zero_val]
  small := by simp [BitQueue.new]

theorem laid_length (p : Nat) (g : List Bool) (hp : p < 32) (hg : g.length ≤ 32) :
    (laid p g).length = if p + g.length ≤ 32 then g.length else g.length + (32 - p) := by
  unfold laid
  split
  · rfl
  · simp only [List.length_append, List.length_take, List.length_replicate]
    omega

theorem laid_pos (S g : List Bool) (hg : g.length ≤ 32) :
    (S ++ laid (S.length % 32) g).length % 32 =
      if S.length % 32 + g.length ≤ 32 then (S.length % 32 + g.length) % 32 else g.length % 32 := by
  rw [List.length_append, laid_length _ _ (by omega) hg]
  split <;> omega

theorem OnTape.last {q : BitQueue} {S : List Bool} {d : Nat} (h : OnTape q S d) :
    ∃ init last, q.bytes = init ++ [last] ∧ q.eqWord = init.length ∧
      stream init ++ bitsAt last 0 q.eqBit = S.drop (32 * (d / 32)) ∧
      bitsAt last q.eqBit (32 - q.eqBit) = List.replicate (32 - q.eqBit) false := by
  have hlt : q.eqBit < 32 := by rw [h.eq]; omega
  have hne : q.bytes ≠ [] := by
    intro hc
    have := congrArg List.length h.bits
    rw [hc] at this
    simp at this
    omega
  obtain ⟨init, last, hbl⟩ : ∃ init last, q.bytes = init ++ [last] :=
    ⟨_, _, (List.dropLast_concat_getLast hne).symm⟩
  refine ⟨init, last, hbl, ?_, ?_⟩
  · have := h.word; rw [hbl] at this; simp at this; omega
  · have hs := h.bits
    have e : bitsAt last 0 32 = bitsAt last 0 q.eqBit ++ bitsAt last q.eqBit (32 - q.eqBit) := by
      have := bitsAt_add last 0 q.eqBit (32 - q.eqBit)
      rw [Nat.zero_add] at this
      rw [← this]; congr 1; omega
    rw [hbl, stream_append, stream_cons, stream_nil, List.append_nil, e, ← List.append_assoc, ← h.eq] at hs
    exact List.append_inj' hs (by simp)

/-- A word written on from its first free bit. -/
theorem overlay_tail (last e : Nat) (g : List Bool) (he : e + g.length ≤ 32)
    (hz : bitsAt last e (32 - e) = List.replicate (32 - e) false) :
    bitsAt (overlay last e g) 0 32 =
      bitsAt last 0 e ++ g ++ List.replicate (32 - (e + g.length)) false := by
  have h32 : 32 = e + (g.length + (32 - (e + g.length))) := by omega
  conv_lhs => rw [h32]
  rw [bitsAt_add, bitsAt_add, Nat.zero_add, bitsAt_overlay_self,
    bitsAt_overlay_other _ _ _ _ _ (by left; omega), bitsAt_overlay_other _ _ _ _ _ (by right; omega)]
  have e3 : bitsAt last (e + g.length) (32 - (e + g.length)) = List.replicate (32 - (e + g.length)) false := by
    have e' := bitsAt_add last e g.length (32 - (e + g.length))
    rw [show g.length + (32 - (e + g.length)) = 32 - e by omega, hz] at e'
    have := congrArg (List.drop g.length) e'
    rw [List.drop_left' (by simp), List.drop_replicate] at this
    rw [← this]; congr 1; omega
  rw [e3, List.append_assoc]

theorem OnTape.enqueue {q : BitQueue} {S : List Bool} {d : Nat} (h : OnTape q S d) (v f : Nat)
    (h1 : 1 ≤ q.wordSize) (hf : f + q.wordSize ≤ 32) :
    ∃ q', q.enqueue v f = .ok q' ∧ q'.wordSize = q.wordSize ∧
      OnTape q' (S ++ laid (S.length % 32) (bitsAt v f q.wordSize)) d := by
  obtain ⟨init, last, hb, hw, hp, hz⟩ := h.last
  have hlt : q.eqBit < 32 := by rw [h.eq]; omega
  have hdq := h.dq
  have hsm : ∀ b ∈ init, b < 2 ^ 32 := fun b hm => h.small b (by rw [hb]; simp [hm])
  have hl : last < 2 ^ 32 := h.small last (by rw [hb]; simp)
  have hle := h.le
  have hk : 32 * (d / 32) ≤ S.length := by omega
  have hpos := laid_pos S (bitsAt v f q.wordSize) (by simp; omega)
  rw [length_bitsAt, ← h.eq] at hpos
  rw [← h.eq]
  by_cases hs : q.eqBit + q.wordSize ≤ 32
  · rw [if_pos hs] at hpos
    have hlaid : laid q.eqBit (bitsAt v f q.wordSize) = bitsAt v f q.wordSize := by
      unfold laid; rw [if_pos (by simpa using hs)]
    rw [hlaid] at hpos ⊢
    refine ⟨_, enqueue_fits q init last v f hb hw h1 hs hf, ?_, ?_⟩
    · unfold BitQueue.bumpEq; simp only; split <;> rfl
    have hst := overlay_tail last q.eqBit (bitsAt v f q.wordSize) (by simpa using hs) hz
    rw [length_bitsAt] at hst
    have hov : overlay last q.eqBit (bitsAt v f q.wordSize) < 2 ^ 32 := overlay_small hl (by simpa using hs)
    unfold BitQueue.bumpEq
    simp only
    by_cases hfull : q.eqBit + q.wordSize > 31
    · rw [if_pos hfull]
      have heq : q.eqBit + q.wordSize = 32 := by omega
      constructor
      · simp only; rw [hpos]; omega
      · simp only; exact hdq
      · simp; omega
      · simp; omega
      · simp only
        rw [hpos, stream_append, stream_append, stream_cons, stream_nil, stream_cons, stream_nil, hst,
          List.drop_append_of_le_length hk, ← hp, heq, bitsAt_zero_val]
        simp
      · intro b hm
        simp only [List.mem_append, List.mem_singleton] at hm
        rcases hm with (hm | rfl) | rfl
        · exact hsm b hm
        · exact hov
        · omega
    · rw [if_neg hfull]
      constructor
      · simp only; rw [hpos]; omega
      · simp only; exact hdq
      · simp; omega
      · simp; omega
      · simp only
        rw [hpos, stream_append, stream_cons, stream_nil, hst,
          List.drop_append_of_le_length hk, ← hp, Nat.mod_eq_of_lt (by omega)]
        simp
      · intro b hm
        simp only [List.mem_append, List.mem_singleton] at hm
        rcases hm with hm | rfl
        · exact hsm b hm
        · exact hov
  · rw [if_neg hs] at hpos
    have hlaid : laid q.eqBit (bitsAt v f q.wordSize) = bitsAt v f (32 - q.eqBit) ++
        bitsAt v f (q.eqBit + q.wordSize - 32) ++ List.replicate (32 - q.eqBit) false := by
      unfold laid
      rw [if_neg (by simpa using hs), length_bitsAt, bitsAt_take _ _ _ _ (by omega), bitsAt_take _ _ _ _ (by omega)]
    rw [hlaid] at hpos ⊢
    refine ⟨_, enqueue_straddles q init last v f hb hw hlt (by omega) (by omega) hf, ?_, ?_⟩
    · unfold BitQueue.bumpEq; simp only; split <;> rfl
    have hst := overlay_tail last q.eqBit (bitsAt v f (32 - q.eqBit)) (by simp; omega) hz
    rw [length_bitsAt, show 32 - (q.eqBit + (32 - q.eqBit)) = 0 by omega] at hst
    have hst2 := overlay_tail 0 0 (bitsAt v f (q.eqBit + q.wordSize - 32)) (by simp; omega) (bitsAt_zero_val _ _)
    rw [length_bitsAt, show 32 - (0 + (q.eqBit + q.wordSize - 32)) = (32 - q.eqBit) + (32 - q.wordSize) by omega,
      List.replicate_add] at hst2
    have hov : overlay last q.eqBit (bitsAt v f (32 - q.eqBit)) < 2 ^ 32 := overlay_small hl (by simp; omega)
    have hov2 : overlay 0 0 (bitsAt v f (q.eqBit + q.wordSize - 32)) < 2 ^ 32 :=
      overlay_small (by omega) (by simp; omega)
    unfold BitQueue.bumpEq
    simp only [Nat.zero_add]
    by_cases hfull : q.wordSize > 31
    · rw [if_pos hfull]
      have heq : q.wordSize = 32 := by omega
      constructor
      · simp only; rw [hpos]; omega
      · simp only; exact hdq
      · simp; omega
      · simp; omega
      · simp only
        rw [hpos, stream_append, stream_append, stream_cons, stream_cons, stream_nil, stream_cons, stream_nil, hst,
          hst2, List.drop_append_of_le_length hk, ← hp, heq, bitsAt_zero_val]
        simp [bitsAt]
      · intro b hm
        simp only [List.mem_append, List.mem_cons, List.not_mem_nil, or_false] at hm
        rcases hm with (hm | rfl | rfl) | rfl
        · exact hsm b hm
        · exact hov
        · exact hov2
        · omega
    · rw [if_neg hfull]
      constructor
      · simp only; rw [hpos]; omega
      · simp only; exact hdq
      · simp; omega
      · simp; omega
      · simp only
        rw [hpos, stream_append, stream_cons, stream_cons, stream_nil, hst, hst2,
          List.drop_append_of_le_length hk, ← hp, Nat.mod_eq_of_lt (by omega)]
        simp [bitsAt]
      · intro b hm
        simp only [List.mem_append, List.mem_cons, List.not_mem_nil, or_false] at hm
        rcases hm with hm | rfl | rfl
        · exact hsm b hm
        · exact hov
        · exact hov2

/-- The first words of the queue. -/
theorem OnTape.first {q : BitQueue} {S : List Bool} {d : Nat} (h : OnTape q S d) :
    ∃ b0 rest, q.bytes = b0 :: rest ∧
      (∀ w, d % 32 + w ≤ 32 → d + w ≤ S.length → bitsAt b0 (d % 32) w = (S.drop d).take w) ∧
      (32 * (d / 32) + 32 ≤ S.length →
        stream rest = S.drop (32 * ((d + (32 - d % 32)) / 32)) ++ List.replicate (32 - S.length % 32) false ∧
        rest ≠ []) := by
  have hle := h.le
  have hbits := h.bits
  have hlen := congrArg List.length hbits
  rcases hb : q.bytes with _ | ⟨b0, rest⟩
  · rw [hb] at hlen; simp at hlen; omega
  · refine ⟨b0, rest, rfl, ?_, ?_⟩
    · intro w hw hd
      rw [hb, stream_cons] at hbits
      rw [bitsAt_of_word b0 _ w hw]
      have := congrArg (fun l => (l.drop (d % 32)).take w) hbits
      rw [List.drop_append_of_le_length (by simp; omega), List.take_append_of_le_length (by simp; omega),
        List.drop_append_of_le_length (by simp; omega), List.take_append_of_le_length (by simp; omega),
        List.drop_drop, show 32 * (d / 32) + d % 32 = d by omega] at this
      exact this
    · intro hS
      rw [hb, stream_cons] at hbits
      have := congrArg (fun l => l.drop 32) hbits
      rw [List.drop_left' (by simp), List.drop_append_of_le_length (by simp; omega), List.drop_drop,
        show 32 * (d / 32) + 32 = 32 * ((d + (32 - d % 32)) / 32) by omega] at this
      refine ⟨this, ?_⟩
      rintro rfl
      rw [hb] at hlen
      simp at hlen
      omega

theorem dequeue_full (q : BitQueue) (b0 : Nat) (rest : List Nat) (v t : Nat) (hb : q.bytes = b0 :: rest)
    (hp : 0 < q.wordSize) (hr : q.dqBit + q.wordSize = 32) (ht : t + q.wordSize ≤ 32) :
    q.dequeue v t = .ok (overlay v t (bitsAt b0 q.dqBit q.wordSize),
      { q with bytes := rest, eqWord := q.eqWord - 1, dqBit := 0 }) := by
  have hcr : checkRange 0 (t : Int) = .ok () := checkRange_ok (by omega) (by omega) (by omega)
  have hget : pyGet q.bytes 0 = .ok b0 := by rw [hb]; simp [pyGet]
  have hpop : pyPop0 q.bytes = .ok rest := by rw [hb]; rfl
  unfold BitQueue.dequeue
  simp only [hcr, bind, Except.bind]
  rw [if_neg (by omega)]
  simp only [hget, copyBits_overlay b0 v q.dqBit t q.wordSize _ rfl hp (by omega) ht]
  unfold BitQueue.bumpDq
  simp only
  rw [if_pos (by omega), hpop]
  simp [bind, Except.bind, pure, Except.pure, hr]

theorem OnTape.dequeue {q : BitQueue} {S : List Bool} {d : Nat} (h : OnTape q S d) (v t : Nat)
    (h1 : 1 ≤ q.wordSize) (ht : t + q.wordSize ≤ 32) (hd : d + q.wordSize ≤ S.length) :
    ∃ q', q.dequeue v t = .ok (overlay v t (seen S d q.wordSize), q') ∧ q'.wordSize = q.wordSize ∧
      OnTape q' S (d + q.wordSize) := by
  obtain ⟨b0, rest, hb, hfirst, hrest⟩ := h.first
  have hdq := h.dq
  have hword := h.word
  rcases Nat.lt_trichotomy (d % 32 + q.wordSize) 32 with hs | hs | hs
  · have e := dequeue_fits q b0 rest v t hb h1 (by omega) ht
    rw [hdq, hfirst _ (by omega) hd] at e
    have hseen : seen S d q.wordSize = (S.drop d).take q.wordSize := by unfold seen; rw [if_pos (by omega)]
    rw [← hseen] at e
    refine ⟨_, e, rfl, ?_⟩
    constructor
    · exact h.eq
    · simp only; omega
    · exact h.word
    · exact hd
    · simp only
      rw [h.bits, show (d + q.wordSize) / 32 = d / 32 by omega]
    · exact h.small
  · have e := dequeue_full q b0 rest v t hb h1 (by omega) ht
    rw [hdq, hfirst _ (by omega) hd] at e
    have hseen : seen S d q.wordSize = (S.drop d).take q.wordSize := by unfold seen; rw [if_pos (by omega)]
    rw [← hseen] at e
    refine ⟨_, e, rfl, ?_⟩
    obtain ⟨hr1, _⟩ := hrest (by omega)
    constructor
    · exact h.eq
    · simp only; omega
    · rw [hb] at hword; simp at hword ⊢; omega
    · exact hd
    · simp only
      rw [hr1]; congr 3; omega
    · intro b hm; exact h.small b (by rw [hb]; simp [hm])
  · obtain ⟨hr1, hr2⟩ := hrest (by omega)
    obtain ⟨b1, rest', rfl⟩ : ∃ b1 rest', rest = b1 :: rest' := List.exists_cons_of_ne_nil hr2
    have e := dequeue_straddles q b0 b1 rest' v t hb (by omega) (by omega) (by omega) ht
    rw [hdq, hfirst _ (by omega) (by omega)] at e
    have hsec : bitsAt b1 0 (d % 32 + q.wordSize - 32) =
        (S.drop (d + (32 - d % 32))).take (d % 32 + q.wordSize - 32) := by
      rw [bitsAt_of_word b1 0 _ (by omega), List.drop_zero]
      rw [stream_cons] at hr1
      have := congrArg (fun l => l.take (d % 32 + q.wordSize - 32)) hr1
      rw [List.take_append_of_le_length (by simp; omega), List.take_append_of_le_length (by simp; omega)] at this
      rw [this]; congr 2; omega
    have hseen : seen S d q.wordSize = (S.drop (d + (32 - d % 32))).take (d % 32 + q.wordSize - 32) ++
        ((S.drop d).take (32 - d % 32)).drop (d % 32 + q.wordSize - 32) := by
      unfold seen; rw [if_neg (by omega)]
    rw [hsec, overlay_overlay] at e
    have hl : ((S.drop (d + (32 - d % 32))).take (d % 32 + q.wordSize - 32)).length = d % 32 + q.wordSize - 32 := by
      simp; omega
    rw [hl] at e
    rw [← hseen] at e
    refine ⟨_, e, rfl, ?_⟩
    constructor
    · exact h.eq
    · simp only; omega
    · rw [hb] at hword; simp at hword ⊢; omega
    · exact hd
    · simp only
      rw [hr1]; congr 3; omega
    · intro b hm; exact h.small b (by rw [hb]; simp at hm ⊢; right; exact hm)

end Verif
