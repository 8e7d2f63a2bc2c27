import Verif.Model.BitQueue
import Verif.Proof.Bits
import Verif.Proof.SpecBits

/-! The queue invariant and its preservation. -/

namespace Verif
open Spec

theorem copyBits_overlay (vf vt sf df w : Nat) (st : Int) (hst : st = (sf : Int) + w - 1)
    (hw : 0 < w) (h1 : sf + w ≤ 32) (h2 : df + w ≤ 32) :
    copyBits vf vt sf st df = .ok (overlay vt df (bitsAt vf sf w)) := by
  obtain ⟨r, hr, hb⟩ := copyBits_spec vf vt sf st df (by omega) (by omega) (by omega)
    (by omega) (by omega)
  rw [hr]
  congr 1
  apply Nat.eq_of_testBit_eq
  intro i
  rw [hb, testBit_overlay, length_bitsAt]
  by_cases hi : df ≤ i ∧ i < df + w
  · rw [if_pos (by omega), if_pos hi]
    have : i - df < w := by omega
    simp only [bitsAt, List.getElem?_map, List.getElem?_range, this, Option.map_some,
      Option.getD_some]
    congr 1; omega
  · rw [if_neg (by omega), if_neg hi]

/-- The queue `q` holds the groups `g`. -/
structure QInv (ws : Nat) (q : BitQueue) (g : List (List Bool)) : Prop where
  pos : 0 < ws
  dvd : ws ∣ 32
  size : q.wordSize = ws
  eqDvd : ws ∣ q.eqBit
  eqLt : q.eqBit < 32
  dqDvd : ws ∣ q.dqBit
  dqLt : q.dqBit < 32
  len : (q.bytes.length : Int) = q.eqWord + 1
  bits : ∃ pre : List Bool, pre.length = q.dqBit ∧
    stream q.bytes = pre ++ g.flatten ++ List.replicate (32 - q.eqBit) false
  groups : ∀ x ∈ g, x.length = ws

theorem room_of_dvd {ws b : Nat} (h : ws ∣ 32) (hb : ws ∣ b) (hlt : b < 32) : b + ws ≤ 32 := by
  obtain ⟨k, hk⟩ := h
  obtain ⟨j, hj⟩ := hb
  have : ws * j < ws * k := by omega
  have hjk : j < k := Nat.lt_of_mul_lt_mul_left this
  have : ws * (j + 1) ≤ ws * k := Nat.mul_le_mul_left ws hjk
  rw [Nat.mul_add] at this
  omega

theorem QInv.new {ws : Nat} (hp : 0 < ws) (hd : ws ∣ 32) : QInv ws (BitQueue.new ws) [] where
  pos := hp
  dvd := hd
  size := rfl
  eqDvd := by simp [BitQueue.new]
  eqLt := by simp [BitQueue.new]
  dqDvd := by simp [BitQueue.new]
  dqLt := by simp [BitQueue.new]
  len := by simp [BitQueue.new]
  bits := ⟨[], rfl, by simp [BitQueue.new, bitsAt_zero_val]⟩
  groups := by simp

theorem flatten_length {ws : Nat} {g : List (List Bool)} (h : ∀ x ∈ g, x.length = ws) :
    g.flatten.length = ws * g.length := by
  induction g with
  | nil => simp
  | cons x g ih =>
    simp only [List.flatten_cons, List.length_append, List.length_cons, Nat.mul_add]
    rw [h x (by simp), ih fun y hy => h y (by simp [hy])]
    omega

theorem QInv.count {ws q g} (h : QInv ws q g) :
    32 * q.eqWord + q.eqBit = q.dqBit + (ws * g.length : Nat) := by
  obtain ⟨pre, h1, h2⟩ := h.bits
  have := congrArg List.length h2
  simp only [length_stream, List.length_append, List.length_replicate,
    flatten_length h.groups] at this
  have := h.len
  have := h.eqLt
  omega

theorem QInv.eqWord_nonneg {ws q g} (h : QInv ws q g) : 0 ≤ q.eqWord := by
  have := h.count
  have := h.eqLt
  omega

theorem QInv.empty_iff {ws q g} (h : QInv ws q g) : q.empty = true ↔ g = [] := by
  have hc := h.count
  have h1 := h.eqLt
  have h2 := h.dqLt
  have h3 := h.eqWord_nonneg
  have hp := h.pos
  unfold BitQueue.empty
  rw [if_neg (by omega)]
  constructor
  · intro he
    by_cases hg : g.length = 0
    · exact List.length_eq_zero_iff.1 hg
    · exfalso
      have : 0 < ws * g.length := Nat.mul_pos hp (by omega)
      by_cases hc2 : q.eqWord = 0 ∧ q.eqBit ≤ q.dqBit
      · omega
      · simp [hc2] at he
  · rintro rfl
    simp only [List.length_nil, Nat.mul_zero] at hc
    rw [if_pos (by omega)]

theorem pyGet_last {α : Type} (l : List α) (x : α) (i : Int) (hi : i = l.length) :
    pyGet (l ++ [x]) i = .ok x := by
  unfold pyGet
  simp only [hi]
  rw [if_neg (by omega), if_neg (by omega)]
  simp

theorem pySet_last {α : Type} (l : List α) (x y : α) (i : Int) (hi : i = l.length) :
    pySet (l ++ [x]) i y = .ok (l ++ [y]) := by
  unfold pySet
  subst hi
  dsimp only
  rw [if_neg (by omega : ¬ (l.length : Int) < 0),
    if_neg (by simp only [List.length_append, List.length_cons, List.length_nil]; omega)]
  simp

theorem QInv.enqueue {ws q g} (h : QInv ws q g) (v f : Nat) (hf : f + ws ≤ 32) :
    ∃ q', q.enqueue v f = .ok q' ∧ QInv ws q' (g ++ [bitsAt v f ws]) := by
  have hp := h.pos
  have hroom := room_of_dvd h.dvd h.eqDvd h.eqLt
  obtain ⟨pre, hpre, hs⟩ := h.bits
  have hlen := h.len
  have hnn := h.eqWord_nonneg
  have hs' := h.size
  -- split off the last word
  obtain ⟨init, last, hb⟩ : ∃ init last, q.bytes = init ++ [last] := by
    have : q.bytes ≠ [] := by
      intro h0; rw [h0] at hlen; simp at hlen; omega
    exact ⟨_, _, (List.dropLast_concat_getLast this).symm⟩
  have hil : q.eqWord = init.length := by rw [hb] at hlen; simp at hlen; omega
  have hcr : checkRange 0 (f : Int) = .ok () := checkRange_ok (by omega) (by omega) (by omega)
  have hcb : copyBits v last (f : Int) (max 0 ((f : Int) + q.wordSize - 1)) q.eqBit
      = .ok (overlay last q.eqBit (bitsAt v f ws)) :=
    copyBits_overlay v last f q.eqBit ws _ (by rw [hs']; omega) hp hf hroom
  have hst : BitQueue.store q.bytes q.eqWord v (f : Int) (max 0 ((f : Int) + q.wordSize - 1)) q.eqBit
      = .ok (init ++ [overlay last q.eqBit (bitsAt v f ws)]) := by
    unfold BitQueue.store
    rw [hb, pyGet_last _ _ _ hil]
    simp only [bind, Except.bind, hcb]
    exact pySet_last _ _ _ _ hil
  -- bits of the new last word
  have hsplit : stream init ++ bitsAt last 0 q.eqBit = pre ++ g.flatten ∧
      bitsAt last q.eqBit (32 - q.eqBit) = List.replicate (32 - q.eqBit) false := by
    have e : bitsAt last 0 32 = bitsAt last 0 q.eqBit ++ bitsAt last q.eqBit (32 - q.eqBit) := by
      have := bitsAt_add last 0 q.eqBit (32 - q.eqBit)
      rw [Nat.zero_add] at this
      rw [← this]; congr 1; have := h.eqLt; omega
    rw [hb, stream_append, stream_cons, stream_nil, List.append_nil, e, ← List.append_assoc] at hs
    exact List.append_inj' hs (by simp)
  have hnew : stream (init ++ [overlay last q.eqBit (bitsAt v f ws)])
      = pre ++ g.flatten ++ bitsAt v f ws ++ List.replicate (32 - (q.eqBit + ws)) false := by
    have h32 : 32 = q.eqBit + (ws + (32 - (q.eqBit + ws))) := by omega
    rw [stream_append, stream_cons, stream_nil, List.append_nil]
    conv_lhs => rw [h32]
    rw [bitsAt_add, bitsAt_add, Nat.zero_add]
    have e1 : bitsAt (overlay last q.eqBit (bitsAt v f ws)) 0 q.eqBit = bitsAt last 0 q.eqBit :=
      bitsAt_overlay_other _ _ _ _ _ (by left; omega)
    have e2 : bitsAt (overlay last q.eqBit (bitsAt v f ws)) q.eqBit ws = bitsAt v f ws := by
      have := bitsAt_overlay_self last q.eqBit (bitsAt v f ws)
      rwa [length_bitsAt] at this
    have e3 : bitsAt (overlay last q.eqBit (bitsAt v f ws)) (q.eqBit + ws) (32 - (q.eqBit + ws))
        = List.replicate (32 - (q.eqBit + ws)) false := by
      rw [bitsAt_overlay_other _ _ _ _ _ (by right; simp)]
      have e := bitsAt_add last q.eqBit ws (32 - (q.eqBit + ws))
      rw [show ws + (32 - (q.eqBit + ws)) = 32 - q.eqBit by omega, hsplit.2] at e
      have := congrArg (List.drop ws) e
      rw [List.drop_append_of_le_length (by simp)] at this
      simp only [List.drop_replicate] at this
      rw [List.drop_eq_nil_of_le (by simp), List.nil_append] at this
      rw [← this]; congr 1; omega
    rw [e1, e2, e3, ← List.append_assoc, hsplit.1, List.append_assoc, List.append_assoc,
      List.append_assoc]
  refine ⟨BitQueue.bumpEq { q with bytes := init ++ [overlay last q.eqBit (bitsAt v f ws)] }, ?_, ?_⟩
  · unfold BitQueue.enqueue
    simp only [hcr, bind, Except.bind]
    rw [if_neg (by rw [hs']; omega)]
    simp only [hst, pure, Except.pure]
  · unfold BitQueue.bumpEq
    simp only [hs']
    by_cases hfull : q.eqBit + ws > 31
    · rw [if_pos hfull]
      have heq : q.eqBit + ws = 32 := by omega
      exact {
        pos := hp, dvd := h.dvd, size := rfl
        eqDvd := by simp [heq]
        eqLt := by simp [heq]
        dqDvd := h.dqDvd, dqLt := h.dqLt
        len := by simp only [List.length_append, List.length_cons, List.length_nil]; omega
        bits := ⟨pre, hpre, by
          dsimp only
          rw [stream_append, hnew, heq]
          simp [bitsAt_zero_val]⟩
        groups := by
          intro x hx
          rw [List.mem_append, List.mem_singleton] at hx
          rcases hx with hx | rfl
          · exact h.groups x hx
          · simp }
    · rw [if_neg hfull]
      exact {
        pos := hp, dvd := h.dvd, size := rfl
        eqDvd := Nat.dvd_add h.eqDvd (Nat.dvd_refl ws)
        eqLt := by dsimp only; omega
        dqDvd := h.dqDvd, dqLt := h.dqLt
        len := by simp only [List.length_append, List.length_cons, List.length_nil]; omega
        bits := ⟨pre, hpre, by
          dsimp only
          rw [hnew]
          simp⟩
        groups := by
          intro x hx
          rw [List.mem_append, List.mem_singleton] at hx
          rcases hx with hx | rfl
          · exact h.groups x hx
          · simp }

theorem QInv.enqueue_err {ws q g} (h : QInv ws q g) (v : Nat) (f : Int)
    (hf : ¬ (0 ≤ f ∧ f + ws ≤ 32)) : q.enqueue v f = .error .runtime := by
  have hp := h.pos
  have hs' := h.size
  have hroom := room_of_dvd h.dvd h.eqDvd h.eqLt
  unfold BitQueue.enqueue
  by_cases h0 : 0 ≤ f ∧ f < 32
  · have hcr : checkRange 0 f = .ok () := checkRange_ok (by omega) (by omega) (by omega)
    simp only [hcr, bind, Except.bind]
    rw [if_neg (by rw [hs']; omega)]
    have : ∃ x, pyGet q.bytes q.eqWord = .ok x := by
      have := h.len
      have := h.eqWord_nonneg
      unfold pyGet
      simp only
      rw [if_neg (by omega), if_neg (by omega)]
      rw [List.getElem?_eq_getElem (by omega)]
      exact ⟨_, rfl⟩
    obtain ⟨x, hx⟩ := this
    unfold BitQueue.store
    simp only [hx, bind, Except.bind]
    rw [copyBits_err _ _ _ _ _ (by rw [hs']; omega)]
  · rw [checkRange_err (by omega)]
    rfl

theorem QInv.dequeue {ws q x g} (h : QInv ws q (x :: g)) (v t : Nat) (ht : t + ws ≤ 32) :
    ∃ q', q.dequeue v t = .ok (overlay v t x, q') ∧ QInv ws q' g := by
  have hp := h.pos
  have hroom := room_of_dvd h.dvd h.dqDvd h.dqLt
  obtain ⟨pre, hpre, hs⟩ := h.bits
  have hlen := h.len
  have hcount := h.count
  have hnn := h.eqWord_nonneg
  have hs' := h.size
  have hxl : x.length = ws := h.groups x (by simp)
  have heq := h.eqLt
  obtain ⟨b0, rest, hb⟩ : ∃ b0 rest, q.bytes = b0 :: rest := by
    cases hq : q.bytes with
    | nil => rw [hq] at hlen; simp at hlen; omega
    | cons a b => exact ⟨a, b, rfl⟩
  have hcr : checkRange 0 (t : Int) = .ok () := checkRange_ok (by omega) (by omega) (by omega)
  -- the bits read
  have h32 : bitsAt b0 0 32 = bitsAt b0 0 q.dqBit ++ (bitsAt b0 q.dqBit ws ++
      bitsAt b0 (q.dqBit + ws) (32 - (q.dqBit + ws))) := by
    rw [← bitsAt_add]
    have := bitsAt_add b0 0 q.dqBit (ws + (32 - (q.dqBit + ws)))
    rw [Nat.zero_add] at this
    rw [← this]; congr 1; omega
  rw [hb, stream_cons, h32, List.flatten_cons] at hs
  simp only [List.append_assoc] at hs
  obtain ⟨hs1, hs2⟩ := List.append_inj hs (by simp [hpre])
  obtain ⟨hs3, hs4⟩ := List.append_inj hs2 (by simp [hxl])
  have hcb : copyBits b0 v q.dqBit ((q.dqBit : Int) + (q.wordSize : Int) - 1) t
      = .ok (overlay v t x) := by
    rw [copyBits_overlay b0 v q.dqBit t ws _ (by rw [hs']) hp hroom ht, hs3]
  have hget : pyGet q.bytes 0 = .ok b0 := by rw [hb]; simp [pyGet]
  have hg : ∀ y ∈ g, y.length = ws := fun y hy => h.groups y (by simp [hy])
  have hfl := flatten_length hg
  by_cases hfull : q.dqBit + ws > 31
  · have hd : q.dqBit + ws = 32 := by omega
    refine ⟨{ q with dqBit := q.dqBit + ws - 32, bytes := rest, eqWord := q.eqWord - 1 }, ?_, ?_⟩
    · unfold BitQueue.dequeue
      simp only [hcr, bind, Except.bind]
      rw [if_neg (by rw [hs']; omega)]
      simp only [hget, hcb]
      unfold BitQueue.bumpDq
      simp only [hs']
      rw [if_pos hfull]
      simp [hb, pyPop0, bind, Except.bind, pure, Except.pure]
    · exact {
        pos := hp, dvd := h.dvd, size := hs'
        eqDvd := h.eqDvd, eqLt := heq
        dqDvd := by simp [hd]
        dqLt := by simp [hd]
        len := by rw [hb] at hlen; simp only [List.length_cons] at hlen; dsimp only; omega
        bits := ⟨[], by simp [hd], by
          dsimp only
          rw [hd] at hs4
          simpa [bitsAt] using hs4⟩
        groups := hg }
  · refine ⟨{ q with dqBit := q.dqBit + ws }, ?_, ?_⟩
    · unfold BitQueue.dequeue
      simp only [hcr, bind, Except.bind]
      rw [if_neg (by rw [hs']; omega)]
      simp only [hget, hcb]
      unfold BitQueue.bumpDq
      simp only [hs']
      rw [if_neg hfull]
      rfl
    · exact {
        pos := hp, dvd := h.dvd, size := hs'
        eqDvd := h.eqDvd, eqLt := heq
        dqDvd := Nat.dvd_add h.dqDvd (Nat.dvd_refl ws)
        dqLt := by dsimp only; omega
        len := hlen
        bits := ⟨pre ++ x, by simp [hpre, hxl], by
          dsimp only
          rw [hb, stream_cons, h32, hs1, hs3]
          simp only [List.append_assoc]
          rw [hs4]⟩
        groups := hg }

theorem QInv.dequeue_err {ws q g} (h : QInv ws q g) (v : Nat) (t : Int)
    (ht : ¬ (0 ≤ t ∧ t + ws ≤ 32)) : q.dequeue v t = .error .runtime := by
  have hp := h.pos
  have hs' := h.size
  have hroom := room_of_dvd h.dvd h.dqDvd h.dqLt
  unfold BitQueue.dequeue
  by_cases h0 : 0 ≤ t ∧ t < 32
  · have hcr : checkRange 0 t = .ok () := checkRange_ok (by omega) (by omega) (by omega)
    simp only [hcr, bind, Except.bind]
    rw [if_neg (by rw [hs']; omega)]
    obtain ⟨b0, rest, hb⟩ : ∃ b0 rest, q.bytes = b0 :: rest := by
      have hlen := h.len
      have := h.eqWord_nonneg
      cases hq : q.bytes with
      | nil => rw [hq] at hlen; simp at hlen; omega
      | cons a b => exact ⟨a, b, rfl⟩
    have hget : pyGet q.bytes 0 = .ok b0 := by rw [hb]; simp [pyGet]
    simp only [hget]
    rw [copyBits_err _ _ _ _ _ (by rw [hs']; omega)]
  · rw [checkRange_err (by omega)]
    rfl

/-- Refinement: the queue follows the first-in first-out specification. -/
theorem runQueue_refines {ws : Nat} (ops : List QOp) :
    ∀ (q : BitQueue) (g : List (List Bool)), QInv ws q g →
    ∀ r, fifo ws g ops = some r →
      (r = none → runQueue q ops = .error .runtime) ∧
      (∀ outs g', r = some (outs, g') →
        ∃ q', runQueue q ops = .ok (outs, q') ∧ QInv ws q' g') := by
  induction ops with
  | nil =>
    intro q g h r hr
    simp only [fifo, Option.some.injEq] at hr
    subst hr
    refine ⟨by simp, ?_⟩
    rintro outs g' he
    simp only [Option.some.injEq, Prod.mk.injEq] at he
    obtain ⟨rfl, rfl⟩ := he
    exact ⟨q, rfl, h⟩
  | cons op ops ih =>
    intro q g h r hr
    cases op with
    | enq v f =>
      simp only [fifo] at hr
      by_cases hf : 0 ≤ f ∧ f + ws ≤ 32
      · rw [if_pos hf] at hr
        obtain ⟨n, rfl⟩ : ∃ n : Nat, f = n := ⟨f.toNat, by omega⟩
        obtain ⟨q', he, hi⟩ := h.enqueue v n (by omega)
        obtain ⟨i1, i2⟩ := ih q' _ hi r hr
        simp only [runQueue, he, bind, Except.bind]
        exact ⟨i1, i2⟩
      · rw [if_neg hf] at hr
        simp only [Option.some.injEq] at hr
        subst hr
        simp [runQueue, h.enqueue_err v f hf, bind, Except.bind]
    | deq v t =>
      cases g with
      | nil => simp [fifo] at hr
      | cons x g =>
        simp only [fifo] at hr
        by_cases hf : 0 ≤ t ∧ t + ws ≤ 32
        · rw [if_pos hf] at hr
          obtain ⟨n, rfl⟩ : ∃ n : Nat, t = n := ⟨t.toNat, by omega⟩
          obtain ⟨q', he, hi⟩ := h.dequeue v n (by omega)
          cases hr' : fifo ws g ops with
          | none => rw [hr'] at hr; simp at hr
          | some r' =>
            obtain ⟨i1, i2⟩ := ih q' _ hi r' hr'
            rw [hr'] at hr
            simp only [Option.map_some, Option.some.injEq] at hr
            subst hr
            simp only [runQueue, he, bind, Except.bind]
            constructor
            · intro h0
              have : r' = none := by cases r' <;> simp_all
              rw [i1 this]
            · intro outs g' h0
              cases r' with
              | none => simp at h0
              | some p =>
                obtain ⟨q'', h1, h2⟩ := i2 p.1 p.2 rfl
                simp only [Option.map_some, Option.some.injEq, Prod.mk.injEq] at h0
                obtain ⟨rfl, rfl⟩ := h0
                refine ⟨q'', ?_, h2⟩
                simp [h1, pure, Except.pure]
        · rw [if_neg hf] at hr
          simp only [Option.some.injEq] at hr
          subst hr
          simp [runQueue, h.dequeue_err v t hf, bind, Except.bind]

end Verif
