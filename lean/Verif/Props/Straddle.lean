import Verif.Proof.BitQueue

/-!
# C08: what a queue does with the first group that does not fit in a word

For a word size that does not divide 32, `32 % ws` bits are left in the first word after
`32 / ws` groups.
-/

namespace Verif
open Spec

theorem runQueue_append (a b : List QOp) : ∀ (q : BitQueue),
    runQueue q (a ++ b) =
      (match runQueue q a with
      | .error e => .error e
      | .ok (o, q') => (match runQueue q' b with
        | .error e => .error e
        | .ok (o', q'') => .ok (o ++ o', q''))) := by
  induction a with
  | nil =>
    intro q
    simp only [List.nil_append, runQueue]
    cases runQueue q b with
    | error e => rfl
    | ok r => rfl
  | cons op a ih =>
    intro q
    cases op with
    | enq v f =>
      simp only [List.cons_append, runQueue, bind, Except.bind]
      cases q.enqueue v f with
      | error e => rfl
      | ok q' => exact ih q'
    | deq v t =>
      simp only [List.cons_append, runQueue, bind, Except.bind, pure, Except.pure]
      cases q.dequeue v t with
      | error e => rfl
      | ok r =>
        simp only
        rw [ih]
        cases runQueue r.2 a with
        | error e => rfl
        | ok r' =>
          simp only
          cases runQueue r'.2 b with
          | error e => rfl
          | ok r'' => simp

/-- Storing a group that fits in the last word. -/
theorem enqueue_fits (q : BitQueue) (init : List Nat) (last v f : Nat) (hb : q.bytes = init ++ [last])
    (hw : q.eqWord = init.length) (hp : 0 < q.wordSize) (hr : q.eqBit + q.wordSize ≤ 32)
    (hf : f + q.wordSize ≤ 32) :
    q.enqueue v f = .ok (BitQueue.bumpEq { q with bytes :=
      init ++ [overlay last q.eqBit (bitsAt v f q.wordSize)] }) := by
  have hcr : checkRange 0 (f : Int) = .ok () := checkRange_ok (by omega) (by omega) (by omega)
  have hcb : copyBits v last (f : Int) (max 0 ((f : Int) + q.wordSize - 1)) q.eqBit
      = .ok (overlay last q.eqBit (bitsAt v f q.wordSize)) :=
    copyBits_overlay v last f q.eqBit q.wordSize _ (by omega) hp hf hr
  have hst : BitQueue.store q.bytes q.eqWord v (f : Int) (max 0 ((f : Int) + q.wordSize - 1)) q.eqBit
      = .ok (init ++ [overlay last q.eqBit (bitsAt v f q.wordSize)]) := by
    unfold BitQueue.store
    rw [hb, pyGet_last _ _ _ hw]
    simp only [bind, Except.bind, hcb]
    exact pySet_last _ _ _ _ hw
  unfold BitQueue.enqueue
  simp only [hcr, bind, Except.bind]
  rw [if_neg (by omega)]
  simp only [hst, pure, Except.pure]

/-- Storing a group across the end of the last word. -/
theorem enqueue_straddles (q : BitQueue) (init : List Nat) (last v f : Nat) (hb : q.bytes = init ++ [last])
    (hw : q.eqWord = init.length) (he : q.eqBit < 32) (hs : q.wordSize ≤ 32) (hr : 32 < q.eqBit + q.wordSize)
    (hf : f + q.wordSize ≤ 32) :
    q.enqueue v f = .ok (BitQueue.bumpEq { q with
      bytes := init ++ [overlay last q.eqBit (bitsAt v f (32 - q.eqBit)),
        overlay 0 0 (bitsAt v f (q.eqBit + q.wordSize - 32))],
      eqWord := q.eqWord + 1, eqBit := 0 }) := by
  have hcr : checkRange 0 (f : Int) = .ok () := checkRange_ok (by omega) (by omega) (by omega)
  have hcb : copyBits v last (f : Int) ((f : Int) + max 0 (32 - (q.eqBit : Int) - 1)) q.eqBit
      = .ok (overlay last q.eqBit (bitsAt v f (32 - q.eqBit))) :=
    copyBits_overlay v last f q.eqBit (32 - q.eqBit) _ (by omega) (by omega) (by omega) (by omega)
  have hst : BitQueue.store q.bytes q.eqWord v (f : Int) ((f : Int) + max 0 (32 - (q.eqBit : Int) - 1)) q.eqBit
      = .ok (init ++ [overlay last q.eqBit (bitsAt v f (32 - q.eqBit))]) := by
    unfold BitQueue.store
    rw [hb, pyGet_last _ _ _ hw]
    simp only [bind, Except.bind, hcb]
    exact pySet_last _ _ _ _ hw
  have hcb2 : copyBits v 0 (f : Int) ((f : Int) + max 0 ((q.eqBit : Int) + q.wordSize - 32 - 1)) 0
      = .ok (overlay 0 0 (bitsAt v f (q.eqBit + q.wordSize - 32))) :=
    copyBits_overlay v 0 f 0 (q.eqBit + q.wordSize - 32) _ (by omega) (by omega) (by omega) (by omega)
  have hst2 : BitQueue.store ((init ++ [overlay last q.eqBit (bitsAt v f (32 - q.eqBit))]) ++ [0]) (q.eqWord + 1) v
      (f : Int) ((f : Int) + max 0 ((q.eqBit : Int) + q.wordSize - 32 - 1)) 0
      = .ok (init ++ [overlay last q.eqBit (bitsAt v f (32 - q.eqBit))] ++
          [overlay 0 0 (bitsAt v f (q.eqBit + q.wordSize - 32))]) := by
    unfold BitQueue.store
    rw [pyGet_last _ _ _ (by simp [hw])]
    simp only [bind, Except.bind, hcb2]
    exact pySet_last _ _ _ _ (by simp [hw])
  unfold BitQueue.enqueue
  simp only [hcr, bind, Except.bind]
  rw [if_pos (by omega)]
  simp only [hst, hst2, pure, Except.pure]
  simp

/-- Taking a group out of the first word. -/
theorem dequeue_fits (q : BitQueue) (b0 : Nat) (rest : List Nat) (v t : Nat) (hb : q.bytes = b0 :: rest)
    (hp : 0 < q.wordSize) (hr : q.dqBit + q.wordSize < 32) (ht : t + q.wordSize ≤ 32) :
    q.dequeue v t = .ok (overlay v t (bitsAt b0 q.dqBit q.wordSize), { q with dqBit := q.dqBit + q.wordSize }) := by
  have hcr : checkRange 0 (t : Int) = .ok () := checkRange_ok (by omega) (by omega) (by omega)
  have hget : pyGet q.bytes 0 = .ok b0 := by rw [hb]; simp [pyGet]
  unfold BitQueue.dequeue
  simp only [hcr, bind, Except.bind]
  rw [if_neg (by omega)]
  simp only [hget, copyBits_overlay b0 v q.dqBit t q.wordSize _ rfl hp (by omega) ht]
  unfold BitQueue.bumpDq
  simp only
  rw [if_neg (by omega)]
  rfl

/-- Taking a group across the end of the first word. -/
theorem dequeue_straddles (q : BitQueue) (b0 b1 : Nat) (rest : List Nat) (v t : Nat) (hb : q.bytes = b0 :: b1 :: rest)
    (he : q.dqBit < 32) (hs : q.wordSize ≤ 32) (hr : 32 < q.dqBit + q.wordSize) (ht : t + q.wordSize ≤ 32) :
    q.dequeue v t = .ok (overlay (overlay v t (bitsAt b0 q.dqBit (32 - q.dqBit))) t
        (bitsAt b1 0 (q.dqBit + q.wordSize - 32)),
      { q with bytes := b1 :: rest, eqWord := q.eqWord - 1, dqBit := q.dqBit + q.wordSize - 32 }) := by
  have hcr : checkRange 0 (t : Int) = .ok () := checkRange_ok (by omega) (by omega) (by omega)
  have hget : pyGet q.bytes 0 = .ok b0 := by rw [hb]; simp [pyGet]
  have hpop : pyPop0 q.bytes = .ok (b1 :: rest) := by rw [hb]; rfl
  have hget1 : pyGet (b1 :: rest) 0 = .ok b1 := by simp [pyGet]
  unfold BitQueue.dequeue
  simp only [hcr, bind, Except.bind]
  rw [if_pos (by omega)]
  simp only [hget, hpop, hget1]
  rw [copyBits_overlay b0 v q.dqBit t (32 - q.dqBit) _ (by omega) (by omega) (by omega) (by omega)]
  simp only
  have h2 := copyBits_overlay b1 (overlay v t (bitsAt b0 q.dqBit (32 - q.dqBit))) 0 t (q.dqBit + q.wordSize - 32)
    (0 + ((q.dqBit + q.wordSize - 32 : Nat) : Int) - 1) (by omega) (by omega) (by omega) (by omega)
  simp only [Nat.cast_zero] at h2
  rw [h2]
  simp only
  unfold BitQueue.bumpDq
  simp only
  rw [if_neg (by omega)]
  simp [pure, Except.pure]

/-- The group read or written by a client. -/
abbrev Spec.Put := Nat × Nat

theorem run_first_word (ws : Nat) (h1 : 1 ≤ ws) : ∀ (puts : List Put) (b n : Nat),
    (∀ p ∈ puts, p.2 + ws ≤ 32) → n * ws + puts.length * ws < 32 →
    ∃ b', runQueue ⟨[b], 0, n * ws, 0, ws⟩ (puts.map fun p => .enq p.1 p.2) =
        .ok ([], ⟨[b'], 0, (n + puts.length) * ws, 0, ws⟩) ∧
      bitsAt b' 0 ((n + puts.length) * ws) =
        bitsAt b 0 (n * ws) ++ puts.flatMap fun p => bitsAt p.1 p.2 ws := by
  intro puts
  induction puts with
  | nil => intro b n _ _; exact ⟨b, by simp [runQueue], by simp⟩
  | cons p puts ih =>
    intro b n hp hl
    have hlen : (p :: puts).length * ws = puts.length * ws + ws := by simp [Nat.add_mul]
    have hn1 : (n + 1) * ws = n * ws + ws := by rw [Nat.add_mul, Nat.one_mul]
    have he := enqueue_fits ⟨[b], 0, n * ws, 0, ws⟩ [] b p.1 p.2 rfl rfl h1 (by dsimp only; omega) (hp p (by simp))
    have hq : BitQueue.bumpEq ⟨[] ++ [overlay b (n * ws) (bitsAt p.1 p.2 ws)], 0, n * ws, 0, ws⟩ =
        ⟨[overlay b (n * ws) (bitsAt p.1 p.2 ws)], 0, (n + 1) * ws, 0, ws⟩ := by
      unfold BitQueue.bumpEq
      simp only
      rw [if_neg (by omega), hn1]
      rfl
    obtain ⟨b', h2, h3⟩ := ih (overlay b (n * ws) (bitsAt p.1 p.2 ws)) (n + 1)
      (fun p' h' => hp p' (by simp [h'])) (by omega)
    refine ⟨b', ?_, ?_⟩
    · simp only [List.map_cons, runQueue, bind, Except.bind]
      rw [he]
      simp only
      rw [hq, h2, List.length_cons, show n + (puts.length + 1) = n + 1 + puts.length by omega]
    · rw [List.length_cons, show n + (puts.length + 1) = n + 1 + puts.length by omega, h3, hn1, bitsAt_add,
        bitsAt_overlay_other _ _ _ _ _ (by left; omega), Nat.zero_add]
      have := bitsAt_overlay_self b (n * ws) (bitsAt p.1 p.2 ws)
      rw [length_bitsAt] at this
      rw [this]
      simp

theorem run_read_word (ws : Nat) (h1 : 1 ≤ ws) (b : Nat) (rest : List Nat) (ew : Int) (eb : Nat) :
    ∀ (puts gets : List Put) (n : Nat), gets.length = puts.length →
    (∀ p ∈ gets, p.2 + ws ≤ 32) → n * ws + puts.length * ws < 32 →
    bitsAt b (n * ws) (puts.length * ws) = (puts.flatMap fun p => bitsAt p.1 p.2 ws) →
    runQueue ⟨b :: rest, ew, eb, n * ws, ws⟩ (gets.map fun p => .deq p.1 p.2) =
      .ok (List.zipWith (fun p g => overlay g.1 g.2 (bitsAt p.1 p.2 ws)) puts gets,
        ⟨b :: rest, ew, eb, (n + puts.length) * ws, ws⟩) := by
  intro puts
  induction puts with
  | nil =>
    intro gets n hl _ _ _
    obtain rfl : gets = [] := List.length_eq_zero_iff.1 (by simpa using hl)
    simp [runQueue]
  | cons p puts ih =>
    intro gets n hl hg hn hb
    cases gets with
    | nil => simp at hl
    | cons g gets =>
      have hlen : (p :: puts).length * ws = ws + puts.length * ws := by simp [Nat.add_mul]; omega
      have hn1 : (n + 1) * ws = n * ws + ws := by rw [Nat.add_mul, Nat.one_mul]
      rw [hlen, bitsAt_add, List.flatMap_cons] at hb
      obtain ⟨hb1, hb2⟩ := List.append_inj hb (by simp)
      have hd := dequeue_fits ⟨b :: rest, ew, eb, n * ws, ws⟩ b rest g.1 g.2 rfl h1
        (by dsimp only; have : ws ∣ ws := dvd_rfl; omega) (hg g (by simp))
      have := ih gets (n + 1) (by simpa using hl) (fun p' h' => hg p' (by simp [h'])) (by omega)
        (by rw [hn1]; exact hb2)
      simp only [List.map_cons, runQueue, bind, Except.bind, pure, Except.pure]
      rw [hd]
      simp only
      rw [← hn1, this, hb1]
      simp only [List.zipWith_cons_cons, List.length_cons]
      rw [show n + (puts.length + 1) = n + 1 + puts.length by omega]

theorem overlay_overlay_bitsAt (v t x f a b : Nat) :
    overlay (overlay v t (bitsAt x f a)) t (bitsAt x f b) = overlay v t (bitsAt x f (max a b)) := by
  apply Nat.eq_of_testBit_eq
  intro i
  simp only [testBit_overlay, length_bitsAt]
  have hget : ∀ w, t ≤ i → i < t + w → (bitsAt x f w)[i - t]?.getD false = x.testBit (f + (i - t)) := by
    intro w h1 h2
    rw [List.getElem?_eq_getElem (by simp; omega), Option.getD_some, getElem_bitsAt]
  by_cases hb : t ≤ i ∧ i < t + b
  · rw [if_pos hb, if_pos (by omega), hget _ hb.1 hb.2, hget _ hb.1 (by omega)]
  · rw [if_neg hb]
    by_cases ha : t ≤ i ∧ i < t + a
    · rw [if_pos ha, if_pos (by omega), hget _ ha.1 ha.2, hget _ ha.1 (by omega)]
    · rw [if_neg ha, if_neg (by omega)]

theorem remainder_bounds {ws : Nat} (h1 : 1 ≤ ws) (hd : ¬ ws ∣ 32) :
    32 / ws * ws + 32 % ws = 32 ∧ 0 < 32 % ws ∧ 32 % ws < ws := by
  refine ⟨Nat.div_add_mod' 32 ws, ?_, Nat.mod_lt _ h1⟩
  rcases Nat.eq_zero_or_pos (32 % ws) with h | h
  · exact absurd (Nat.dvd_of_mod_eq_zero h) hd
  · exact h

/-- The state after a word was filled and one group was put across its end. -/
theorem run_to_straddle (ws : Nat) (h1 : 1 ≤ ws) (h2 : ws ≤ 32) (hd : ¬ ws ∣ 32) (puts : List Put) (x : Put)
    (hl : puts.length = 32 / ws) (hp : ∀ p ∈ puts, p.2 + ws ≤ 32) (hx : x.2 + ws ≤ 32) :
    ∃ b, runQueue (BitQueue.new ws) (puts.map (fun p => .enq p.1 p.2) ++ [.enq x.1 x.2]) =
        .ok ([], ⟨[b, overlay 0 0 (bitsAt x.1 x.2 (ws - 32 % ws))], 1, ws, 0, ws⟩) ∧
      bitsAt b 0 (puts.length * ws) = (puts.flatMap fun p => bitsAt p.1 p.2 ws) ∧
      bitsAt b (puts.length * ws) (32 % ws) = bitsAt x.1 x.2 (32 % ws) := by
  obtain ⟨hr1, hr2, hr3⟩ := remainder_bounds h1 hd
  have hws : ws < 32 := by
    rcases Nat.lt_or_ge ws 32 with h | h
    · exact h
    · exact absurd (by rw [show ws = 32 by omega]) hd
  obtain ⟨b, ha, hb⟩ := run_first_word ws h1 puts 0 0 hp (by rw [hl]; omega)
  simp only [Nat.zero_mul, Nat.zero_add] at ha hb
  have hk : 32 - puts.length * ws = 32 % ws := by rw [hl]; omega
  have he := enqueue_straddles ⟨[b], 0, puts.length * ws, 0, ws⟩ [] b x.1 x.2 rfl rfl
    (by dsimp only; rw [hl]; omega) h2 (by dsimp only; rw [hl]; omega) hx
  simp only [List.nil_append, hk] at he
  refine ⟨overlay b (puts.length * ws) (bitsAt x.1 x.2 (32 % ws)), ?_, ?_, ?_⟩
  · rw [runQueue_append]
    unfold BitQueue.new
    rw [ha]
    simp only [runQueue, bind, Except.bind]
    rw [he]
    unfold BitQueue.bumpEq
    simp only [Nat.zero_add]
    rw [if_neg (by omega), show puts.length * ws + ws - 32 = ws - 32 % ws by rw [hl]; omega]
    simp
  · rw [bitsAt_overlay_other _ _ _ _ _ (by left; omega), hb]
    simp [bitsAt]
  · have := bitsAt_overlay_self b (puts.length * ws) (bitsAt x.1 x.2 (32 % ws))
    rwa [length_bitsAt] at this

/-- **C08, how it fails.**  For a word size that does not divide 32, put in as many
groups as a word holds and one more, and take them all out again.  The groups that fit
come back.  The group across the end of the word is stored from its beginning on both
sides, so that of it only the first `max (32 % ws) (ws - 32 % ws)` bits come back; the
remaining bits of the destination are left as they are. -/
theorem C08_straddle_exact (ws : Nat) (h1 : 1 ≤ ws) (h2 : ws ≤ 32) (hd : ¬ ws ∣ 32) (puts gets : List Put) (x y : Put)
    (hl : puts.length = 32 / ws) (hl' : gets.length = 32 / ws) (hp : ∀ p ∈ puts, p.2 + ws ≤ 32)
    (hg : ∀ p ∈ gets, p.2 + ws ≤ 32) (hx : x.2 + ws ≤ 32) (hy : y.2 + ws ≤ 32) :
    ∃ q, runQueue (BitQueue.new ws)
      (puts.map (fun p => .enq p.1 p.2) ++ [.enq x.1 x.2] ++ (gets.map (fun p => .deq p.1 p.2) ++ [.deq y.1 y.2])) =
      .ok (List.zipWith (fun p g => overlay g.1 g.2 (bitsAt p.1 p.2 ws)) puts gets ++
        [overlay y.1 y.2 ((bitsAt x.1 x.2 ws).take (max (32 % ws) (ws - 32 % ws)))], q) := by
  obtain ⟨hr1, hr2, hr3⟩ := remainder_bounds h1 hd
  obtain ⟨b, ha, hb, hb'⟩ := run_to_straddle ws h1 h2 hd puts x hl hp hx
  have hread := run_read_word ws h1 b [overlay 0 0 (bitsAt x.1 x.2 (ws - 32 % ws))] 1 ws puts gets 0
    (by omega) hg (by rw [hl]; omega) (by simpa using hb)
  simp only [Nat.zero_mul, Nat.zero_add] at hread
  have hdq := dequeue_straddles ⟨[b, overlay 0 0 (bitsAt x.1 x.2 (ws - 32 % ws))], 1, ws, puts.length * ws, ws⟩
    b _ [] y.1 y.2 rfl (by dsimp only; rw [hl]; omega) h2 (by dsimp only; rw [hl]; omega) hy
  simp only at hdq
  have hself := bitsAt_overlay_self 0 0 (bitsAt x.1 x.2 (ws - 32 % ws))
  rw [length_bitsAt] at hself
  rw [show 32 - puts.length * ws = 32 % ws by rw [hl]; omega,
    show puts.length * ws + ws - 32 = ws - 32 % ws by rw [hl]; omega, hb', hself, overlay_overlay_bitsAt] at hdq
  have htake : (bitsAt x.1 x.2 ws).take (max (32 % ws) (ws - 32 % ws)) =
      bitsAt x.1 x.2 (max (32 % ws) (ws - 32 % ws)) := by
    have e : ws = max (32 % ws) (ws - 32 % ws) + (ws - max (32 % ws) (ws - 32 % ws)) := by omega
    conv_lhs => rw [e, bitsAt_add]
    rw [List.take_left' (by rw [length_bitsAt, ← e])]
  refine ⟨⟨[overlay 0 0 (bitsAt x.1 x.2 (ws - 32 % ws))], 1 - 1, ws, ws - 32 % ws, ws⟩, ?_⟩
  rw [runQueue_append, ha]
  simp only
  rw [runQueue_append, hread]
  simp only [runQueue, bind, Except.bind, pure, Except.pure]
  rw [hdq, htake]
  simp only [List.nil_append]

/-- **C08, and after it.**  The next group is stored after a gap of `32 % ws` bits that
are zero; the reader does not know of the gap, so what comes back is `32 % ws` zeros and
then the first bits of the group. -/
theorem C08_after_straddle (ws : Nat) (h1 : 1 ≤ ws) (h2 : ws < 16) (hd : ¬ ws ∣ 32) (puts gets : List Put)
    (x x' y y' : Put) (hl : puts.length = 32 / ws) (hl' : gets.length = 32 / ws) (hp : ∀ p ∈ puts, p.2 + ws ≤ 32)
    (hg : ∀ p ∈ gets, p.2 + ws ≤ 32) (hx : x.2 + ws ≤ 32) (hx' : x'.2 + ws ≤ 32) (hy : y.2 + ws ≤ 32)
    (hy' : y'.2 + ws ≤ 32) :
    ∃ q, runQueue (BitQueue.new ws)
      (puts.map (fun p => .enq p.1 p.2) ++ [.enq x.1 x.2] ++ ([.enq x'.1 x'.2] ++
        (gets.map (fun p => .deq p.1 p.2) ++ [.deq y.1 y.2, .deq y'.1 y'.2]))) =
      .ok (List.zipWith (fun p g => overlay g.1 g.2 (bitsAt p.1 p.2 ws)) puts gets ++
        [overlay y.1 y.2 ((bitsAt x.1 x.2 ws).take (max (32 % ws) (ws - 32 % ws))),
         overlay y'.1 y'.2 (List.replicate (32 % ws) false ++ (bitsAt x'.1 x'.2 ws).take (ws - 32 % ws))], q) := by
  obtain ⟨hr1, hr2, hr3⟩ := remainder_bounds h1 hd
  obtain ⟨b, ha, hb, hb'⟩ := run_to_straddle ws h1 (by omega) hd puts x hl hp hx
  have hfit := enqueue_fits ⟨[b, overlay 0 0 (bitsAt x.1 x.2 (ws - 32 % ws))], 1, ws, 0, ws⟩ [b]
    (overlay 0 0 (bitsAt x.1 x.2 (ws - 32 % ws))) x'.1 x'.2 rfl rfl h1 (by dsimp only; omega) hx'
  have hbump : BitQueue.bumpEq ⟨[b] ++ [overlay (overlay 0 0 (bitsAt x.1 x.2 (ws - 32 % ws))) ws (bitsAt x'.1 x'.2 ws)],
      1, ws, 0, ws⟩ =
      ⟨[b, overlay (overlay 0 0 (bitsAt x.1 x.2 (ws - 32 % ws))) ws (bitsAt x'.1 x'.2 ws)], 1, ws + ws, 0, ws⟩ := by
    unfold BitQueue.bumpEq
    simp only
    rw [if_neg (by omega)]
    rfl
  generalize hb1 : overlay (overlay 0 0 (bitsAt x.1 x.2 (ws - 32 % ws))) ws (bitsAt x'.1 x'.2 ws) = b1 at hfit hbump
  have hread := run_read_word ws h1 b [b1] 1 (ws + ws) puts gets 0
    (by omega) hg (by rw [hl]; omega) (by simpa using hb)
  simp only [Nat.zero_mul, Nat.zero_add] at hread
  have hdq := dequeue_straddles ⟨[b, b1], 1, ws + ws, puts.length * ws, ws⟩
    b b1 [] y.1 y.2 rfl (by dsimp only; rw [hl]; omega) (by dsimp only; omega) (by dsimp only; rw [hl]; omega) hy
  simp only at hdq
  have hself : bitsAt b1 0 (ws - 32 % ws) = bitsAt x.1 x.2 (ws - 32 % ws) := by
    have := bitsAt_overlay_self 0 0 (bitsAt x.1 x.2 (ws - 32 % ws))
    rw [length_bitsAt] at this
    rw [← hb1, bitsAt_overlay_other _ _ _ _ _ (by left; omega), this]
  rw [show 32 - puts.length * ws = 32 % ws by rw [hl]; omega,
    show puts.length * ws + ws - 32 = ws - 32 % ws by rw [hl]; omega, hb', hself, overlay_overlay_bitsAt] at hdq
  have hdq2 := dequeue_fits ⟨[b1], 0, ws + ws, ws - 32 % ws, ws⟩ b1 [] y'.1 y'.2 rfl h1 (by dsimp only; omega) hy'
  simp only at hdq2
  have hgap : bitsAt b1 (ws - 32 % ws) ws =
      List.replicate (32 % ws) false ++ (bitsAt x'.1 x'.2 ws).take (ws - 32 % ws) := by
    have e : ws = 32 % ws + (ws - 32 % ws) := by omega
    have e1 : bitsAt b1 (ws - 32 % ws) (32 % ws) = List.replicate (32 % ws) false := by
      rw [← hb1, bitsAt_overlay_other _ _ _ _ _ (by left; omega),
        bitsAt_overlay_other _ _ _ _ _ (by right; simp), bitsAt_zero_val]
    have e2 : bitsAt b1 ws (ws - 32 % ws) = (bitsAt x'.1 x'.2 ws).take (ws - 32 % ws) := by
      have := bitsAt_overlay_self (overlay 0 0 (bitsAt x.1 x.2 (ws - 32 % ws))) ws (bitsAt x'.1 x'.2 ws)
      rw [length_bitsAt, hb1] at this
      rw [← this]
      have e' : ws = (ws - 32 % ws) + 32 % ws := by omega
      have hh := bitsAt_add b1 ws (ws - 32 % ws) (32 % ws)
      rw [← e'] at hh
      rw [hh, List.take_left' (by simp)]
    have hh := bitsAt_add b1 (ws - 32 % ws) (32 % ws) (ws - 32 % ws)
    rw [← e, show ws - 32 % ws + 32 % ws = ws by omega] at hh
    rw [hh, e1, e2]
  have htake : (bitsAt x.1 x.2 ws).take (max (32 % ws) (ws - 32 % ws)) =
      bitsAt x.1 x.2 (max (32 % ws) (ws - 32 % ws)) := by
    have e : ws = max (32 % ws) (ws - 32 % ws) + (ws - max (32 % ws) (ws - 32 % ws)) := by omega
    conv_lhs => rw [e, bitsAt_add]
    rw [List.take_left' (by rw [length_bitsAt, ← e])]
  refine ⟨⟨[b1], 0, ws + ws, ws - 32 % ws + ws, ws⟩, ?_⟩
  rw [runQueue_append, ha]
  simp only [List.cons_append, List.nil_append, runQueue, bind, Except.bind]
  rw [hfit]
  simp only [bind, Except.bind]
  rw [hbump, runQueue_append, hread]
  simp only [runQueue, bind, Except.bind, pure, Except.pure]
  rw [hdq]
  simp only [Int.sub_self]
  rw [hdq2, htake, hgap]

/-- Groups of five bits: six fit, the seventh loses its last two bits, and the eighth is
moved up by two. -/
example : (runQueue (BitQueue.new 5)
    ((List.replicate 6 (.enq 21 0) ++ [.enq 31 0, .enq 31 0]) ++ (List.replicate 8 (.deq 0 0)))).toOption.map
      (fun r => r.1) = some [21, 21, 21, 21, 21, 21, 7, 28] := by decide +kernel

end Verif
