import Verif.Proof.ForwardBuilder

/-! # Properties C48 and C49: forward construction of a solution -/

namespace Verif
open Spec

/-! ### C48 -/

/-- What the user supplies: the original program with distinct addresses, and
candidates for some of these addresses that contain the original instruction.
A candidate printed like the original answers like it, and the registers of an
instruction are among its storages. -/
structure Corrupted (orig : List (Nat × FInst)) (program : List (Nat × List FInst)) : Prop where
  addrs : (orig.map (·.1)).Nodup
  keys : (program.map (·.1)).Nodup
  known : ∀ a pa, (a, pa) ∈ program → ∃ o, (a, o) ∈ orig ∧ o ∈ pa
  alike : ∀ a pa o, (a, pa) ∈ program → (a, o) ∈ orig → ∀ c ∈ pa, c.str = o.str → Alike c o
  regs : ∀ a o, (a, o) ∈ orig → ∀ r ∈ o.regs, r ∈ o.meta.used

theorem Corrupted.fwdOk {orig : List (Nat × FInst)} {program : List (Nat × List FInst)}
    (h : Corrupted orig program) : FwdOk (dictGet orig) program where
  nodup := h.keys
  contains a pa hp := by
    obtain ⟨o, h1, h2⟩ := h.known a pa (dictGet_mem hp)
    exact ⟨o, dictGet_of_mem h.addrs h1, h2⟩
  alike a pa o hp ho := h.alike a pa o (dictGet_mem hp) (dictGet_mem ho)
  regs a o ho := h.regs a o (dictGet_mem ho)

theorem need_le {K : Type} [DecidableEq K] (g : MInst → List K) {orig : List (Nat × FInst)}
    {as : List Nat} (hn : (orig.map (·.1)).Nodup) (ha : as.Nodup) (hs : as ⊆ orig.map (·.1)) (k : K) :
    need g (dictGet orig) as k ≤
      ((defined (orig.map (·.2.meta))).map fun i => (g i).count k).sum := by
  obtain ⟨l, hp, hsub⟩ := List.subperm_of_subset ha hs
  rw [← need_perm g (dictGet orig) hp, ← sum_defined, List.map_map]
  have e : need g (dictGet orig) (orig.map (·.1)) k = (orig.map
      ((fun i : MInst => if i.ignore then 0 else (g i).count k) ∘ fun x => x.2.meta)).sum := by
    unfold need
    rw [List.map_map]
    congr 1
    apply List.map_congr_left
    intro p hpm
    simp only [Function.comp]
    rw [dictGet_of_mem hn (show (p.1, p.2) ∈ orig from hpm)]
  rw [← e]
  exact List.Sublist.sum_le_sum (hsub.map _) (by simp)

theorem Corrupted.covered {orig : List (Nat × FInst)} {program : List (Nat × List FInst)}
    (h : Corrupted orig program) :
    Covered (budgetOf (orig.map (·.2))) (dictGet orig) (program.map (·.1)) := by
  have hs : program.map (·.1) ⊆ orig.map (·.1) := by
    intro a ha
    obtain ⟨p, hp, rfl⟩ := List.mem_map.1 ha
    obtain ⟨o, ho, _⟩ := h.known p.1 p.2 hp
    exact List.mem_map.2 ⟨_, ho, rfl⟩
  obtain ⟨c1, c2, c3, _, _⟩ := C35_counts ((orig.map (·.2)).map (·.meta))
  have hl := fun {K : Type} [DecidableEq K] (g : MInst → List K) (k : K) =>
    need_le g h.addrs h.keys hs k
  have one : ∀ {L : Type} [DecidableEq L] (g : MInst → L) (k : L) (l : List MInst),
      (l.map fun i => [g i].count k).sum = l.countP fun x => decide (g x = k) := by
    intro L _ g k l
    rw [← countP_sum]
    congr 1
    apply List.map_congr_left
    intro i _
    simp [List.count_singleton]
  have em : (orig.map (·.2)).map (·.meta) = orig.map (·.2.meta) := by rw [List.map_map]; rfl
  rw [em] at c1 c2 c3
  unfold budgetOf
  simp only [em]
  constructor
  · intro k hk
    have h1 := hl (fun x => [x.opcode]) k
    rw [one] at h1
    refine ⟨_, by rw [dictGet_asInt, c2 k, if_neg (by omega)]; rfl, by simpa using h1⟩
  · intro k hk
    have h1 := hl (fun x => [x.cond]) k
    rw [one] at h1
    refine ⟨_, by rw [dictGet_asInt, c1 k, if_neg (by omega)]; rfl, by simpa using h1⟩
  · intro k hk
    have h1 := hl MInst.used k
    refine ⟨_, by rw [dictGet_asInt, c3 k, if_neg (by omega)]; rfl, by simpa using h1⟩

/-- What a finished construction has done. -/
structure Finished {σ : Type} (orig : List (Nat × FInst)) (program : List (Nat × List FInst))
    (s : FwdSt σ) : Prop where
  /-- every address was visited exactly once -/
  once : (s.log.map (·.addr)).Perm (program.map (·.1))
  /-- the candidates left are some of the candidates given, at every address -/
  shrunk : ∀ a pa, (a, pa) ∈ program → ∃ pa', dictGet s.program a = some pa' ∧ pa'.Sublist pa
  /-- no original was removed -/
  kept : ∀ a pa o, (a, pa) ∈ program → (a, o) ∈ orig → o.meta.ignore = false →
    ∃ pa', dictGet s.program a = some pa' ∧ o ∈ pa'
  /-- each address of a defined original was resolved to a candidate printed like it -/
  resolved : ∀ v ∈ s.log, ∀ o, (v.addr, o) ∈ orig → o.meta.ignore = false →
    v.skipped = false ∧ ∃ pa' c, dictGet s.program v.addr = some pa' ∧ pa'[v.index]? = some c ∧
      c.str = o.str ∧ v.ln = pa'.length

theorem finished {σ : Type} {orig : List (Nat × FInst)} {program : List (Nat × List FInst)}
    (h : Corrupted orig program) {Q : σ → List Visit → Prop} {s : FwdSt σ}
    (hi : FwdInv (dictGet orig) program Q s) (he : s.addresses = []) : Finished orig program s where
  once := by have := hi.perm; rwa [he, List.append_nil] at this
  shrunk a pa hp := by
    have hm : a ∈ s.program.map (·.1) := by rw [hi.keys]; exact List.mem_map.2 ⟨_, hp, rfl⟩
    obtain ⟨pa', hpa'⟩ := Option.isSome_iff_exists.1 ((dictGet_isSome _ _).2 hm)
    obtain ⟨pa0, h1, h2⟩ := hi.sub a pa' hpa'
    rw [dictGet_of_mem h.keys hp] at h1
    cases h1
    exact ⟨pa', hpa', h2⟩
  kept a pa o hp ho hig := by
    have hm : a ∈ s.program.map (·.1) := by rw [hi.keys]; exact List.mem_map.2 ⟨_, hp, rfl⟩
    obtain ⟨pa', hpa'⟩ := Option.isSome_iff_exists.1 ((dictGet_isSome _ _).2 hm)
    exact ⟨pa', hpa', hi.kept a pa' o hpa' (dictGet_of_mem h.addrs ho) hig⟩
  resolved v hv o ho hig := by
    obtain ⟨pa, o', h1, h2, h3, h4, h5⟩ := hi.log v hv
    rw [dictGet_of_mem h.addrs ho] at h2
    cases h2
    have hsk : v.skipped = false := by
      rw [← Bool.not_eq_true, h4]; simp [hig]
    obtain ⟨c, h6, h7⟩ := h5 hsk
    exact ⟨hsk, pa, c, h1, h6, h7, h3⟩

/-- The number the enumerator should reach: the product of the indexes plus one. -/
def enumNumber (log : List Visit) : Nat :=
  ((log.filter fun v => !v.skipped && decide (1 < v.ln)).map fun v => v.index + 1).prod

theorem enum_handles (bound : Nat) :
    Handles enumBuilder bound (fun s log => s = enumNumber log) := by
  constructor
  · intro s l v hq hv
    rw [hq]
    unfold enumNumber
    rw [List.filter_append]
    have : ([v].filter fun v => !v.skipped && decide (1 < v.ln)) = [] := by
      rw [List.filter_eq_nil_iff]
      intro x hx
      simp only [List.mem_singleton] at hx
      subst hx
      rcases hv with hv | hv
      · simp [hv]
      · simp; intro _; omega
    rw [this, List.append_nil]
  · intro s l a pa o i hq hl _ hf
    refine ⟨s * (i + 1), rfl, ?_⟩
    show s * (i + 1) = enumNumber _
    rw [hq]
    unfold enumNumber
    rw [List.filter_append]
    simp [hl]

/-- C48 for the enumerator: the construction ends without an exception, visits
every address exactly once, keeps every defined original, resolves every address
to it, and its number is the product of the indexes plus one. -/
theorem C48_enumerator (orig : List (Nat × FInst)) (program : List (Nat × List FInst))
    (h : Corrupted orig program) (fuel : Nat) (hf : program.length < fuel) :
    ∃ s, fwdBuild enumBuilder (dictGet orig) fuel program (budgetOf (orig.map (·.2))) 1
        = some (.ok s) ∧ Finished orig program s ∧ s.sol = enumNumber s.log := by
  obtain ⟨B, hB⟩ : ∃ B, ∀ a pa, dictGet program a = some pa → pa.length ≤ B := by
    refine ⟨(program.map fun p => p.2.length).sum, fun a pa hp => ?_⟩
    exact List.single_le_sum (by simp) _
      (List.mem_map.2 ⟨_, dictGet_mem hp, rfl⟩)
  obtain ⟨s, h1, h2, h3⟩ := fwdBuild_inv (B := enumBuilder) h.fwdOk hB (enum_handles _) _ h.covered
    (1 : Nat) rfl fuel hf
  exact ⟨s, h1, finished h h2 h3, h2.sol⟩

/-! ### The queue -/

/-- The queue fields stay in step. -/
structure QShape (q : BitQueue) : Prop where
  bit : q.eqBit ≤ 31
  word : q.eqWord + 1 = q.bytes.length
  pos : 0 ≤ q.eqWord

theorem store_ok {bytes : List Nat} {i : Int} (hi : i + 1 = bytes.length) (h0 : bytes ≠ [])
    (value : Nat) {a b d : Int} (h1 : 0 ≤ a) (h2 : a ≤ b) (h3 : b < 32) (h4 : 0 ≤ d)
    (h5 : d + (b - a) < 32) :
    ∃ bs, BitQueue.store bytes i value a b d = .ok bs ∧ bs.length = bytes.length := by
  obtain ⟨init, last, rfl⟩ : ∃ init last, bytes = init ++ [last] :=
    ⟨_, _, (List.dropLast_concat_getLast h0).symm⟩
  have hi' : i = init.length := by simp at hi; omega
  obtain ⟨r, hr⟩ : ∃ r, copyBits value last a b d = .ok r := by
    unfold copyBits
    simp only [bind, Except.bind, checkRange_ok h2 h1 h3,
      checkRange_ok (show d ≤ d + (b - a) by omega) h4 h5,
      bitsSet_ok (show d ≤ d + (b - a) by omega) h4 h5]
    split <;> exact ⟨_, rfl⟩
  refine ⟨init ++ [r], ?_, by simp⟩
  unfold BitQueue.store
  simp only [pyGet_last _ _ _ hi', bind, Except.bind, hr, pySet_last _ _ _ _ hi']

theorem QShape.enqueue {q : BitQueue} (h : QShape q) (v : Nat) (h1 : 1 ≤ q.wordSize)
    (h2 : q.wordSize ≤ 32) : ∃ q', q.enqueue v 0 = .ok q' ∧ QShape q' := by
  have hb := h.bit
  have hw := h.word
  have hpos := h.pos
  have hne : q.bytes ≠ [] := by intro hc; rw [hc] at hw; simp at hw; omega
  unfold BitQueue.enqueue
  simp only [bind, Except.bind, checkRange_ok (show (0 : Int) ≤ 0 by omega) (by omega) (by omega)]
  by_cases hs : (q.eqBit : Int) + q.wordSize - 1 > 31
  · rw [if_pos hs]
    obtain ⟨b1, e1, l1⟩ := store_ok hw hne v (a := 0) (b := 0 + max 0 (32 - (q.eqBit : Int) - 1))
      (d := q.eqBit) (by omega) (by omega) (by omega) (by omega) (by omega)
    obtain ⟨b2, e2, l2⟩ := store_ok (bytes := b1 ++ [0]) (i := q.eqWord + 1)
      (by simp [l1]; omega) (by simp) v (a := 0)
      (b := 0 + max 0 ((q.eqBit : Int) + q.wordSize - 32 - 1)) (d := 0)
      (by omega) (by omega) (by omega) (by omega) (by omega)
    simp only [e1, e2, pure, Except.pure]
    refine ⟨_, rfl, ?_⟩
    unfold BitQueue.bumpEq
    simp only
    split
    · constructor
      · simp only; omega
      · simp [l2, l1]; omega
      · simp only; omega
    · constructor
      · simp only; omega
      · simp [l2, l1]; omega
      · simp only; omega
  · rw [if_neg hs]
    obtain ⟨b1, e1, l1⟩ := store_ok hw hne v (a := 0) (b := max 0 (0 + (q.wordSize : Int) - 1))
      (d := q.eqBit) (by omega) (by omega) (by omega) (by omega) (by omega)
    simp only [e1, pure, Except.pure]
    refine ⟨_, rfl, ?_⟩
    unfold BitQueue.bumpEq
    simp only
    split
    · constructor
      · simp only; omega
      · simp [l1]; omega
      · simp only; omega
    · constructor
      · simp only; omega
      · simp [l1]; omega
      · simp only; omega

/-- A group that fits into the current word is appended to the stream. -/
theorem QShape.enqueue_room {q : BitQueue} (h : QShape q) (v : Nat) (h1 : 1 ≤ q.wordSize)
    (h2 : q.eqBit + q.wordSize ≤ 32) (pre : List Bool)
    (hs : stream q.bytes = pre ++ List.replicate (32 - q.eqBit) false) :
    ∃ q', q.enqueue v 0 = .ok q' ∧ QShape q' ∧ q'.eqBit = (q.eqBit + q.wordSize) % 32 ∧
      stream q'.bytes = pre ++ bitsAt v 0 q.wordSize ++ List.replicate (32 - q'.eqBit) false := by
  have hb := h.bit
  have hw := h.word
  have hpos := h.pos
  have hne : q.bytes ≠ [] := by intro hc; rw [hc] at hw; simp at hw; omega
  obtain ⟨init, last, hbl⟩ : ∃ init last, q.bytes = init ++ [last] :=
    ⟨_, _, (List.dropLast_concat_getLast hne).symm⟩
  have hil : q.eqWord = init.length := by rw [hbl] at hw; simp at hw; omega
  have hcb : copyBits v last ((0 : Nat) : Int) (max 0 (0 + (q.wordSize : Int) - 1)) q.eqBit
      = .ok (overlay last q.eqBit (bitsAt v 0 q.wordSize)) :=
    copyBits_overlay v last 0 q.eqBit q.wordSize _ (by omega) h1 (by omega) h2
  have hst : BitQueue.store q.bytes q.eqWord v 0 (max 0 (0 + (q.wordSize : Int) - 1)) q.eqBit
      = .ok (init ++ [overlay last q.eqBit (bitsAt v 0 q.wordSize)]) := by
    unfold BitQueue.store
    rw [hbl, pyGet_last _ _ _ hil]
    simp only [bind, Except.bind]
    rw [show (0 : Int) = ((0 : Nat) : Int) from rfl] at *
    rw [hcb]
    exact pySet_last _ _ _ _ hil
  have hsplit : stream init ++ bitsAt last 0 q.eqBit = pre ∧
      bitsAt last q.eqBit (32 - q.eqBit) = List.replicate (32 - q.eqBit) false := by
    have e : bitsAt last 0 32 = bitsAt last 0 q.eqBit ++ bitsAt last q.eqBit (32 - q.eqBit) := by
      have := bitsAt_add last 0 q.eqBit (32 - q.eqBit)
      rw [Nat.zero_add] at this
      rw [← this]; congr 1; omega
    rw [hbl, stream_append, stream_cons, stream_nil, List.append_nil, e, ← List.append_assoc] at hs
    exact List.append_inj' hs (by simp)
  have hnew : stream (init ++ [overlay last q.eqBit (bitsAt v 0 q.wordSize)])
      = pre ++ bitsAt v 0 q.wordSize ++ List.replicate (32 - (q.eqBit + q.wordSize)) false := by
    have h32 : 32 = q.eqBit + (q.wordSize + (32 - (q.eqBit + q.wordSize))) := by omega
    rw [stream_append, stream_cons, stream_nil, List.append_nil]
    conv_lhs => rw [h32]
    rw [bitsAt_add, bitsAt_add, Nat.zero_add]
    have e1 : bitsAt (overlay last q.eqBit (bitsAt v 0 q.wordSize)) 0 q.eqBit = bitsAt last 0 q.eqBit :=
      bitsAt_overlay_other _ _ _ _ _ (by left; omega)
    have e2 : bitsAt (overlay last q.eqBit (bitsAt v 0 q.wordSize)) q.eqBit q.wordSize
        = bitsAt v 0 q.wordSize := by
      have := bitsAt_overlay_self last q.eqBit (bitsAt v 0 q.wordSize)
      rwa [length_bitsAt] at this
    have e3 : bitsAt (overlay last q.eqBit (bitsAt v 0 q.wordSize)) (q.eqBit + q.wordSize)
        (32 - (q.eqBit + q.wordSize)) = List.replicate (32 - (q.eqBit + q.wordSize)) false := by
      rw [bitsAt_overlay_other _ _ _ _ _ (by right; simp)]
      have e := bitsAt_add last q.eqBit q.wordSize (32 - (q.eqBit + q.wordSize))
      rw [show q.wordSize + (32 - (q.eqBit + q.wordSize)) = 32 - q.eqBit by omega, hsplit.2] at e
      have := congrArg (List.drop q.wordSize) e
      rw [List.drop_append_of_le_length (by simp)] at this
      simp only [List.drop_replicate] at this
      rw [List.drop_eq_nil_of_le (by simp), List.nil_append] at this
      rw [← this]; congr 1; omega
    rw [e1, e2, e3, ← List.append_assoc, hsplit.1, List.append_assoc]
  refine ⟨BitQueue.bumpEq { q with bytes := init ++ [overlay last q.eqBit (bitsAt v 0 q.wordSize)] },
    ?_, ?_⟩
  · unfold BitQueue.enqueue
    simp only [checkRange_ok (show (0 : Int) ≤ 0 by omega) (by omega) (by omega), bind, Except.bind]
    rw [if_neg (by omega)]
    simp only [hst, pure, Except.pure]
  · unfold BitQueue.bumpEq
    simp only
    by_cases hfull : q.eqBit + q.wordSize > 31
    · rw [if_pos hfull]
      have heq : q.eqBit + q.wordSize = 32 := by omega
      refine ⟨⟨by simp [heq], by simp; omega, by simp only; omega⟩, by simp [heq], ?_⟩
      simp only [heq, Nat.sub_self, Nat.sub_zero]
      rw [stream_append, hnew, heq]
      simp [bitsAt_zero_val]
    · rw [if_neg hfull]
      refine ⟨⟨by simp only; omega, by simp; omega, by simp only; omega⟩, ?_, by simpa using hnew⟩
      simp only
      rw [Nat.mod_eq_of_lt (by omega)]

/-- The visits that put bits into the queue, as numbers of bits and indexes. -/
def groupsOf (log : List Visit) : List (Nat × Nat) :=
  (log.filter fun v => !v.skipped && decide (1 < v.ln)).map fun v => (Nat.log 2 v.ln, v.index)

/-- No group crosses the boundary of a 32-bit word. -/
def NoStraddle (gs : List (Nat × Nat)) : Prop :=
  ∀ pre g post, gs = pre ++ g :: post → ((pre.map (·.1)).sum) % 32 + g.1 ≤ 32

theorem NoStraddle.init {gs : List (Nat × Nat)} {g : Nat × Nat} (h : NoStraddle (gs ++ [g])) :
    NoStraddle gs := by
  intro pre x post he
  exact h pre x (post ++ [g]) (by rw [he]; simp)

/-- The state of the queue builder goes with the visits. -/
def QueueFits (s : BitQueue × Nat) (log : List Visit) : Prop :=
  QShape s.1 ∧ s.2 = ((groupsOf log).map (·.1)).sum ∧
  (NoStraddle (groupsOf log) →
    s.1.eqBit = ((groupsOf log).map (·.1)).sum % 32 ∧
    stream s.1.bytes = ((groupsOf log).flatMap fun g => bitsAt g.2 0 g.1) ++
      List.replicate (32 - s.1.eqBit) false)

theorem queue_handles : Handles queueBuilder (2 ^ 32) QueueFits := by
  constructor
  · intro s l v hq hv
    have : groupsOf (l ++ [v]) = groupsOf l := by
      unfold groupsOf
      rw [List.filter_append]
      have : ([v].filter fun v => !v.skipped && decide (1 < v.ln)) = [] := by
        rw [List.filter_eq_nil_iff]
        intro x hx
        simp only [List.mem_singleton] at hx
        subst hx
        rcases hv with hv | hv
        · simp [hv]
        · simp; intro _; omega
      rw [this, List.append_nil]
    unfold QueueFits
    rw [this]
    exact hq
  · intro s l a pa o i hq hl hb hf
    have hg : groupsOf (l ++ [⟨a, i, pa.length, false⟩]) = groupsOf l ++ [(Nat.log 2 pa.length, i)] := by
      unfold groupsOf
      rw [List.filter_append]
      simp [hl]
    have h1 : 1 ≤ Nat.log 2 pa.length := Nat.log_pos (by omega) (by omega)
    have h2 : Nat.log 2 pa.length ≤ 32 := by
      have := Nat.log_mono_right (b := 2) hb
      rwa [Nat.log_pow (by omega)] at this
    obtain ⟨q1, q2, q3⟩ := hq
    have hsh : QShape { s.1 with wordSize := Nat.log 2 pa.length } := ⟨q1.bit, q1.word, q1.pos⟩
    obtain ⟨q', e1, e2⟩ := hsh.enqueue i h1 h2
    refine ⟨(q', s.2 + Nat.log 2 pa.length), ?_, e2, ?_, ?_⟩
    · unfold queueBuilder
      simp only [hl, if_true, hf, bind, Except.bind, e1, pure, Except.pure]
    · rw [hg]; simp [q2]
    · intro hn
      rw [hg] at hn
      obtain ⟨g1, g2⟩ := q3 hn.init
      have hroom := hn (groupsOf l) (Nat.log 2 pa.length, i) [] rfl
      simp only at hroom
      rw [← g1] at hroom
      obtain ⟨q'', f1, _, f3, f4⟩ := hsh.enqueue_room i h1 hroom _ g2
      rw [e1] at f1
      cases f1
      simp only at f3 f4 ⊢
      rw [hg]
      refine ⟨?_, ?_⟩
      · rw [f3, g1]; simp
      · rw [f4]; simp

/-- C48 for the builder of a bit queue: with at most 2^32 candidates per
address the construction ends without an exception, visits every address
exactly once, removes nothing and resolves every address to the original; the
solution size is the total of the truncated logarithms. -/
theorem C48_queue (orig : List (Nat × FInst)) (program : List (Nat × List FInst))
    (h : Corrupted orig program) (hb : ∀ a pa, (a, pa) ∈ program → pa.length ≤ 2 ^ 32)
    (fuel : Nat) (hf : program.length < fuel) :
    ∃ s, fwdBuild queueBuilder (dictGet orig) fuel program (budgetOf (orig.map (·.2)))
        (BitQueue.new 1, 0) = some (.ok s) ∧ Finished orig program s ∧
      s.sol.2 = ((s.log.filter fun v => !v.skipped && decide (1 < v.ln)).map
        fun v => Nat.log 2 v.ln).sum := by
  obtain ⟨s, h1, h2, h3⟩ := fwdBuild_inv (B := queueBuilder) h.fwdOk
    (fun a pa hp => hb a pa (dictGet_mem hp)) queue_handles _ h.covered
    (BitQueue.new 1, 0) (by
      refine ⟨⟨by simp [BitQueue.new], by simp [BitQueue.new], by simp [BitQueue.new]⟩, rfl, ?_⟩
      intro _
      exact ⟨rfl, by decide⟩) fuel hf
  refine ⟨s, h1, finished h h2 h3, ?_⟩
  have := h2.sol.2.1
  rw [this]
  unfold groupsOf
  rw [List.map_map]
  rfl

/-! ### A concrete construction -/

/-- A defined instruction with the given text, using storage 1. -/
def textInst (opcode str : Nat) : FInst := ⟨⟨false, str, 14, opcode, [1], [], []⟩, [1], str⟩

/-- Two addresses with two candidates each; the second address also has a
candidate of another opcode. -/
def twoAddrs : List (Nat × List FInst) :=
  [(0, [textInst 7 10, textInst 7 11]), (4, [textInst 9 20, textInst 7 21, textInst 7 22])]

theorem twoAddrs_ok (x y : Nat) (hx : x = 10 ∨ x = 11) (hy : y = 21 ∨ y = 22) :
    Corrupted [(0, textInst 7 x), (4, textInst 7 y)] twoAddrs where
  addrs := by simp
  keys := by decide
  known := by
    intro a pa h
    simp only [twoAddrs, List.mem_cons, Prod.mk.injEq, List.not_mem_nil, or_false] at h
    rcases h with ⟨rfl, rfl⟩ | ⟨rfl, rfl⟩
    · exact ⟨textInst 7 x, by simp, by rcases hx with rfl | rfl <;> simp⟩
    · exact ⟨textInst 7 y, by simp, by rcases hy with rfl | rfl <;> simp⟩
  alike := by
    intro a pa o h ho c hc hs
    simp only [twoAddrs, List.mem_cons, Prod.mk.injEq, List.not_mem_nil, or_false] at h ho
    rcases h with ⟨rfl, rfl⟩ | ⟨rfl, rfl⟩
    · rcases ho with ⟨_, rfl⟩ | ⟨h, _⟩
      · simp only [List.mem_cons, List.not_mem_nil, or_false] at hc
        rcases hc with rfl | rfl <;> exact ⟨rfl, rfl, rfl, rfl⟩
      · omega
    · rcases ho with ⟨h, _⟩ | ⟨_, rfl⟩
      · omega
      · simp only [List.mem_cons, List.not_mem_nil, or_false] at hc
        rcases hc with rfl | rfl | rfl
        · simp only [textInst] at hs; omega
        · exact ⟨rfl, rfl, rfl, rfl⟩
        · exact ⟨rfl, rfl, rfl, rfl⟩
  regs := by
    intro a o ho
    simp only [List.mem_cons, Prod.mk.injEq, List.not_mem_nil, or_false] at ho
    rcases ho with ⟨_, rfl⟩ | ⟨_, rfl⟩ <;> simp [textInst]

/-- The solution, and the visits as address, index and number of candidates. -/
def outcome {σ : Type} (B : Builder σ) (orig : List (Nat × FInst))
    (program : List (Nat × List FInst)) (sol : σ) : Option (σ × List (Nat × Nat × Nat)) :=
  match fwdBuild B (dictGet orig) (program.length + 1) program (budgetOf (orig.map (·.2))) sol with
  | some (.ok s) => some (s.sol, s.log.map fun v => (v.addr, v.index, v.ln))
  | _ => none

/-- The candidate of opcode 9 is removed after the first visit: no instruction
of the original has that opcode. -/
example : outcome enumBuilder [(0, textInst 7 11), (4, textInst 7 22)] twoAddrs 1
    = some (4, [(0, 1, 2), (4, 1, 2)]) := by decide +kernel

/-! ### C49 -/

/-- C49 fails for the enumerator: choosing the second candidate at the one
address or at the other gives the same number. -/
theorem C49_refuted_enumerator :
    outcome enumBuilder [(0, textInst 7 11), (4, textInst 7 21)] twoAddrs 1
      = some (2, [(0, 1, 2), (4, 0, 2)]) ∧
    outcome enumBuilder [(0, textInst 7 10), (4, textInst 7 22)] twoAddrs 1
      = some (2, [(0, 0, 2), (4, 1, 2)]) := by decide +kernel

/-- C49 fails for the queue: of three candidates the first and the third get
the same single bit. -/
theorem C49_refuted_queue :
    outcome queueBuilder [(0, textInst 7 10)]
        [(0, [textInst 7 10, textInst 7 11, textInst 7 12])] (BitQueue.new 1, 0) =
      some ((⟨[0], 0, 1, 0, 1⟩, 1), [(0, 0, 3)]) ∧
    outcome queueBuilder [(0, textInst 7 12)]
        [(0, [textInst 7 10, textInst 7 11, textInst 7 12])] (BitQueue.new 1, 0) =
      some ((⟨[0], 0, 1, 0, 1⟩, 1), [(0, 2, 3)]) := by decide +kernel

/-- Two loops that agree turn by turn agree at the end. -/
theorem whileLoop_rel {σ τ : Type} {c1 : σ → Bool} {c2 : τ → Bool} {b1 : σ → Py σ} {b2 : τ → Py τ}
    (R : σ → τ → Prop) (hc : ∀ s t, R s t → c1 s = c2 t)
    (hb : ∀ s t s' t', R s t → c1 s = true → b1 s = .ok s' → b2 t = .ok t' → R s' t') :
    ∀ (fuel : Nat) (s : σ) (t : τ) (s' : σ) (t' : τ), R s t →
      whileLoop c1 b1 fuel s = some (.ok s') → whileLoop c2 b2 fuel t = some (.ok t') → R s' t' := by
  intro fuel
  induction fuel with
  | zero => intro s t s' t' _ h; simp [whileLoop] at h
  | succ n ih =>
    intro s t s' t' hR h1 h2
    unfold whileLoop at h1 h2
    rw [← hc s t hR] at h2
    by_cases hcs : c1 s = true
    · rw [if_pos hcs] at h1 h2
      rcases e1 : b1 s with e | s1
      · rw [e1] at h1; simp at h1
      · rcases e2 : b2 t with e | t1
        · rw [e2] at h2; simp at h2
        · rw [e1] at h1
          rw [e2] at h2
          exact ih s1 t1 s' t' (hb s t s1 t1 hR hcs e1 e2) h1 h2
    · rw [if_neg hcs] at h1 h2
      simp only [Option.some.injEq, Except.ok.injEq] at h1 h2
      subst h1; subst h2
      exact hR

/-- A turn in which the original is defined, undone. -/
theorem fwdTurn_inj {σ : Type} {B : Builder σ} {original : Nat → Option FInst} {s s' : FwdSt σ}
    (hd : ∀ a o, original a = some o → o.meta.ignore = false)
    (h : fwdTurn B original s = .ok s') :
    ∃ a rest pa, s.addresses = a :: rest ∧ dictGet s.program a = some pa ∧
      ((pa = [] ∧ s'.program = s.program ∧ s'.budget = s.budget ∧ s'.addresses = rest ∧
          s'.log = s.log ++ [⟨a, 0, 0, true⟩]) ∨
       (pa ≠ [] ∧ ∃ index chosen, pa[index]? = some chosen ∧
        s'.budget = (if B.forward then updateBudget s.budget chosen else s.budget) ∧
        s'.program = (if B.forward then removeInvalid s'.budget s.program rest else s.program) ∧
        s'.addresses = sortAddresses B.fromMax s'.program rest ∧
        s'.log = s.log ++ [⟨a, index, pa.length, false⟩])) := by
  unfold fwdTurn at h
  rcases ha : s.addresses with _ | ⟨a, rest⟩
  · rw [ha] at h; simp at h
  · rw [ha] at h
    simp only at h
    rcases hp : dictGet s.program a with _ | pa
    · rw [hp] at h; simp at h
    · rcases ho : original a with _ | o
      · rw [hp, ho] at h; simp at h
      · rw [hp, ho] at h
        simp only at h
        refine ⟨a, rest, pa, rfl, hp, ?_⟩
        have hfin : ∀ index sol, fwdFinish B s a rest pa index sol = .ok s' →
            ∃ chosen, pa[index]? = some chosen ∧
            s'.budget = (if B.forward then updateBudget s.budget chosen else s.budget) ∧
            s'.program = (if B.forward then removeInvalid s'.budget s.program rest else s.program) ∧
            s'.addresses = sortAddresses B.fromMax s'.program rest ∧
            s'.log = s.log ++ [⟨a, index, pa.length, false⟩] := by
          intro index sol hf
          unfold fwdFinish at hf
          rcases hx : pa[index]? with _ | chosen
          · rw [hx] at hf; simp at hf
          · rw [hx] at hf
            simp only [Except.ok.injEq] at hf
            subst hf
            exact ⟨chosen, rfl, rfl, rfl, rfl, rfl⟩
        by_cases hz : pa.length = 0
        · rw [if_pos (.inl hz)] at h
          simp only [Except.ok.injEq] at h
          subst h
          left
          exact ⟨List.length_eq_zero_iff.1 hz, rfl, rfl, rfl, by rw [hz]⟩
        · right
          refine ⟨fun hn => hz (by rw [hn]; rfl), ?_⟩
          rw [if_neg (by simp [hz, hd a o ho])] at h
          by_cases hl : 1 < pa.length
          · rw [if_pos hl] at h
            rcases hf : findIndex pa o with e | i
            · rw [hf] at h; simp [bind, Except.bind] at h
            · rcases hs : B.onFound s.sol i pa o pa.length with e | sol
              · simp [hf, hs, bind, Except.bind] at h
              · simp only [hf, hs, bind, Except.bind] at h
                obtain ⟨c, h1⟩ := hfin i sol h
                exact ⟨i, c, h1⟩
          · rw [if_neg hl] at h
            obtain ⟨c, h1⟩ := hfin 0 s.sol h
            exact ⟨0, c, h1⟩

theorem append_singleton_inj {α : Type} {l l' : List α} {x x' : α} (h : l ++ [x] = l' ++ [x']) :
    l = l' ∧ x = x' := by
  have := List.append_inj' h rfl
  exact ⟨this.1, by simpa using this.2⟩

/-- What two constructions over the same candidates have in common as long as
they have used the same indexes. -/
def Lockstep {σ τ : Type} (s : FwdSt σ) (t : FwdSt τ) : Prop :=
  s.log.length = t.log.length ∧ s.addresses.length = t.addresses.length ∧
  (s.log.map (·.index) = t.log.map (·.index) →
    s.program = t.program ∧ s.budget = t.budget ∧ s.addresses = t.addresses ∧ s.log = t.log)

theorem lockstep_turn {σ τ : Type} {B : Builder σ} {C : Builder τ} (hBf : B.forward = C.forward)
    (hBm : B.fromMax = C.fromMax) {orig1 orig2 : Nat → Option FInst}
    (hd1 : ∀ a o, orig1 a = some o → o.meta.ignore = false)
    (hd2 : ∀ a o, orig2 a = some o → o.meta.ignore = false) {s s' : FwdSt σ} {t t' : FwdSt τ}
    (h : Lockstep s t) (h1 : fwdTurn B orig1 s = .ok s') (h2 : fwdTurn C orig2 t = .ok t') :
    Lockstep s' t' := by
  obtain ⟨l1, l2, l3⟩ := h
  obtain ⟨a, rest, pa, ha, hp, hc1⟩ := fwdTurn_inj hd1 h1
  obtain ⟨b, rest', pb, hb, hq, hc2⟩ := fwdTurn_inj hd2 h2
  have hrest : rest.length = rest'.length := by rw [ha, hb] at l2; simpa using l2
  have e1 : ∃ v, s'.log = s.log ++ [v] ∧ s'.addresses.length = rest.length := by
    rcases hc1 with ⟨_, _, _, h3, h4⟩ | ⟨_, i, c, _, _, _, h3, h4⟩
    · exact ⟨_, h4, by rw [h3]⟩
    · exact ⟨_, h4, by rw [h3]; exact (sortAddresses_perm _ _ _).length_eq⟩
  have e2 : ∃ v, t'.log = t.log ++ [v] ∧ t'.addresses.length = rest'.length := by
    rcases hc2 with ⟨_, _, _, h3, h4⟩ | ⟨_, i, c, _, _, _, h3, h4⟩
    · exact ⟨_, h4, by rw [h3]⟩
    · exact ⟨_, h4, by rw [h3]; exact (sortAddresses_perm _ _ _).length_eq⟩
  obtain ⟨v, hv, hv2⟩ := e1
  obtain ⟨w, hw, hw2⟩ := e2
  refine ⟨by rw [hv, hw]; simp [l1], by omega, ?_⟩
  intro hi
  rw [hv, hw, List.map_append, List.map_append] at hi
  obtain ⟨hi1, hi2⟩ := append_singleton_inj hi
  obtain ⟨g1, g2, g3, g4⟩ := l3 hi1
  rw [ha, hb] at g3
  obtain ⟨rfl, rfl⟩ : a = b ∧ rest = rest' := by simpa using g3
  rw [g1, hq] at hp
  cases hp
  rcases hc1 with ⟨h3, h4, h5, h6, h7⟩ | ⟨h3, i, c, h4, h5, h6, h7, h8⟩
  · rcases hc2 with ⟨k3, k4, k5, k6, k7⟩ | ⟨k3, _⟩
    · exact ⟨by rw [h4, k4, g1], by rw [h5, k5, g2], by rw [h6, k6], by rw [h7, k7, g4]⟩
    · exact absurd h3 k3
  · rcases hc2 with ⟨k3, _⟩ | ⟨k3, j, d, k4, k5, k6, k7, k8⟩
    · exact absurd k3 h3
    · have hij : i = j := by
        rw [hv] at h8
        rw [hw] at k8
        have ev := (append_singleton_inj h8).2
        have ew := (append_singleton_inj k8).2
        rw [ev, ew] at hi2
        exact hi2
      subst hij
      rw [h4] at k4
      cases k4
      have eb : s'.budget = t'.budget := by rw [h5, k5, hBf, g2]
      have ep : s'.program = t'.program := by rw [h6, k6, hBf, eb, g1]
      exact ⟨ep, eb, by rw [h7, k7, ep, hBm], by rw [h8, k8, g4]⟩

/-- C49, the part that holds of any of the constructions: the indexes used, in
the order of the visits, identify the program. If two original programs with
the same counts (all a decoder has) are contained in the same candidates and
the constructions use the same indexes, every instruction is printed alike in
both. -/
theorem C49_indexes_identify_partial {σ : Type} (B : Builder σ) (sol : σ)
    (orig1 orig2 : List (Nat × FInst)) (program : List (Nat × List FInst))
    (h1 : Corrupted orig1 program) (h2 : Corrupted orig2 program)
    (hd1 : ∀ a o, (a, o) ∈ orig1 → o.meta.ignore = false)
    (hd2 : ∀ a o, (a, o) ∈ orig2 → o.meta.ignore = false)
    (hm : budgetOf (orig1.map (·.2)) = budgetOf (orig2.map (·.2)))
    (bound : Nat) (Q : σ → List Visit → Prop) (hQ : Handles B bound Q) (hq : Q sol [])
    (hb : ∀ a pa, (a, pa) ∈ program → pa.length ≤ bound)
    (fuel : Nat) (hf : program.length < fuel) :
    ∃ s1 s2, fwdBuild B (dictGet orig1) fuel program (budgetOf (orig1.map (·.2))) sol = some (.ok s1) ∧
      fwdBuild B (dictGet orig2) fuel program (budgetOf (orig2.map (·.2))) sol = some (.ok s2) ∧
      (s1.log.map (·.index) = s2.log.map (·.index) →
        ∀ a pa o1 o2, (a, pa) ∈ program → (a, o1) ∈ orig1 → (a, o2) ∈ orig2 → o1.str = o2.str) := by
  obtain ⟨s1, a1, a2, a3⟩ := fwdBuild_inv h1.fwdOk (fun a pa hp => hb a pa (dictGet_mem hp)) hQ _
    h1.covered sol hq fuel hf
  obtain ⟨s2, b1, b2, b3⟩ := fwdBuild_inv h2.fwdOk (fun a pa hp => hb a pa (dictGet_mem hp)) hQ _
    h2.covered sol hq fuel hf
  refine ⟨s1, s2, a1, b1, ?_⟩
  intro hi a pa o1 o2 hp ho1 ho2
  have hlock : Lockstep s1 s2 := by
    refine whileLoop_rel Lockstep ?_ ?_ fuel _ _ s1 s2 ?_ a1 b1
    · intro s t h; show decide _ = decide _; rw [h.2.1]
    · intro s t s' t' hR _ e1 e2
      exact lockstep_turn rfl rfl (fun a o h => hd1 a o (dictGet_mem h))
        (fun a o h => hd2 a o (dictGet_mem h)) hR e1 e2
    · exact ⟨rfl, rfl, fun _ => ⟨rfl, hm, rfl, rfl⟩⟩
  obtain ⟨g1, _, _, g4⟩ := hlock.2.2 hi
  have f1 := finished h1 a2 a3
  have f2 := finished h2 b2 b3
  obtain ⟨v, hv, hva⟩ := List.mem_map.1 (f1.once.symm.subset (List.mem_map.2 ⟨_, hp, rfl⟩))
  subst hva
  obtain ⟨_, p1, c1, x1, x2, x3, _⟩ := f1.resolved v hv o1 ho1 (hd1 _ _ ho1)
  obtain ⟨_, p2, c2, y1, y2, y3, _⟩ := f2.resolved v (g4 ▸ hv) o2 ho2 (hd2 _ _ ho2)
  rw [g1, y1] at x1
  cases x1
  rw [y2] at x2
  cases x2
  rw [← x3, y3]

/-! #### The queue, when it has room for the indexes -/

/-- Without forward update the visits do not depend on the original. -/
def SameVisits {σ τ : Type} (s : FwdSt σ) (t : FwdSt τ) : Prop :=
  s.program = t.program ∧ s.addresses = t.addresses ∧
  s.log.map (fun v => (v.addr, v.ln, v.skipped)) = t.log.map fun v => (v.addr, v.ln, v.skipped)

theorem sameVisits_turn {σ τ : Type} {B : Builder σ} {C : Builder τ} (hBf : B.forward = false)
    (hCf : C.forward = false) (hBm : B.fromMax = C.fromMax) {orig1 orig2 : Nat → Option FInst}
    (hd1 : ∀ a o, orig1 a = some o → o.meta.ignore = false)
    (hd2 : ∀ a o, orig2 a = some o → o.meta.ignore = false) {s s' : FwdSt σ} {t t' : FwdSt τ}
    (h : SameVisits s t) (h1 : fwdTurn B orig1 s = .ok s') (h2 : fwdTurn C orig2 t = .ok t') :
    SameVisits s' t' := by
  obtain ⟨l1, l2, l3⟩ := h
  obtain ⟨a, rest, pa, ha, hp, hc1⟩ := fwdTurn_inj hd1 h1
  obtain ⟨b, rest', pb, hb, hq, hc2⟩ := fwdTurn_inj hd2 h2
  rw [ha, hb] at l2
  obtain ⟨rfl, rfl⟩ : a = b ∧ rest = rest' := by simpa using l2
  rw [l1, hq] at hp
  cases hp
  rcases hc1 with ⟨h3, h4, h5, h6, h7⟩ | ⟨h3, i, c, h4, h5, h6, h7, h8⟩
  · rcases hc2 with ⟨k3, k4, k5, k6, k7⟩ | ⟨k3, _⟩
    · exact ⟨by rw [h4, k4, l1], by rw [h6, k6], by rw [h7, k7]; simp [l3]⟩
    · exact absurd h3 k3
  · rcases hc2 with ⟨k3, _⟩ | ⟨k3, j, d, k4, k5, k6, k7, k8⟩
    · exact absurd k3 h3
    · have ep : s'.program = t'.program := by rw [h6, k6, hBf, hCf, l1]; simp
      exact ⟨ep, by rw [h7, k7, ep, hBm], by rw [h8, k8]; simp [l3]⟩

/-- Groups of given sizes can be read back from the stream. -/
theorem groups_inj : ∀ (g h : List (Nat × Nat)), g.map (·.1) = h.map (·.1) →
    (∀ x ∈ g, x.2 < 2 ^ x.1) → (∀ x ∈ h, x.2 < 2 ^ x.1) →
    (g.flatMap fun x => bitsAt x.2 0 x.1) = (h.flatMap fun x => bitsAt x.2 0 x.1) → g = h := by
  intro g
  induction g with
  | nil => intro h he _ _ _; symm; simpa using he.symm
  | cons x t ih =>
    intro h he hg hh hs
    rcases h with _ | ⟨y, u⟩
    · simp at he
    · simp only [List.map_cons, List.cons.injEq] at he
      simp only [List.flatMap_cons] at hs
      obtain ⟨h1, h2⟩ := List.append_inj hs (by simp [he.1])
      have hxy : x.2 = y.2 := by
        apply Nat.eq_of_testBit_eq
        intro i
        by_cases hi : i < x.1
        · have := congrArg (fun l => l[i]?) h1
          simp only [bitsAt, List.getElem?_map, Nat.zero_add] at this
          rw [List.getElem?_range hi, List.getElem?_range (by rw [← he.1]; exact hi)] at this
          simpa using this
        · rw [Nat.testBit_lt_two_pow (lt_of_lt_of_le (hg x (by simp)) (Nat.pow_le_pow_right (by omega) (by omega))),
            Nat.testBit_lt_two_pow (lt_of_lt_of_le (hh y (by simp)) (Nat.pow_le_pow_right (by omega) (by omega)))]
      rw [ih u he.2 (fun z hz => hg z (by simp [hz])) (fun z hz => hh z (by simp [hz])) h2]
      congr 1
      exact Prod.ext he.1 hxy

/-- C49 for the queue, in the part that holds: if every number of candidates is
a power of two and all the indexes together fit into 32 bits, two original
programs that give the same queue are printed alike at every address. -/
theorem C49_queue_identifies_partial (orig1 orig2 : List (Nat × FInst))
    (program : List (Nat × List FInst)) (h1 : Corrupted orig1 program) (h2 : Corrupted orig2 program)
    (hd1 : ∀ a o, (a, o) ∈ orig1 → o.meta.ignore = false)
    (hd2 : ∀ a o, (a, o) ∈ orig2 → o.meta.ignore = false)
    (hpow : ∀ a pa, (a, pa) ∈ program → pa.length = 2 ^ Nat.log 2 pa.length)
    (hfit : (program.map fun p => Nat.log 2 p.2.length).sum ≤ 32)
    (fuel : Nat) (hf : program.length < fuel) :
    ∃ s1 s2,
      fwdBuild queueBuilder (dictGet orig1) fuel program (budgetOf (orig1.map (·.2)))
        (BitQueue.new 1, 0) = some (.ok s1) ∧
      fwdBuild queueBuilder (dictGet orig2) fuel program (budgetOf (orig2.map (·.2)))
        (BitQueue.new 1, 0) = some (.ok s2) ∧
      (s1.sol.1.getBytes = s2.sol.1.getBytes →
        ∀ a pa o1 o2, (a, pa) ∈ program → (a, o1) ∈ orig1 → (a, o2) ∈ orig2 → o1.str = o2.str) := by
  have hb : ∀ a pa, (a, pa) ∈ program → pa.length ≤ 2 ^ 32 := by
    intro a pa hp
    rw [hpow a pa hp]
    apply Nat.pow_le_pow_right (by omega)
    refine le_trans ?_ hfit
    exact List.single_le_sum (by simp) _ (List.mem_map.2 ⟨_, hp, rfl⟩)
  have hq : QueueFits (BitQueue.new 1, 0) [] := by
    refine ⟨⟨by simp [BitQueue.new], by simp [BitQueue.new], by simp [BitQueue.new]⟩, rfl, ?_⟩
    intro _
    exact ⟨rfl, by decide⟩
  obtain ⟨s1, a1, a2, a3⟩ := fwdBuild_inv h1.fwdOk (fun a pa hp => hb a pa (dictGet_mem hp))
    queue_handles _ h1.covered _ hq fuel hf
  obtain ⟨s2, b1, b2, b3⟩ := fwdBuild_inv h2.fwdOk (fun a pa hp => hb a pa (dictGet_mem hp))
    queue_handles _ h2.covered _ hq fuel hf
  refine ⟨s1, s2, a1, b1, ?_⟩
  intro hbytes a pa o1 o2 hp ho1 ho2
  have hsame : SameVisits s1 s2 ∧ s1.program = program := by
    refine whileLoop_rel (fun s t => SameVisits s t ∧ s.program = program) ?_ ?_ fuel _ _ s1 s2 ?_ a1 b1
    · intro s t h; show decide _ = decide _; rw [h.1.2.1]
    · intro s t s' t' hR _ e1 e2
      refine ⟨sameVisits_turn rfl rfl rfl (fun a o h => hd1 a o (dictGet_mem h))
        (fun a o h => hd2 a o (dictGet_mem h)) hR.1 e1 e2, ?_⟩
      obtain ⟨_, _, _, _, _, hc⟩ := fwdTurn_inj (fun a o h => hd1 a o (dictGet_mem h)) e1
      rcases hc with ⟨_, h4, _⟩ | ⟨_, _, _, _, _, h6, _⟩
      · rw [h4, hR.2]
      · rw [h6, show queueBuilder.forward = false from rfl]; simpa using hR.2
    · exact ⟨⟨rfl, rfl, rfl⟩, rfl⟩
  obtain ⟨⟨g1, _, g3⟩, gp⟩ := hsame
  have f1 := finished h1 a2 a3
  have f2 := finished h2 b2 b3
  have hlog : ∀ {orig : List (Nat × FInst)} {s : FwdSt (BitQueue × Nat)}, s.program = program →
      FwdInv (dictGet orig) program QueueFits s → s.addresses = [] →
      (∀ a o, (a, o) ∈ orig → o.meta.ignore = false) →
      NoStraddle (groupsOf s.log) ∧
      ∀ v ∈ s.log, v.skipped = false ∧ v.index < v.ln ∧ v.ln = 2 ^ Nat.log 2 v.ln := by
    intro orig s hpr hi he hd
    have hv : ∀ v ∈ s.log, v.skipped = false ∧ v.index < v.ln ∧ v.ln = 2 ^ Nat.log 2 v.ln ∧
        v.ln = ((dictGet program v.addr).getD []).length := by
      intro v hv
      obtain ⟨pa, o, e1, e2, e3, e4, e5⟩ := hi.log v hv
      have hsk : v.skipped = false := by
        rw [← Bool.not_eq_true, e4, hd _ _ (dictGet_mem e2)]; simp
      obtain ⟨c, e6, _⟩ := e5 hsk
      rw [hpr] at e1
      refine ⟨hsk, ?_, ?_, by rw [e1, e3]; rfl⟩
      · rw [e3]; exact (List.getElem?_eq_some_iff.1 e6).1
      · rw [e3]; exact hpow _ _ (dictGet_mem e1)
    refine ⟨?_, fun v h => ⟨(hv v h).1, (hv v h).2.1, (hv v h).2.2.1⟩⟩
    have htot : ((groupsOf s.log).map (·.1)).sum ≤ 32 := by
      refine le_trans ?_ hfit
      have e1 : ((groupsOf s.log).map (·.1)).sum ≤ (s.log.map fun v => Nat.log 2 v.ln).sum := by
        unfold groupsOf
        rw [List.map_map]
        exact List.Sublist.sum_le_sum (List.filter_sublist.map _) (by simp)
      refine le_trans e1 (le_of_eq ?_)
      have e2 : (s.log.map fun v => Nat.log 2 v.ln) =
          (s.log.map (·.addr)).map fun a => Nat.log 2 ((dictGet program a).getD []).length := by
        rw [List.map_map]
        apply List.map_congr_left
        intro v h
        simp only [Function.comp]
        rw [(hv v h).2.2.2]
      have e3 : (s.log.map (·.addr)).Perm (program.map (·.1)) := by
        have := hi.perm; rwa [he, List.append_nil] at this
      rw [e2, List.Perm.sum_eq (e3.map _), List.map_map]
      congr 1
      apply List.map_congr_left
      intro p hpm
      simp only [Function.comp]
      rw [dictGet_of_mem h1.keys (show (p.1, p.2) ∈ program from hpm)]
      rfl
    intro pre g post he
    rw [he] at htot
    simp only [List.map_append, List.map_cons, List.sum_append, List.sum_cons] at htot
    have := Nat.mod_le (pre.map (·.1)).sum 32
    omega
  obtain ⟨n1, v1⟩ := hlog gp a2 a3 hd1
  obtain ⟨n2, v2⟩ := hlog (g1 ▸ gp) b2 b3 hd2
  obtain ⟨q1, r1⟩ := a2.sol.2.2 n1
  obtain ⟨q2, r2⟩ := b2.sol.2.2 n2
  have hsizes : (groupsOf s1.log).map (·.1) = (groupsOf s2.log).map (·.1) := by
    have e : ∀ l : List Visit, (groupsOf l).map (·.1) =
        ((l.map fun v => (v.addr, v.ln, v.skipped)).filter
          fun t => !t.2.2 && decide (1 < t.2.1)).map fun t => Nat.log 2 t.2.1 := by
      intro l
      unfold groupsOf
      rw [List.filter_map, List.map_map, List.map_map]
      rfl
    rw [e, e, g3]
  have hgroups : groupsOf s1.log = groupsOf s2.log := by
    have hbound : ∀ {l : List Visit}, (∀ v ∈ l, v.skipped = false ∧ v.index < v.ln ∧
        v.ln = 2 ^ Nat.log 2 v.ln) → ∀ x ∈ groupsOf l, x.2 < 2 ^ x.1 := by
      intro l hl x hx
      unfold groupsOf at hx
      obtain ⟨v, hv, rfl⟩ := List.mem_map.1 hx
      have := hl v (List.mem_filter.1 hv).1
      simp only
      rw [← this.2.2]; exact this.2.1
    apply groups_inj _ _ hsizes (hbound v1) (hbound v2)
    have e : s1.sol.1.bytes = s2.sol.1.bytes := hbytes
    rw [e, r2, q1, q2, hsizes] at r1
    exact (List.append_cancel_right r1).symm
  have hlogs : s1.log = s2.log := by
    have key : ∀ l1 l2 : List Visit,
        l1.map (fun v => (v.addr, v.ln, v.skipped)) = l2.map (fun v => (v.addr, v.ln, v.skipped)) →
        groupsOf l1 = groupsOf l2 → (∀ v ∈ l1, v.skipped = false ∧ v.index < v.ln) →
        (∀ v ∈ l2, v.skipped = false ∧ v.index < v.ln) → l1 = l2 := by
      intro l1
      induction l1 with
      | nil => intro l2 h _ _ _; symm; simpa using h.symm
      | cons x t ih =>
        intro l2 h hg hx hy
        rcases l2 with _ | ⟨y, u⟩
        · simp at h
        · simp only [List.map_cons, List.cons.injEq, Prod.mk.injEq] at h
          obtain ⟨⟨e1, e2, e3⟩, e4⟩ := h
          have hx0 := hx x (by simp)
          have hy0 := hy y (by simp)
          have hti := fun hgt => ih u e4 hgt (fun v h => hx v (by simp [h])) (fun v h => hy v (by simp [h]))
          by_cases hl : 1 < x.ln
          · have hl' : 1 < y.ln := e2 ▸ hl
            simp only [groupsOf, List.filter_cons, hx0.1, hy0.1, hl, hl', Bool.not_false,
              decide_true, Bool.and_self, if_true, List.map_cons, List.cons.injEq,
              Prod.mk.injEq] at hg
            have hxy : x = y := by
              cases x; cases y; simp only [Visit.mk.injEq] at *
              exact ⟨e1, hg.1.2, e2, e3⟩
            rw [hxy, hti hg.2]
          · have hl' : ¬ 1 < y.ln := e2 ▸ hl
            simp only [groupsOf, List.filter_cons, hl, hl', decide_false, Bool.and_false,
              Bool.false_eq_true, if_false] at hg
            have hxy : x = y := by
              cases x; cases y; simp only [Visit.mk.injEq] at *
              exact ⟨e1, by omega, e2, e3⟩
            rw [hxy, hti hg]
    exact key _ _ g3 hgroups (fun v h => ⟨(v1 v h).1, (v1 v h).2.1⟩) fun v h => ⟨(v2 v h).1, (v2 v h).2.1⟩
  obtain ⟨v, hv, hva⟩ := List.mem_map.1 (f1.once.symm.subset (List.mem_map.2 ⟨_, hp, rfl⟩))
  subst hva
  obtain ⟨_, p1, c1, x1, x2, x3, _⟩ := f1.resolved v hv o1 ho1 (hd1 _ _ ho1)
  obtain ⟨_, p2, c2, y1, y2, y3, _⟩ := f2.resolved v (hlogs ▸ hv) o2 ho2 (hd2 _ _ ho2)
  rw [g1, y1] at x1
  cases x1
  rw [y2] at x2
  cases x2
  rw [← x3, y3]

/-- Two addresses with four and two candidates meet the hypotheses, and two
choices get different queues. -/
example :
    let program := [(0, [textInst 7 10, textInst 7 11, textInst 7 12, textInst 7 13]),
      (4, [textInst 7 20, textInst 7 21])]
    (program.map fun p => Nat.log 2 p.2.length).sum ≤ 32 ∧
    (∀ p ∈ program, p.2.length = 2 ^ Nat.log 2 p.2.length) ∧
    (outcome queueBuilder [(0, textInst 7 13), (4, textInst 7 20)] program (BitQueue.new 1, 0)).map
      (·.1.1.bytes) = some [6] ∧
    (outcome queueBuilder [(0, textInst 7 12), (4, textInst 7 21)] program (BitQueue.new 1, 0)).map
      (·.1.1.bytes) = some [5] := by
  decide +kernel

/-- Powers of two are not enough: an index that crosses a word boundary loses
bits. Eleven addresses with eight candidates: the queue is the same whether the
last index is 2 or 6. -/
theorem C49_refuted_straddle :
    let cands := [textInst 7 0, textInst 7 1, textInst 7 2, textInst 7 3, textInst 7 4,
      textInst 7 5, textInst 7 6, textInst 7 7]
    let program := (List.range 11).map fun i => (4 * i, cands)
    let orig := fun last => (List.range 10).map (fun i => (4 * i, textInst 7 0)) ++
      [(40, textInst 7 last)]
    (outcome queueBuilder (orig 2) program (BitQueue.new 1, 0)).map (·.1.1.bytes) = some [2 ^ 31, 0] ∧
    (outcome queueBuilder (orig 6) program (BitQueue.new 1, 0)).map (·.1.1.bytes) = some [2 ^ 31, 0] := by
  decide +kernel

end Verif
