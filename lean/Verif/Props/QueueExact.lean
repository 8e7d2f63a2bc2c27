import Verif.Proof.Tape
import Verif.Props.ForwardExact

/-!
# C08 and C49: what a queue of bits holds, for every size of group

`C08_refuted` and `C49_refuted_straddle` show that a group written across the end of a word
is not read back.  Here is what happens instead, for every history and every word size, and
which originals a queue can and cannot tell apart.
-/

namespace Verif
open Spec

/-! ### C08 -/

theorem seen_run (ws : Nat) (h1 : 1 ≤ ws) : ∀ (ops : List QOp) (q : BitQueue) (S : List Bool) (d : Nat)
    (g : List (List Bool)) (outs : List Nat) (g' : List (List Bool)),
    OnTape q S d → q.wordSize = ws → d + g.length * ws ≤ S.length → fifo ws g ops = some (some (outs, g')) →
    ∃ q', runQueue q ops = .ok (tape ws S d ops, q') := by
  intro ops
  induction ops with
  | nil => intro q S d g outs g' _ _ _ _; exact ⟨q, rfl⟩
  | cons op ops ih =>
    intro q S d g outs g' ht hw hl hf
    cases op with
    | enq v f =>
      simp only [fifo] at hf
      split at hf
      · next hc =>
        obtain ⟨f, rfl⟩ := Int.eq_ofNat_of_zero_le hc.1
        simp only [Int.toNat_natCast] at hf
        obtain ⟨q1, e1, e2, e3⟩ := ht.enqueue v f (by omega) (by omega)
        rw [hw] at e3
        have hlen : ws ≤ (laid (S.length % 32) (bitsAt v f ws)).length := by
          rw [laid_length _ _ (by omega) (by simp; omega), length_bitsAt]
          split <;> omega
        obtain ⟨q2, e4⟩ := ih q1 _ d _ outs g' e3 (by rw [e2, hw])
          (by simp only [List.length_append, List.length_singleton, Nat.add_mul, Nat.one_mul]; omega) hf
        refine ⟨q2, ?_⟩
        simp only [runQueue, bind, Except.bind]
        rw [e1]
        simp only [tape, Int.toNat_natCast]
        exact e4
      · cases hf
    | deq v t =>
      cases g with
      | nil => simp [fifo] at hf
      | cons a g =>
        simp only [fifo] at hf
        split at hf
        · next hc =>
          obtain ⟨t, rfl⟩ := Int.eq_ofNat_of_zero_le hc.1
          obtain ⟨r, hr, -⟩ : ∃ r, fifo ws g ops = some (some r) ∧ True := by
            rcases hfo : fifo ws g ops with _ | (_ | r)
            · rw [hfo] at hf; simp at hf
            · rw [hfo] at hf; simp at hf
            · exact ⟨r, rfl, trivial⟩
          simp only [List.length_cons, Nat.add_mul, Nat.one_mul] at hl
          obtain ⟨q1, e1, e2, e3⟩ := ht.dequeue v t (by omega) (by omega) (by omega)
          rw [hw] at e1 e3
          obtain ⟨q2, e4⟩ := ih q1 S (d + ws) g r.1 r.2 e3 (by rw [e2, hw]) (by omega) hr
          refine ⟨q2, ?_⟩
          simp only [runQueue, bind, Except.bind, pure, Except.pure]
          rw [e1]
          simp only [tape, Int.toNat_natCast]
          rw [e4]
        · cases hf

/-- **C08, exactly.**  A history in which every offset leaves room for a group and no group is
taken out that was not put in never raises, whatever the word size.  What comes back is read
off the tape: a group across the end of a word is written from its beginning into both words,
with a gap after it; the reader passes over the tape in steps of one word size without
knowing of the gaps, and where it crosses the end of a word the bits of the second word cover
those of the first. -/
theorem C08_exact (ws : Nat) (h1 : 1 ≤ ws) (ops : List QOp) (outs : List Nat) (g : List (List Bool))
    (h : fifo ws [] ops = some (some (outs, g))) :
    ∃ q, runQueue (BitQueue.new ws) ops = .ok (tape ws [] 0 ops, q) :=
  seen_run ws h1 ops (BitQueue.new ws) [] 0 [] outs g (OnTape.new ws) rfl (by simp) h

/-- Groups of five bits: the seventh is the first to cross the end of a word.  Ones come back
as three ones, the next group comes back shifted by the gap of two bits. -/
example :
    let ops := List.replicate 6 (QOp.enq 0 0) ++ [.enq 31 0, .enq 21 0] ++ List.replicate 8 (QOp.deq 0 0)
    fifo 5 [] ops = some (some ([0, 0, 0, 0, 0, 0, 31, 21], [])) ∧
    tape 5 [] 0 ops = [0, 0, 0, 0, 0, 0, 7, 20] ∧
    (runQueue (BitQueue.new 5) ops).toOption.map (·.1) = some [0, 0, 0, 0, 0, 0, 7, 20] := by decide +kernel

/-- The number written in binary in the words: storing groups one after the other. -/
theorem laid_run (ws : Nat) (h1 : 1 ≤ ws) : ∀ (puts : List Put) (q : BitQueue) (S : List Bool) (d : Nat),
    OnTape q S d → q.wordSize = ws → (∀ p ∈ puts, p.2 + ws ≤ 32) →
    ∃ q', runQueue q (puts.map fun p => .enq p.1 p.2) = .ok ([], q') ∧ q'.wordSize = ws ∧
      OnTape q' (laidAll S (puts.map fun p => bitsAt p.1 p.2 ws)) d := by
  intro puts
  induction puts with
  | nil => intro q S d ht hw _; exact ⟨q, rfl, hw, ht⟩
  | cons p puts ih =>
    intro q S d ht hw hp
    obtain ⟨q1, e1, e2, e3⟩ := ht.enqueue p.1 p.2 (by omega) (by rw [hw]; exact hp p (by simp))
    rw [hw] at e3
    obtain ⟨q2, e4, e5, e6⟩ := ih q1 _ d e3 (by rw [e2, hw]) (fun x hx => hp x (by simp [hx]))
    refine ⟨q2, ?_, e5, e6⟩
    simp only [List.map_cons, runQueue, bind, Except.bind]
    rw [e1]
    exact e4

/-- **C08, what the words hold.**  After any number of groups have been put in, the bits of the
words are the tape, filled up with zeros to the end of a word (with a whole word of zeros if
the tape ends with a word). -/
theorem C08_contents (ws : Nat) (h1 : 1 ≤ ws) (puts : List Put) (hp : ∀ p ∈ puts, p.2 + ws ≤ 32) :
    ∃ q, runQueue (BitQueue.new ws) (puts.map fun p => .enq p.1 p.2) = .ok ([], q) ∧
      ∃ n, 1 ≤ n ∧ n ≤ 32 ∧
        stream q.getBytes = laidAll [] (puts.map fun p => bitsAt p.1 p.2 ws) ++ List.replicate n false := by
  obtain ⟨q, e1, -, e3⟩ := laid_run ws h1 puts (BitQueue.new ws) [] 0 (OnTape.new ws) rfl hp
  refine ⟨q, e1, 32 - (laidAll [] (puts.map fun p => bitsAt p.1 p.2 ws)).length % 32, by omega, by omega, ?_⟩
  have := e3.bits
  simpa [BitQueue.getBytes] using this

/-- Three groups of twelve bits: the third is written across the end of the first word, eight
bits of it before and four bits after, and eight bits are left out. -/
example : (runQueue (BitQueue.new 12) [.enq 0xABC 0, .enq 0xDEF 0, .enq 0x123 0, .enq 0x456 0]).toOption.map
    (fun r => r.2.getBytes) = some [0x23DEFABC, 0x456003] := by decide +kernel

/-! ### Which groups a tape can tell apart -/

theorem laid_eq_iff (p : Nat) (g h : List Bool) (hl : g.length = h.length) (hp : p < 32) (hg : g.length ≤ 32) :
    laid p g = laid p h ↔
      g.take (if p + g.length ≤ 32 then g.length else max (32 - p) (p + g.length - 32)) =
      h.take (if p + g.length ≤ 32 then g.length else max (32 - p) (p + g.length - 32)) := by
  unfold laid
  rw [← hl]
  by_cases hc : p + g.length ≤ 32
  · simp only [if_pos hc]
    rw [List.take_length, hl, List.take_length]
  · simp only [if_neg hc]
    constructor
    · intro he
      have h2 := (List.append_inj' he rfl).1
      have h3 := List.append_inj h2 (by simp [hl])
      rcases le_total (32 - p) (p + g.length - 32) with hm | hm
      · rw [max_eq_right hm]; exact h3.2
      · rw [max_eq_left hm]; exact h3.1
    · intro he
      have ha := congrArg (List.take (32 - p)) he
      have hb := congrArg (List.take (p + g.length - 32)) he
      rw [List.take_take, List.take_take, min_eq_left (le_max_left _ _)] at ha
      rw [List.take_take, List.take_take, min_eq_left (le_max_right _ _)] at hb
      rw [ha, hb]

/-- The groups agree on the bits that survive. -/
def Spec.AgreeOn : List Nat → List (List Bool) → List (List Bool) → Prop
  | k :: ks, g :: gs, h :: hs => g.take k = h.take k ∧ AgreeOn ks gs hs
  | _, _, _ => True

theorem laidAll_eq_iff : ∀ (gs hs : List (List Bool)) (S T : List Bool), S.length = T.length →
    gs.map List.length = hs.map List.length → (∀ g ∈ gs, g.length ≤ 32) →
    ((laidAll S gs).length = (laidAll T hs).length ∧
      (laidAll S gs = laidAll T hs ↔
        S = T ∧ AgreeOn (keptBits (S.length % 32) (gs.map List.length)) gs hs)) := by
  intro gs
  induction gs with
  | nil =>
    intro hs S T hl hm _
    obtain rfl : hs = [] := by simpa using hm.symm
    exact ⟨hl, by simp [laidAll, AgreeOn, keptBits]⟩
  | cons g gs ih =>
    intro hs S T hl hm hle
    cases hs with
    | nil => simp at hm
    | cons h hs =>
      simp only [List.map_cons, List.cons.injEq] at hm
      have hg : g.length ≤ 32 := hle g (by simp)
      have hlen : (laid (S.length % 32) g).length = (laid (T.length % 32) h).length := by
        rw [laid_length _ _ (by omega) hg, laid_length _ _ (by omega) (by omega), hl, hm.1]
      obtain ⟨i1, i2⟩ := ih hs (S ++ laid (S.length % 32) g) (T ++ laid (T.length % 32) h)
        (by rw [List.length_append, List.length_append, hlen, hl]) hm.2 (fun x hx => hle x (by simp [hx]))
      refine ⟨i1, ?_⟩
      have hpos := laid_pos S g hg
      have hkept : keptBits (S.length % 32) ((g :: gs).map List.length) =
          (if S.length % 32 + g.length ≤ 32 then g.length else max (32 - S.length % 32) (S.length % 32 + g.length - 32)) ::
            keptBits ((S ++ laid (S.length % 32) g).length % 32) (gs.map List.length) := by
        rw [hpos]
        simp only [List.map_cons, keptBits]
        split <;> rfl
      rw [hkept]
      simp only [laidAll, AgreeOn]
      rw [i2]
      constructor
      · rintro ⟨he, ha⟩
        obtain ⟨rfl, he2⟩ := List.append_inj he hl
        exact ⟨rfl, (laid_eq_iff _ _ _ hm.1 (by omega) hg).1 he2, ha⟩
      · rintro ⟨rfl, he2, ha⟩
        exact ⟨by rw [(laid_eq_iff _ _ _ hm.1 (by omega) hg).2 he2], ha⟩

/-- Two queues that hold groups of the same sizes hold the same words exactly if the groups
agree on the bits that survive. -/
theorem bytes_eq_iff {q r : BitQueue} {gs hs : List (List Bool)} (hq : OnTape q (laidAll [] gs) 0)
    (hr : OnTape r (laidAll [] hs) 0) (hm : gs.map List.length = hs.map List.length) (hle : ∀ g ∈ gs, g.length ≤ 32) :
    q.getBytes = r.getBytes ↔ AgreeOn (keptBits 0 (gs.map List.length)) gs hs := by
  obtain ⟨i1, i2⟩ := laidAll_eq_iff gs hs [] [] rfl hm hle
  have hb := hq.bits
  have hb' := hr.bits
  simp only [Nat.zero_div, Nat.mul_zero, List.drop_zero] at hb hb'
  simp only [true_and, List.length_nil, Nat.zero_mod] at i2
  rw [← i2]
  unfold BitQueue.getBytes
  constructor
  · intro he
    rw [he, hb'] at hb
    exact (List.append_inj hb i1.symm).1.symm
  · intro he
    apply stream_injective _ _ hq.small hr.small
    rw [hb, hb', he]

/-- **C08, which contents a queue can tell apart.**  Two runs of groups of the same size leave
the same words exactly if every two corresponding groups agree on the bits that survive: all
of them where the group fits into the word, the first `max r (ws - r)` where `r` bits were
left in the word. -/
theorem C08_distinguishes (ws : Nat) (h1 : 1 ≤ ws) (puts puts' : List Put) (hl : puts.length = puts'.length)
    (hp : ∀ p ∈ puts, p.2 + ws ≤ 32) (hp' : ∀ p ∈ puts', p.2 + ws ≤ 32) :
    ∃ q q', runQueue (BitQueue.new ws) (puts.map fun p => .enq p.1 p.2) = .ok ([], q) ∧
      runQueue (BitQueue.new ws) (puts'.map fun p => .enq p.1 p.2) = .ok ([], q') ∧
      (q.getBytes = q'.getBytes ↔
        AgreeOn (keptBits 0 (List.replicate puts.length ws)) (puts.map fun p => bitsAt p.1 p.2 ws)
          (puts'.map fun p => bitsAt p.1 p.2 ws)) := by
  obtain ⟨q, e1, -, e3⟩ := laid_run ws h1 puts (BitQueue.new ws) [] 0 (OnTape.new ws) rfl hp
  obtain ⟨q', f1, -, f3⟩ := laid_run ws h1 puts' (BitQueue.new ws) [] 0 (OnTape.new ws) rfl hp'
  refine ⟨q, q', e1, f1, ?_⟩
  have hm : ∀ l : List Put, (l.map fun p => bitsAt p.1 p.2 ws).map List.length = List.replicate l.length ws := by
    intro l
    rw [List.map_map]
    have : (List.length ∘ fun p : Put => bitsAt p.1 p.2 ws) = fun _ => ws := by funext p; simp
    rw [this, List.map_const']
  have := bytes_eq_iff e3 f3 (by rw [hm, hm, hl]) (by
    intro g hg
    obtain ⟨p, hpm, rfl⟩ := List.mem_map.1 hg
    have := hp p hpm
    simp; omega)
  rw [hm] at this
  exact this

/-- Of eleven groups of three bits the last loses one bit; of five groups of seven bits the
last loses three. -/
example : keptBits 0 (List.replicate 12 3) = [3, 3, 3, 3, 3, 3, 3, 3, 3, 3, 2, 3] ∧
    keptBits 0 (List.replicate 6 7) = [7, 7, 7, 7, 4, 7] := by decide +kernel

/-! ### C49 -/

namespace Spec

/-- The addresses in the order of their numbers of candidates, those with equal numbers in the
order of the program. -/
structure ByCount (program : List (Nat × List FInst)) (order : List (Nat × List FInst)) : Prop where
  perm : order.Perm program
  sorted : order.Pairwise fun x y => x.2.length ≤ y.2.length
  stable : ∀ n, order.filter (fun x => x.2.length = n) = program.filter (fun x => x.2.length = n)

/-- The first candidate printed like the original. -/
def firstLike (pa : List FInst) (o : FInst) : Nat := pa.findIdx fun c => c.str = o.str

/-- The original instruction at an address is one the disassembler knows. -/
def Known (orig : List (Nat × FInst)) (a : Nat) : Bool := !orig.any fun p => p.1 = a && p.2.meta.ignore

/-- The index of the original at an address. -/
def indexAt (orig : List (Nat × FInst)) (x : Nat × List FInst) : Nat :=
  match orig.find? fun p => p.1 = x.1 with
  | some p => firstLike x.2 p.2
  | none => 0

/-- The indexes written for an original: at every address with more than one candidate, in
`log2` bits rounded down. -/
def groupsFor (orig : List (Nat × FInst)) (order : List (Nat × List FInst)) : List (List Bool) :=
  (order.filter fun x => 1 < x.2.length && Known orig x.1).map fun x =>
    bitsAt (indexAt orig x) 0 (Nat.log 2 x.2.length)

end Spec

theorem filter_insert {α : Type} (k : α → Nat) (n : Nat) (a : α) : ∀ l : List α,
    ((l.orderedInsert (fun x y => k x ≤ k y) a).filter fun x => k x = n) = (a :: l).filter fun x => k x = n := by
  intro l
  induction l with
  | nil => rfl
  | cons b l ih =>
    simp only [List.orderedInsert]
    split
    · rfl
    · next hc =>
      rw [List.filter_cons, ih]
      by_cases hb : k b = n
      · have ha : k a ≠ n := by omega
        simp [List.filter_cons, hb, ha]
      · simp [List.filter_cons, hb]

theorem filter_sort {α : Type} (k : α → Nat) (n : Nat) : ∀ l : List α,
    ((l.insertionSort fun x y => k x ≤ k y).filter fun x => k x = n) = l.filter fun x => k x = n := by
  intro l
  induction l with
  | nil => rfl
  | cons a l ih =>
    rw [List.insertionSort_cons, filter_insert, List.filter_cons, List.filter_cons, ih]

theorem insertionSort_map {α β : Type} (f : α → β) (r : β → β → Prop) [DecidableRel r] (s : α → α → Prop)
    [DecidableRel s] : ∀ l : List α, (∀ x ∈ l, ∀ y ∈ l, r (f x) (f y) ↔ s x y) →
    (l.map f).insertionSort r = (l.insertionSort s).map f := by
  intro l
  induction l with
  | nil => intro _; rfl
  | cons a l ih =>
    intro h
    rw [List.map_cons, List.insertionSort_cons, List.insertionSort_cons, ih fun x hx y hy => h x (by simp [hx]) y (by simp [hy])]
    have hmem : ∀ y ∈ l.insertionSort s, r (f a) (f y) ↔ s a y := fun y hy =>
      h a (by simp) y (by simp [(List.perm_insertionSort s l).mem_iff.1 hy])
    generalize l.insertionSort s = m at hmem
    induction m with
    | nil => rfl
    | cons b m ihm =>
      simp only [List.map_cons, List.orderedInsert]
      by_cases hs : s a b
      · rw [if_pos hs, if_pos ((hmem b (by simp)).2 hs)]; rfl
      · rw [if_neg hs, if_neg (fun hc => hs ((hmem b (by simp)).1 hc)), ihm fun y hy => hmem y (by simp [hy])]; rfl

/-- The order of the visits. -/
def visitOrder (program : List (Nat × List FInst)) : List (Nat × List FInst) :=
  program.insertionSort fun x y => x.2.length ≤ y.2.length

theorem visitOrder_byCount (program : List (Nat × List FInst)) : ByCount program (visitOrder program) where
  perm := List.perm_insertionSort _ _
  sorted := by
    have inst1 : Std.Total (fun x y : Nat × List FInst => x.2.length ≤ y.2.length) := ⟨fun a b => le_total _ _⟩
    have inst2 : IsTrans (Nat × List FInst) (fun x y => x.2.length ≤ y.2.length) := ⟨fun a b c => le_trans⟩
    exact List.pairwise_insertionSort _ _
  stable n := filter_sort (fun x : Nat × List FInst => x.2.length) n program

theorem sortAddresses_order {program : List (Nat × List FInst)} (hn : (program.map (·.1)).Nodup) :
    sortAddresses false program (program.map (·.1)) = (visitOrder program).map (·.1) := by
  unfold sortAddresses visitOrder
  simp only [Bool.false_eq_true, if_false]
  apply insertionSort_map
  intro x hx y hy
  rw [candCount_of (dictGet_of_mem hn (show (x.1, x.2) ∈ program from hx)),
    candCount_of (dictGet_of_mem hn (show (y.1, y.2) ∈ program from hy))]

theorem known_iff {orig : List (Nat × FInst)} (hn : (orig.map (·.1)).Nodup) {a : Nat} {o : FInst} (h : (a, o) ∈ orig) :
    Known orig a = !o.meta.ignore := by
  unfold Known
  congr 1
  rw [Bool.eq_iff_iff, List.any_eq_true]
  constructor
  · rintro ⟨p, hp, hc⟩
    simp only [Bool.and_eq_true, decide_eq_true_eq] at hc
    have h1 := dictGet_of_mem hn (show (p.1, p.2) ∈ orig from hp)
    rw [hc.1, dictGet_of_mem hn h] at h1
    cases h1
    exact hc.2
  · intro hi
    exact ⟨_, h, by simp [hi]⟩

theorem indexAt_of {orig : List (Nat × FInst)} (hn : (orig.map (·.1)).Nodup) {a : Nat} {o : FInst} (h : (a, o) ∈ orig)
    (pa : List FInst) : indexAt orig (a, pa) = firstLike pa o := by
  unfold indexAt
  simp only
  cases hf : orig.find? fun p => p.1 = a with
  | none =>
    have := List.find?_eq_none.1 hf (a, o) h
    simp at this
  | some p =>
    have h1 := List.find?_some hf
    have h2 := List.mem_of_find?_eq_some hf
    simp only [decide_eq_true_eq] at h1
    have h3 := dictGet_of_mem hn (show (p.1, p.2) ∈ orig from h2)
    rw [h1, dictGet_of_mem hn h] at h3
    cases h3
    rfl

theorem queue_loop (orig : List (Nat × FInst)) (program : List (Nat × List FInst)) (h : Corrupted orig program)
    (hb : ∀ a pa, (a, pa) ∈ program → pa.length ≤ 2 ^ 32) : ∀ (order : List (Nat × List FInst)) (fuel : Nat)
    (s : FwdSt (BitQueue × Nat)) (S : List Bool), (∀ x ∈ order, x ∈ program) →
    (order.Pairwise fun x y => x.2.length ≤ y.2.length) → order.length < fuel →
    s.program = program → s.addresses = order.map (·.1) → OnTape s.sol.1 S 0 →
    ∃ s', whileLoop (fun s : FwdSt (BitQueue × Nat) => decide (0 < s.addresses.length))
        (fwdTurn queueBuilder (dictGet orig)) fuel s = some (.ok s') ∧
      OnTape s'.sol.1 (laidAll S (groupsFor orig order)) 0 := by
  intro order
  induction order with
  | nil =>
    intro fuel s S _ _ hf hp ha ht
    obtain ⟨fuel, rfl⟩ : ∃ k, fuel = k + 1 := ⟨fuel - 1, by simp at hf; omega⟩
    refine ⟨s, ?_, ht⟩
    simp [whileLoop, ha]
  | cons x order ih =>
    intro fuel s S hmem hsort hf hp ha ht
    obtain ⟨a, pa⟩ := x
    obtain ⟨fuel, rfl⟩ : ∃ k, fuel = k + 1 := ⟨fuel - 1, by simp at hf; omega⟩
    have hx := hmem (a, pa) (by simp)
    obtain ⟨o, ho, hopa⟩ := h.known a pa hx
    have hsort' := (List.pairwise_cons.1 hsort).2
    have hmem' : ∀ y ∈ order, y ∈ program := fun y hy => hmem y (by simp [hy])
    have hlenf : order.length < fuel := by simp at hf; omega
    have hdp : dictGet s.program a = some pa := by rw [hp]; exact dictGet_of_mem h.keys hx
    have hdo : dictGet orig a = some o := dictGet_of_mem h.addrs ho
    have hkn := known_iff h.addrs ho
    have hne : pa.length ≠ 0 := fun hc => by
      rw [List.length_eq_zero_iff] at hc; rw [hc] at hopa; simp at hopa
    have hresort : sortAddresses false program (order.map (·.1)) = order.map (·.1) := by
      unfold sortAddresses
      simp only [Bool.false_eq_true, if_false]
      apply List.Pairwise.insertionSort_eq
      rw [List.pairwise_map]
      refine hsort'.imp_of_mem ?_
      intro y z hy hz hle
      rw [candCount_of (dictGet_of_mem h.keys (show (y.1, y.2) ∈ program from hmem' y hy)),
        candCount_of (dictGet_of_mem h.keys (show (z.1, z.2) ∈ program from hmem' z hz))]
      exact hle
    have step : ∀ s1, fwdTurn queueBuilder (dictGet orig) s = .ok s1 →
        whileLoop (fun s : FwdSt (BitQueue × Nat) => decide (0 < s.addresses.length))
          (fwdTurn queueBuilder (dictGet orig)) (fuel + 1) s =
        whileLoop (fun s : FwdSt (BitQueue × Nat) => decide (0 < s.addresses.length))
          (fwdTurn queueBuilder (dictGet orig)) fuel s1 := by
      intro s1 h1
      rw [whileLoop, if_pos (by simp [ha]), h1]
    have hturn : fwdTurn queueBuilder (dictGet orig) s =
        if pa.length = 0 ∨ o.meta.ignore = true then
            .ok { s with addresses := order.map (·.1), log := s.log ++ [⟨a, 0, pa.length, true⟩] }
          else if 1 < pa.length then do
            let index ← findIndex pa o
            let sol ← queueBuilder.onFound s.sol index pa o pa.length
            fwdFinish queueBuilder s a (order.map (·.1)) pa index sol
          else fwdFinish queueBuilder s a (order.map (·.1)) pa 0 s.sol := by
      unfold fwdTurn
      rw [ha]
      simp only [List.map_cons, hdp, hdo]
    by_cases hig : o.meta.ignore = true
    · rw [if_pos (Or.inr hig)] at hturn
      obtain ⟨s', e1, e2⟩ := ih fuel
        { s with addresses := order.map (·.1), log := s.log ++ [⟨a, 0, pa.length, true⟩] }
        S hmem' hsort' hlenf hp rfl ht
      refine ⟨s', by rw [step _ hturn]; exact e1, ?_⟩
      have : groupsFor orig ((a, pa) :: order) = groupsFor orig order := by
        unfold groupsFor
        rw [List.filter_cons, if_neg (by simp [hkn, hig])]
      rw [this]
      exact e2
    · rw [if_neg (by rintro (hc | hc); exacts [hne hc, hig hc])] at hturn
      have hfin : ∀ i sol, i < pa.length → ∃ s1, fwdFinish queueBuilder s a (order.map (·.1)) pa i sol = .ok s1 ∧
          s1.program = program ∧ s1.addresses = order.map (·.1) ∧ s1.sol = sol := by
        intro i sol hi
        unfold fwdFinish
        rw [List.getElem?_eq_getElem hi]
        exact ⟨_, rfl, by simpa [queueBuilder] using hp, by simp only [queueBuilder]; simp [hp, hresort], rfl⟩
      by_cases h1 : 1 < pa.length
      · rw [if_pos h1] at hturn
        obtain ⟨i, c, hi, _, _, hlt⟩ := findIndex_ok ⟨o, hopa, rfl⟩
        have hix : i = firstLike pa o := by
          unfold findIndex at hi
          simp only at hi
          split at hi
          · cases hi
          · exact (Except.ok.inj hi).symm
        have hlog : 1 ≤ Nat.log 2 pa.length := by
          exact Nat.log_pos (by omega) h1
        have hlog' : Nat.log 2 pa.length ≤ 32 := by
          have := Nat.log_mono_right (b := 2) (hb a pa hx)
          rwa [Nat.log_pow (by omega)] at this
        have ht' : OnTape { s.sol.1 with wordSize := Nat.log 2 pa.length } S 0 :=
          ⟨ht.eq, ht.dq, ht.word, ht.le, ht.bits, ht.small⟩
        obtain ⟨q', e1, e2, e3⟩ := ht'.enqueue i 0 hlog (by simpa using hlog')
        have hon : queueBuilder.onFound s.sol i pa o pa.length = .ok (q', s.sol.2 + Nat.log 2 pa.length) := by
          simp only [queueBuilder, if_pos h1, bind, Except.bind, hi]
          simp only [Nat.cast_zero] at e1
          rw [e1]
          rfl
        obtain ⟨s1, f1, f2, f3, f4⟩ := hfin i (q', s.sol.2 + Nat.log 2 pa.length) hlt
        have hturn' : fwdTurn queueBuilder (dictGet orig) s = .ok s1 := by
          rw [hturn, hi]
          simp only [bind, Except.bind]
          rw [hon]
          exact f1
        obtain ⟨s', g1, g2⟩ := ih fuel s1 _ hmem' hsort' hlenf f2 f3 (by rw [f4]; exact e3)
        refine ⟨s', by rw [step _ hturn']; exact g1, ?_⟩
        have : groupsFor orig ((a, pa) :: order) = bitsAt i 0 (Nat.log 2 pa.length) :: groupsFor orig order := by
          unfold groupsFor
          rw [List.filter_cons, if_pos (by simp [hkn, hig, h1]), List.map_cons, indexAt_of h.addrs ho, hix]
        rw [this]
        exact g2
      · rw [if_neg h1] at hturn
        obtain ⟨s1, f1, f2, f3, f4⟩ := hfin 0 s.sol (by omega)
        obtain ⟨s', g1, g2⟩ := ih fuel s1 S hmem' hsort' hlenf f2 f3 (by rw [f4]; exact ht)
        refine ⟨s', by rw [step _ (hturn.trans f1)]; exact g1, ?_⟩
        have : groupsFor orig ((a, pa) :: order) = groupsFor orig order := by
          unfold groupsFor
          rw [List.filter_cons, if_neg (by simp [h1])]
        rw [this]
        exact g2

/-- **C48 and C49, what the queue holds.**  The words of the queue are the indexes of the
originals at the addresses with more than one candidate, written one after the other, fewest
candidates first, in `log2` bits rounded down. -/
theorem C49_queue_contents (orig : List (Nat × FInst)) (program : List (Nat × List FInst))
    (h : Corrupted orig program) (hb : ∀ a pa, (a, pa) ∈ program → pa.length ≤ 2 ^ 32)
    (fuel : Nat) (hf : program.length < fuel) :
    ∃ s order, fwdBuild queueBuilder (dictGet orig) fuel program (budgetOf (orig.map (·.2)))
        (BitQueue.new 1, 0) = some (.ok s) ∧ ByCount program order ∧
      ∃ n, 1 ≤ n ∧ n ≤ 32 ∧
        stream s.sol.1.getBytes = laidAll [] (groupsFor orig order) ++ List.replicate n false := by
  have ho := visitOrder_byCount program
  obtain ⟨s, e1, e2⟩ := queue_loop orig program h hb (visitOrder program) fuel
    { program := program, budget := budgetOf (orig.map (·.2))
      addresses := sortAddresses queueBuilder.fromMax program (program.map (·.1))
      sol := (BitQueue.new 1, 0), log := [] } [] (fun x hx => ho.perm.mem_iff.1 hx) ho.sorted
    (by rw [ho.perm.length_eq]; exact hf) rfl (sortAddresses_order h.keys) (OnTape.new 1)
  refine ⟨s, visitOrder program, e1, ho, 32 - (laidAll [] (groupsFor orig (visitOrder program))).length % 32,
    by omega, by omega, ?_⟩
  simpa [BitQueue.getBytes] using e2.bits

theorem bitsAt_eq_iff (x y k : Nat) : bitsAt x 0 k = bitsAt y 0 k ↔ x % 2 ^ k = y % 2 ^ k := by
  constructor
  · intro he
    apply Nat.eq_of_testBit_eq
    intro i
    rw [Nat.testBit_mod_two_pow, Nat.testBit_mod_two_pow]
    by_cases hi : i < k
    · have := congrArg (fun l => l[i]?) he
      simp only [bitsAt, List.getElem?_map, Nat.zero_add] at this
      rw [List.getElem?_range hi] at this
      simp only [Option.map_some, Option.some.injEq] at this
      rw [this]
    · simp [hi]
  · intro he
    unfold bitsAt
    apply List.map_congr_left
    intro i hi
    rw [List.mem_range] at hi
    have := congrArg (fun n => n.testBit i) he
    simp only [Nat.testBit_mod_two_pow, hi, decide_true, Bool.true_and] at this
    simpa using this

theorem keptBits_length : ∀ (ns : List Nat) (p : Nat), (keptBits p ns).length = ns.length := by
  intro ns
  induction ns with
  | nil => intro p; rfl
  | cons n ns ih => intro p; simp only [keptBits]; split <;> simp [ih]

theorem agree_iff {α : Type} (f g : α → Nat) (sz : α → Nat) : ∀ (l : List α) (p : Nat), p ≤ 32 →
    (AgreeOn (keptBits p (l.map sz)) (l.map fun x => bitsAt (f x) 0 (sz x)) (l.map fun x => bitsAt (g x) 0 (sz x)) ↔
      ∀ x k, (x, k) ∈ l.zip (keptBits p (l.map sz)) → f x % 2 ^ k = g x % 2 ^ k) := by
  intro l
  induction l with
  | nil => intro p _; simp [AgreeOn, keptBits]
  | cons x l ih =>
    intro p hp
    obtain ⟨k, p', hk, hp', he⟩ : ∃ k p', k ≤ sz x ∧ p' ≤ 32 ∧
        keptBits p ((x :: l).map sz) = k :: keptBits p' (l.map sz) := by
      simp only [List.map_cons, keptBits]
      split
      · exact ⟨_, _, le_refl _, by omega, rfl⟩
      · exact ⟨_, _, by omega, by omega, rfl⟩
    rw [he]
    simp only [List.map_cons, AgreeOn, List.zip_cons_cons, List.mem_cons, Prod.mk.injEq]
    rw [ih p' hp', bitsAt_take _ _ _ _ hk, bitsAt_take _ _ _ _ hk, bitsAt_eq_iff]
    constructor
    · rintro ⟨h1, h2⟩ y j (⟨rfl, rfl⟩ | hm)
      · exact h1
      · exact h2 y j hm
    · intro h
      exact ⟨h x k (Or.inl ⟨rfl, rfl⟩), fun y j hm => h y j (Or.inr hm)⟩

/-- The addresses at which an index is written. -/
def Spec.chosenAt (order : List (Nat × List FInst)) : List (Nat × List FInst) := order.filter fun x => 1 < x.2.length

/-- **C49, exactly when two originals get the same queue.**  Let the addresses with more than
one candidate be taken fewest candidates first.  An index is written in `log2` bits rounded
down, of which all survive if they fit into the current word and some of the first otherwise.
Two originals get the same queue exactly if at every address the indexes of the two originals
agree on these bits. -/
theorem C49_queue_exact (orig1 orig2 : List (Nat × FInst))
    (program : List (Nat × List FInst)) (h1 : Corrupted orig1 program) (h2 : Corrupted orig2 program)
    (hd1 : ∀ a o, (a, o) ∈ orig1 → o.meta.ignore = false)
    (hd2 : ∀ a o, (a, o) ∈ orig2 → o.meta.ignore = false)
    (hb : ∀ a pa, (a, pa) ∈ program → pa.length ≤ 2 ^ 32) (fuel : Nat) (hf : program.length < fuel) :
    ∃ s1 s2 order,
      fwdBuild queueBuilder (dictGet orig1) fuel program (budgetOf (orig1.map (·.2)))
        (BitQueue.new 1, 0) = some (.ok s1) ∧
      fwdBuild queueBuilder (dictGet orig2) fuel program (budgetOf (orig2.map (·.2)))
        (BitQueue.new 1, 0) = some (.ok s2) ∧
      ByCount program order ∧
      (s1.sol.1.getBytes = s2.sol.1.getBytes ↔
        ∀ a pa k, ((a, pa), k) ∈ (chosenAt order).zip
            (keptBits 0 ((chosenAt order).map fun x => Nat.log 2 x.2.length)) →
          ∀ o1 o2, (a, o1) ∈ orig1 → (a, o2) ∈ orig2 →
            firstLike pa o1 % 2 ^ k = firstLike pa o2 % 2 ^ k) := by
  have ho := visitOrder_byCount program
  obtain ⟨s1, e1, e2⟩ := queue_loop orig1 program h1 hb (visitOrder program) fuel
    { program := program, budget := budgetOf (orig1.map (·.2))
      addresses := sortAddresses queueBuilder.fromMax program (program.map (·.1))
      sol := (BitQueue.new 1, 0), log := [] } [] (fun x hx => ho.perm.mem_iff.1 hx) ho.sorted
    (by rw [ho.perm.length_eq]; exact hf) rfl (sortAddresses_order h1.keys) (OnTape.new 1)
  obtain ⟨s2, f1, f2⟩ := queue_loop orig2 program h2 hb (visitOrder program) fuel
    { program := program, budget := budgetOf (orig2.map (·.2))
      addresses := sortAddresses queueBuilder.fromMax program (program.map (·.1))
      sol := (BitQueue.new 1, 0), log := [] } [] (fun x hx => ho.perm.mem_iff.1 hx) ho.sorted
    (by rw [ho.perm.length_eq]; exact hf) rfl (sortAddresses_order h2.keys) (OnTape.new 1)
  refine ⟨s1, s2, visitOrder program, e1, f1, ho, ?_⟩
  generalize visitOrder program = order at ho e2 f2
  have hgr : ∀ orig : List (Nat × FInst), (∀ a o, (a, o) ∈ orig → o.meta.ignore = false) →
      groupsFor orig order = (chosenAt order).map fun x => bitsAt (indexAt orig x) 0 (Nat.log 2 x.2.length) := by
    intro orig hd
    unfold groupsFor chosenAt
    congr 1
    apply List.filter_congr
    intro x _
    have : Known orig x.1 = true := by
      unfold Known
      rw [Bool.not_eq_true', List.any_eq_false]
      intro p hp
      simp [hd p.1 p.2 hp]
    rw [this, Bool.and_true]
  rw [hgr orig1 hd1] at e2
  rw [hgr orig2 hd2] at f2
  have hlen : ∀ orig : List (Nat × FInst), ((chosenAt order).map fun x =>
      bitsAt (indexAt orig x) 0 (Nat.log 2 x.2.length)).map List.length =
      (chosenAt order).map fun x => Nat.log 2 x.2.length := by
    intro orig
    rw [List.map_map]
    apply List.map_congr_left
    intro x _
    simp
  have hle : ∀ g ∈ (chosenAt order).map fun x => bitsAt (indexAt orig1 x) 0 (Nat.log 2 x.2.length), g.length ≤ 32 := by
    intro g hg
    obtain ⟨x, hx, rfl⟩ := List.mem_map.1 hg
    have hxp := ho.perm.mem_iff.1 (List.mem_of_mem_filter hx)
    have := Nat.log_mono_right (b := 2) (hb x.1 x.2 hxp)
    rw [Nat.log_pow (by omega)] at this
    simpa using this
  rw [bytes_eq_iff e2 f2 (by rw [hlen, hlen]) hle, hlen, agree_iff _ _ _ _ 0 (by omega)]
  constructor
  · intro h a pa k hm o1 o2 m1 m2
    have := h (a, pa) k hm
    rwa [indexAt_of h1.addrs m1, indexAt_of h2.addrs m2] at this
  · rintro h ⟨a, pa⟩ k hm
    have hxp := ho.perm.mem_iff.1 (List.mem_of_mem_filter (List.of_mem_zip hm).1)
    obtain ⟨o1, m1, _⟩ := h1.known a pa hxp
    obtain ⟨o2, m2, _⟩ := h2.known a pa hxp
    rw [indexAt_of h1.addrs m1, indexAt_of h2.addrs m2]
    exact h a pa k hm o1 o2 m1 m2

/-- Three addresses with four, two and three candidates: the indexes are kept in 1, 1 and 2
bits, in the order of the second, the third and the first address. -/
example :
    let program := [(0, [textInst 7 10, textInst 7 11, textInst 7 12, textInst 7 13]),
      (4, [textInst 7 20, textInst 7 21]), (8, [textInst 7 30, textInst 7 31, textInst 7 32])]
    (visitOrder program).map (·.1) = [4, 8, 0] ∧
    keptBits 0 ((chosenAt (visitOrder program)).map fun x => Nat.log 2 x.2.length) = [1, 1, 2] ∧
    (outcome queueBuilder [(0, textInst 7 12), (4, textInst 7 21), (8, textInst 7 30)] program
      (BitQueue.new 1, 0)).map (·.1.1.bytes) = some [9] ∧
    (outcome queueBuilder [(0, textInst 7 12), (4, textInst 7 21), (8, textInst 7 32)] program
      (BitQueue.new 1, 0)).map (·.1.1.bytes) = some [9] ∧
    (outcome queueBuilder [(0, textInst 7 12), (4, textInst 7 21), (8, textInst 7 31)] program
      (BitQueue.new 1, 0)).map (·.1.1.bytes) = some [11] := by
  decide +kernel

end Verif
