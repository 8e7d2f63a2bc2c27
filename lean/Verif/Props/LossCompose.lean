import Verif.Props.Corruptors

/-! # C123, C124: losing more packets, and losing packets again -/

namespace Verif
open Spec

/-- The bits of word `w` for which packet-loss corruption makes candidates when the packets `p :: lost`
are lost: the bits of the groups lost in the rounds that `p` takes part in, the last bit of a word
moved to the first of the next. -/
def Spec.guessedBit (bpi size : Nat) (order : List Nat) (p : Nat) (lost : List Nat) (w i : Nat) : Prop :=
  i < 32 ∧ ∃ y, lostBit bpi size order (p :: lost) y ∧
    bpi * (y / bpi / order.length * order.length + order.idxOf p) < 32 * size ∧
    32 * w + i = if y % 32 = 31 then y + 1 else y

theorem packet_words {lg : Rat → Int} {fuel bpi size p : Nat} {order lost : List Nat} (hd : bpi ∣ 32) (hn : order.Nodup)
    (hin : ∀ q ∈ p :: lost, q ∈ order) (hf : 32 * size < fuel) {prog prog' : Program}
    (hk : (prog.map (·.1)).Nodup) (henc : ∀ q ∈ prog, ∀ i ∈ q.2, i.encoding < 2 ^ 32)
    (h : packetCorrupt lg fuel order.length bpi size order (p :: lost) prog = some (.ok prog')) :
    prog'.map (·.1) = prog.map (·.1) ∧ (∀ q ∈ prog', ∀ i ∈ q.2, i.encoding < 2 ^ 32) ∧
    ∀ w a, ((prog.map (·.1)).insertionSort (· ≤ ·))[w]? = some a → ∀ l, dictGet prog a = some l →
      ∃ l', dictGet prog' a = some l' ∧ ∀ v, v ∈ l'.map (·.encoding) ↔
        ∃ u ∈ l.map (·.encoding), agreeOutside (guessedBit bpi size order p lost w) u v := by
  have hb : bpi ≤ 32 := Nat.le_of_dvd (by omega) hd
  have ho : order ≠ [] := List.ne_nil_of_mem (hin p (by simp))
  obtain ⟨es, hes, _, hbits⟩ := C15_exact bpi size p order lost hd hn hin fuel hf
  have hne : es ≠ [] := by
    rintro rfl
    unfold packetCorrupt at h
    rw [if_neg (by simp)] at h
    simp only [if_neg ho, hes] at h
    simp [sortErrors] at h
  obtain ⟨p', h1, h2, h3⟩ := C24_packet_loss lg fuel order.length bpi size order (p :: lost) prog hb ho (by simp) es hes
    hne hk henc
  rw [h, Option.some.injEq, Except.ok.injEq] at h1
  subst h1
  have hS : ∀ w i, (i < 32 ∧ predictedBit bpi es (32 * w + i)) ↔ guessedBit bpi size order p lost w i := by
    intro w i
    unfold guessedBit
    rw [hbits]
  have key : ∀ w a, ((prog.map (·.1)).insertionSort (· ≤ ·))[w]? = some a → ∀ l, dictGet prog a = some l →
      ∃ l', dictGet prog' a = some l' ∧ ∀ v, v ∈ l'.map (·.encoding) ↔
        ∃ u ∈ l.map (·.encoding), agreeOutside (guessedBit bpi size order p lost w) u v := by
    intro w a hw l hl
    obtain ⟨l', h4, _, h5, _⟩ := h3 _ (List.perm_insertionSort _ _) (List.pairwise_insertionSort _ _) w a l hw hl
    refine ⟨l', h4, fun v => ?_⟩
    rw [h5 v]
    have : (fun i => i < 32 ∧ predictedBit bpi es (32 * w + i)) = guessedBit bpi size order p lost w :=
      funext fun i => propext (hS w i)
    rw [this]
  refine ⟨h2, ?_, key⟩
  intro q hq i hi
  have hk' : (prog'.map (·.1)).Nodup := h2 ▸ hk
  have hm : q.1 ∈ prog.map (·.1) := by rw [← h2]; exact List.mem_map.2 ⟨q, hq, rfl⟩
  obtain ⟨l, hl⟩ := Option.isSome_iff_exists.1 ((dictGet_isSome prog q.1).2 hm)
  obtain ⟨w, hw⟩ := List.mem_iff_getElem?.1 (show q.1 ∈ (prog.map (·.1)).insertionSort (· ≤ ·) by
    rw [List.mem_insertionSort]; exact hm)
  obtain ⟨l', h4, h5⟩ := key w q.1 hw l hl
  rw [dictGet_of_mem hk' hq, Option.some.injEq] at h4
  subst h4
  obtain ⟨u, hu, hag⟩ := (h5 i.encoding).1 (List.mem_map.2 ⟨i, hi, rfl⟩)
  obtain ⟨j, hj, rfl⟩ := List.mem_map.1 hu
  exact lt_of_agree (fun j hj => hj.1) (henc _ (dictGet_mem hl) j hj) hag

/-- Packet-loss corruption goes through when the first of the lost packets lies within the data. -/
theorem packet_goes {lg : Rat → Int} {fuel bpi size p : Nat} {order lost : List Nat} (hd : bpi ∣ 32) (hn : order.Nodup)
    (hin : ∀ q ∈ p :: lost, q ∈ order) (hf : 32 * size < fuel) {prog : Program}
    (hk : (prog.map (·.1)).Nodup) (henc : ∀ q ∈ prog, ∀ i ∈ q.2, i.encoding < 2 ^ 32) :
    (∃ prog', packetCorrupt lg fuel order.length bpi size order (p :: lost) prog = some (.ok prog')) ↔
      bpi * order.idxOf p < 32 * size := by
  have hpos : 0 < bpi := Nat.pos_of_dvd_of_pos hd (by omega)
  have hb : bpi ≤ 32 := Nat.le_of_dvd (by omega) hd
  have ho : order ≠ [] := List.ne_nil_of_mem (hin p (by simp))
  have hP : 0 < order.length := List.length_pos_of_mem (hin p (by simp))
  obtain ⟨es, hes, _, hbits⟩ := C15_exact bpi size p order lost hd hn hin fuel hf
  have hiff : es ≠ [] ↔ bpi * order.idxOf p < 32 * size := by
    constructor
    · intro hne
      by_contra hlt
      apply hne
      obtain ⟨f, rfl⟩ : ∃ f, fuel = f + 1 := ⟨fuel - 1, by omega⟩
      unfold predictCorruption at hes
      rw [startBits_ok bpi order (p :: lost) hin] at hes
      have hc : firstBelow (size * 32) ⟨bpi * order.idxOf p :: lost.map fun q => bpi * order.idxOf q, []⟩ = false := by
        simp only [firstBelow, decide_eq_false_iff_not]
        omega
      simp only [List.map_cons, whileLoop, hc] at hes
      simpa [Except.map] using hes.symm
    · intro hlt hnil
      subst hnil
      have hidx := List.idxOf_lt_length_of_mem (hin p (by simp))
      have hdiv : bpi * order.idxOf p / bpi = order.idxOf p := Nat.mul_div_cancel_left _ hpos
      have := (hbits (if (bpi * order.idxOf p) % 32 = 31 then bpi * order.idxOf p + 1 else bpi * order.idxOf p)).2
        ⟨bpi * order.idxOf p, ⟨hlt, p, by simp, by
          rw [hdiv, Nat.mod_eq_of_lt hidx, List.getElem?_eq_getElem hidx, List.getElem_idxOf]⟩, by
          rw [hdiv, Nat.div_eq_of_lt hidx, Nat.zero_mul, Nat.zero_add]; exact hlt, rfl⟩
      obtain ⟨e, he, _⟩ := this
      simp at he
  rw [← hiff]
  constructor
  · rintro ⟨prog', h⟩ rfl
    unfold packetCorrupt at h
    rw [if_neg (by simp)] at h
    simp only [if_neg ho, hes] at h
    simp [sortErrors] at h
  · intro hne
    obtain ⟨p', h1, _⟩ := C24_packet_loss lg fuel order.length bpi size order (p :: lost) prog hb ho (by simp) es hes
      hne hk henc
    exact ⟨p', h1⟩

theorem guessed_mono {bpi size p p' : Nat} {order lost lost' : List Nat} (hsub : ∀ q ∈ p :: lost, q ∈ p' :: lost')
    (hfirst : order.idxOf p' ≤ order.idxOf p) {w i : Nat} (h : guessedBit bpi size order p lost w i) :
    guessedBit bpi size order p' lost' w i := by
  obtain ⟨hi, y, ⟨hy, q, hq, hget⟩, h2, h3⟩ := h
  refine ⟨hi, y, ⟨hy, q, hsub q hq, hget⟩, lt_of_le_of_lt (Nat.mul_le_mul_left _ (by omega)) h2, h3⟩

/-- **C123, what does hold** (missing: lists whose first packet comes later in the order than the first
of the shorter list, `C123_refuted`): losing more packets never takes a candidate away. -/
theorem C123_more_losses_partial (lg : Rat → Int) (fuel bpi size p p' : Nat) (order lost lost' : List Nat) (hd : bpi ∣ 32)
    (hn : order.Nodup) (hin : ∀ q ∈ p' :: lost', q ∈ order) (hsub : ∀ q ∈ p :: lost, q ∈ p' :: lost')
    (hfirst : order.idxOf p' ≤ order.idxOf p) (hf : 32 * size < fuel) (prog few : Program)
    (hk : (prog.map (·.1)).Nodup) (henc : ∀ q ∈ prog, ∀ i ∈ q.2, i.encoding < 2 ^ 32)
    (h : packetCorrupt lg fuel order.length bpi size order (p :: lost) prog = some (.ok few)) :
    ∃ many, packetCorrupt lg fuel order.length bpi size order (p' :: lost') prog = some (.ok many) ∧
      many.map (·.1) = few.map (·.1) ∧
      ∀ a l, dictGet few a = some l → ∃ l', dictGet many a = some l' ∧ l.map (·.encoding) ⊆ l'.map (·.encoding) := by
  have hin' : ∀ q ∈ p :: lost, q ∈ order := fun q hq => hin q (hsub q hq)
  have hlt := (packet_goes (lg := lg) hd hn hin' hf hk henc).1 ⟨few, h⟩
  obtain ⟨many, hm⟩ := (packet_goes (lg := lg) hd hn hin hf hk henc).2
    (lt_of_le_of_lt (Nat.mul_le_mul_left _ hfirst) hlt)
  obtain ⟨h1, _, h3⟩ := packet_words hd hn hin' hf hk henc h
  obtain ⟨g1, _, g3⟩ := packet_words hd hn hin hf hk henc hm
  refine ⟨many, hm, g1.trans h1.symm, ?_⟩
  intro a l hl
  have ha : a ∈ prog.map (·.1) := by rw [← h1, ← dictGet_isSome, hl]; rfl
  obtain ⟨l₀, hl₀⟩ := Option.isSome_iff_exists.1 ((dictGet_isSome prog a).2 ha)
  obtain ⟨w, hw⟩ := List.mem_iff_getElem?.1 (show a ∈ (prog.map (·.1)).insertionSort (· ≤ ·) by
    rw [List.mem_insertionSort]; exact ha)
  obtain ⟨l₁, e1, e2⟩ := h3 w a hw l₀ hl₀
  obtain ⟨l₂, f1, f2⟩ := g3 w a hw l₀ hl₀
  rw [hl, Option.some.injEq] at e1
  subst e1
  refine ⟨l₂, f1, fun v hv => ?_⟩
  obtain ⟨u, hu, hag⟩ := (e2 v).1 hv
  exact (f2 v).2 ⟨u, hu, fun i hi => hag i fun hg => hi (guessed_mono hsub hfirst hg)⟩

/-- C123 is false in general: with fifteen packets of two bits in one word, losing packet 0 makes
candidates for bit 30, in the second round.  Losing packets 14 and 0, listed in this order, does not:
packet 14 takes part in the first round only. -/
theorem C123_refuted :
    ((packetCorrupt (fun _ => 0) 100 15 2 1 (List.range 15) [0] [(0, [⟨0, 0⟩])]).bind fun r =>
      r.toOption.map fun p => p.map fun q => decide (2 ^ 30 ∈ q.2.map (·.encoding))) = some [true] ∧
    ((packetCorrupt (fun _ => 0) 100 15 2 1 (List.range 15) [14, 0] [(0, [⟨0, 0⟩])]).bind fun r =>
      r.toOption.map fun p => p.map fun q => decide (2 ^ 30 ∈ q.2.map (·.encoding))) = some [false] ∧
    ((packetCorrupt (fun _ => 0) 100 15 2 1 (List.range 15) [0, 14] [(0, [⟨0, 0⟩])]).bind fun r =>
      r.toOption.map fun p => p.map fun q => decide (2 ^ 30 ∈ q.2.map (·.encoding))) = some [true] := by
  decide +kernel

/-- C123: which losses can be corrupted for at all does not depend on the program: exactly those whose
first listed packet lies within the data. -/
theorem C123_goes (lg : Rat → Int) (fuel bpi size p : Nat) (order lost : List Nat) (hd : bpi ∣ 32) (hn : order.Nodup)
    (hin : ∀ q ∈ p :: lost, q ∈ order) (hf : 32 * size < fuel) (prog : Program)
    (hk : (prog.map (·.1)).Nodup) (henc : ∀ q ∈ prog, ∀ i ∈ q.2, i.encoding < 2 ^ 32) :
    (∃ prog', packetCorrupt lg fuel order.length bpi size order (p :: lost) prog = some (.ok prog')) ↔
      bpi * order.idxOf p < 32 * size :=
  packet_goes hd hn hin hf hk henc

/-! ### One loss after the other -/

theorem agree_compose {P Q : Nat → Prop} (hP : ∀ i, P i → i < 32) (u v : Nat) :
    (∃ x, agreeOutside P u x ∧ agreeOutside Q x v) ↔ agreeOutside (fun i => P i ∨ Q i) u v := by
  classical
  constructor
  · rintro ⟨x, h1, h2⟩ i hi
    exact (h1 i fun h => hi (Or.inl h)).trans (h2 i fun h => hi (Or.inr h))
  · intro h
    let m := Nat.ofBits (n := 32) fun i => decide (P i)
    have hm : ∀ i, m.testBit i = decide (P i) := by
      intro i
      by_cases hi : i < 32
      · exact Nat.testBit_ofBits_lt _ _ hi
      · rw [Nat.testBit_ofBits_ge _ _ (by omega)]
        exact (decide_eq_false fun h => hi (hP i h)).symm
    refine ⟨u ^^^ ((u ^^^ v) &&& m), ?_, ?_⟩
    · intro i hi
      simp [hm, hi]
    · intro i hi
      by_cases hp : P i
      · simp [hm, hp]
      · have := h i (by simp [hp, hi])
        simp [hm, hp, this]

/-- The first listed packet takes part in every round that any of the lost ones takes part in. -/
theorem guessed_earliest {bpi size p : Nat} {order lost : List Nat} (hd : bpi ∣ 32) (hn : order.Nodup)
    (hin : ∀ q ∈ p :: lost, q ∈ order) (hmin : ∀ q ∈ lost, order.idxOf p ≤ order.idxOf q) (w i : Nat) :
    guessedBit bpi size order p lost w i ↔
      i < 32 ∧ ∃ y, lostBit bpi size order (p :: lost) y ∧ 32 * w + i = if y % 32 = 31 then y + 1 else y := by
  have hP : 0 < order.length := List.length_pos_of_mem (hin p (by simp))
  constructor
  · rintro ⟨hi, y, h1, _, h3⟩
    exact ⟨hi, y, h1, h3⟩
  · rintro ⟨hi, y, h1, h3⟩
    refine ⟨hi, y, h1, ?_, h3⟩
    obtain ⟨hy, q, hq, hget⟩ := h1
    have hmodlt := Nat.mod_lt (y / bpi) hP
    have hidx : order.idxOf q = y / bpi % order.length := by
      rw [List.getElem?_eq_getElem hmodlt, Option.some.injEq] at hget
      rw [← hget]
      exact hn.idxOf_getElem _ hmodlt
    have hle : order.idxOf p ≤ order.idxOf q := by
      rcases List.mem_cons.1 hq with rfl | h
      · exact Nat.le_refl _
      · exact hmin q h
    have hi : y / bpi / order.length * order.length + order.idxOf q = y / bpi := by
      rw [hidx, Nat.mul_comm]; exact Nat.div_add_mod _ _
    have : bpi * (y / bpi / order.length * order.length + order.idxOf p) ≤ bpi * (y / bpi) :=
      Nat.mul_le_mul_left _ (by omega)
    have := Nat.div_add_mod y bpi
    omega

/-- **C124.**  Corrupting for some lost packets and then for others makes the candidates of losing all
of them at once: the same encodings at every address.  (In each of the three lists the first packet
comes first in the order.) -/
theorem C124_successive (lg : Rat → Int) (fuel bpi size p q : Nat) (order lost lost' : List Nat) (hd : bpi ∣ 32)
    (hn : order.Nodup) (hin : ∀ r ∈ p :: lost ++ q :: lost', r ∈ order)
    (hmin : ∀ r ∈ lost ++ q :: lost', order.idxOf p ≤ order.idxOf r) (hmin' : ∀ r ∈ lost', order.idxOf q ≤ order.idxOf r)
    (hf : 32 * size < fuel) (prog one two : Program)
    (hk : (prog.map (·.1)).Nodup) (henc : ∀ q ∈ prog, ∀ i ∈ q.2, i.encoding < 2 ^ 32)
    (h : packetCorrupt lg fuel order.length bpi size order (p :: lost) prog = some (.ok one))
    (h' : packetCorrupt lg fuel order.length bpi size order (q :: lost') one = some (.ok two)) :
    ∃ both, packetCorrupt lg fuel order.length bpi size order (p :: (lost ++ q :: lost')) prog = some (.ok both) ∧
      both.map (·.1) = two.map (·.1) ∧
      ∀ a v, (∃ l, dictGet both a = some l ∧ v ∈ l.map (·.encoding)) ↔
        ∃ l, dictGet two a = some l ∧ v ∈ l.map (·.encoding) := by
  have hin1 : ∀ r ∈ p :: lost, r ∈ order := fun r hr => hin r (List.mem_append_left _ hr)
  have hin2 : ∀ r ∈ q :: lost', r ∈ order := fun r hr => hin r (List.mem_append_right _ hr)
  have hin3 : ∀ r ∈ p :: (lost ++ q :: lost'), r ∈ order := fun r hr => hin r (by simpa using hr)
  obtain ⟨both, hb⟩ := (packet_goes (lg := lg) hd hn hin3 hf hk henc).2
    ((packet_goes (lg := lg) hd hn hin1 hf hk henc).1 ⟨one, h⟩)
  obtain ⟨a1, a2, a3⟩ := packet_words hd hn hin1 hf hk henc h
  obtain ⟨b1, _, b3⟩ := packet_words hd hn hin2 hf (a1 ▸ hk) a2 h'
  obtain ⟨c1, _, c3⟩ := packet_words hd hn hin3 hf hk henc hb
  rw [a1] at b3
  have hS : ∀ w i, guessedBit bpi size order p (lost ++ q :: lost') w i ↔
      guessedBit bpi size order p lost w i ∨ guessedBit bpi size order q lost' w i := by
    intro w i
    rw [guessed_earliest hd hn hin3 hmin, guessed_earliest hd hn hin1 fun r hr => hmin r (List.mem_append_left _ hr),
      guessed_earliest hd hn hin2 hmin']
    constructor
    · rintro ⟨hi, y, ⟨hy, r, hr, hg⟩, hx⟩
      rw [← List.cons_append, List.mem_append] at hr
      rcases hr with hr | hr
      · exact Or.inl ⟨hi, y, ⟨hy, r, hr, hg⟩, hx⟩
      · exact Or.inr ⟨hi, y, ⟨hy, r, hr, hg⟩, hx⟩
    · rintro (⟨hi, y, ⟨hy, r, hr, hg⟩, hx⟩ | ⟨hi, y, ⟨hy, r, hr, hg⟩, hx⟩)
      · exact ⟨hi, y, ⟨hy, r, by rw [← List.cons_append]; exact List.mem_append_left _ hr, hg⟩, hx⟩
      · exact ⟨hi, y, ⟨hy, r, by rw [← List.cons_append]; exact List.mem_append_right _ hr, hg⟩, hx⟩
  refine ⟨both, hb, c1.trans (b1.trans a1).symm, ?_⟩
  intro a v
  by_cases ha : a ∈ prog.map (·.1)
  · obtain ⟨l₀, hl₀⟩ := Option.isSome_iff_exists.1 ((dictGet_isSome prog a).2 ha)
    obtain ⟨w, hw⟩ := List.mem_iff_getElem?.1 (show a ∈ (prog.map (·.1)).insertionSort (· ≤ ·) by
      rw [List.mem_insertionSort]; exact ha)
    obtain ⟨l₁, d1, d2⟩ := a3 w a hw l₀ hl₀
    obtain ⟨l₂, e1, e2⟩ := b3 w a hw l₁ d1
    obtain ⟨l₃, f1, f2⟩ := c3 w a hw l₀ hl₀
    simp only [f1, e1, Option.some.injEq, exists_eq_left', f2, e2, d2]
    have : ∀ u, agreeOutside (guessedBit bpi size order p (lost ++ q :: lost') w) u v ↔
        ∃ x, agreeOutside (guessedBit bpi size order p lost w) u x ∧ agreeOutside (guessedBit bpi size order q lost' w) x v := by
      intro u
      rw [agree_compose fun i hi => hi.1]
      have : guessedBit bpi size order p (lost ++ q :: lost') w = fun i => guessedBit bpi size order p lost w i ∨
          guessedBit bpi size order q lost' w i := funext fun i => propext (hS w i)
      rw [this]
    simp only [this]
    constructor
    · rintro ⟨u, hu, x, h1, h2⟩
      exact ⟨x, ⟨u, hu, h1⟩, h2⟩
    · rintro ⟨x, ⟨u, hu, h1⟩, h2⟩
      exact ⟨u, hu, x, h1, h2⟩
  · have n1 : ∀ l, dictGet both a ≠ some l := fun l hl => ha (by rw [← c1, ← dictGet_isSome, hl]; rfl)
    have n2 : ∀ l, dictGet two a ≠ some l := fun l hl => ha (by rw [← a1, ← b1, ← dictGet_isSome, hl]; rfl)
    simp [n1, n2]

/-- Losing packet 1 of sixteen, and then packet 9: the four candidates of losing both. -/
theorem C124_case :
    ((packetCorrupt (fun _ => 0) 100 16 1 1 (List.range 16) [1] [(8, [⟨5, 8⟩])]).bind fun r => r.toOption.bind fun p =>
      (packetCorrupt (fun _ => 0) 100 16 1 1 (List.range 16) [9] p).bind fun r => r.toOption.map fun p =>
        p.map fun q => q.2.map (·.encoding)) =
    ((packetCorrupt (fun _ => 0) 100 16 1 1 (List.range 16) [1, 9] [(8, [⟨5, 8⟩])]).bind fun r => r.toOption.map fun p =>
        p.map fun q => q.2.map (·.encoding)) ∧
    ((packetCorrupt (fun _ => 0) 100 16 1 1 (List.range 16) [1, 9] [(8, [⟨5, 8⟩])]).bind fun r => r.toOption.map fun p =>
        p.map fun q => (q.2.length, (q.2.map (·.encoding)).take 4)) = some [(16, [5, 7, 517, 519])] := by
  decide +kernel

end Verif
