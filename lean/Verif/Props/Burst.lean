import Verif.Props.Packing
import Verif.Props.Interleave
import Verif.Spec.Predict

/-!
# C136: what a burst of lost packets damages

Interleaving with the successive packing order of `c * 4 ^ m` packets, losing
neighbouring packets, and deinterleaving.
-/

namespace Verif

open Spec

theorem flatten_cell {α : Type} (L : List (List α)) (w : Nat) (h : ∀ l ∈ L, l.length = w) (i j : Nat) (hj : j < w) :
    L.flatten[i * w + j]? = L[i]?.bind (·[j]?) := by
  induction L generalizing i with
  | nil => simp
  | cons l L ih =>
    have hl := h l (by simp)
    rw [List.flatten_cons]
    cases i with
    | zero =>
      rw [Nat.zero_mul, Nat.zero_add, List.getElem?_append_left (by omega)]
      rfl
    | succ i =>
      rw [Nat.succ_mul, List.getElem?_append_right (by omega)]
      rw [show i * w + w + j - l.length = i * w + j by omega, ih fun x hx => h x (by simp [hx])]
      rfl

/-- The order for `c * 4 ^ m` packets: row after row, the rows of the `c` squares in
turn. -/
theorem order_eq (lg : Rat → Int) (hlg : LogOk lg) (m c fuel : Nat) (hc : 0 < c) (hm : lg ((c * 4 ^ m : Nat) : Rat) = m) :
    buildInterleaveSp lg (fuel + 2) ((c * 4 ^ m : Nat) : Rat) = some (.ok
      (((List.range (2 ^ m)).map fun r => (List.range c).map fun i => (List.range (2 ^ m)).map fun x =>
        spCell m r x + 4 ^ m * i).flatten.flatten)) := by
  have hq : 0 < 4 ^ m := Nat.pos_of_ne_zero (by positivity)
  have hp : 0 < c * 4 ^ m := Nat.mul_pos hc hq
  have hp' : (0 : Rat) < ((c * 4 ^ m : Nat) : Rat) := by exact_mod_cast hp
  have ht := spTurn_nat hlg (c * 4 ^ m) 0 [] hp
  rw [hm, Int.toNat_natCast, Nat.mul_div_cancel _ hq, Nat.mul_comm (4 ^ m) c, Nat.mod_self] at ht
  have hw : whileLoop (fun s : SpState => decide (s.packets > 0)) (spTurn lg) (fuel + 2)
      { packets := ((c * 4 ^ m : Nat) : Rat), index := 0, matrices := [] } =
      some (.ok { packets := ((0 : Nat) : Rat), index := 0 + c * 4 ^ m, matrices := [] ++ turnMats m 0 c }) := by
    unfold whileLoop
    rw [if_pos (by simpa using hp'), ht]
    simp only []
    unfold whileLoop
    rw [if_neg (by simp)]
  unfold buildInterleaveSp
  rw [hw, List.nil_append]
  have hrow : ∀ k r, r < 2 ^ m → (shiftRows (sucesivePacking (m : Int)) (0 + 4 ^ m * k))[r]? =
      some ((List.range (2 ^ m)).map fun x => spCell m r x + 4 ^ m * k) := by
    intro k r hr
    rw [sucesivePacking_eq]
    unfold shiftRows matRows
    rw [List.getElem?_map, List.getElem?_map, List.getElem?_range hr, Nat.zero_add]
    simp [List.map_map, Function.comp_def]
  have h0 : pyGet (turnMats m 0 c) 0 = .ok (shiftRows (sucesivePacking (m : Int)) (0 + 4 ^ m * 0)) := by
    obtain ⟨d, rfl⟩ : ∃ d, c = d + 1 := ⟨c - 1, by omega⟩
    unfold turnMats
    rw [List.range_succ_eq_map]
    rfl
  have h1 : pyGet (shiftRows (sucesivePacking (m : Int)) (0 + 4 ^ m * 0)) 0 =
      .ok ((List.range (2 ^ m)).map fun x => spCell m 0 x + 4 ^ m * 0) := by
    have := hrow 0 0 (Nat.two_pow_pos m)
    unfold pyGet
    simp only [lt_self_iff_false, if_false, Int.toNat_zero, this]
  show some (Except.bind _ _) = _
  simp only [Except.bind, bind, h0, h1, pure, Except.pure, List.length_map, List.length_range]
  congr 3
  unfold weaveRows
  rw [List.flatMap_def]
  congr 1
  apply List.map_congr_left
  intro r hr
  have hr := List.mem_range.1 hr
  unfold turnMats
  rw [List.filterMap_map]
  have : ((fun M : List (List Nat) => M[r]?) ∘ fun k => shiftRows (sucesivePacking (m : Int)) (0 + 4 ^ m * k)) =
      fun k => some ((List.range (2 ^ m)).map fun x => spCell m r x + 4 ^ m * k) := by
    funext k
    exact hrow k r hr
  rw [this, List.filterMap_eq_map' ]

/-- Packets of one aligned group of `4 ^ k` carry groups of the data whose numbers
agree modulo `2 ^ (m - k)`. -/
theorem order_mod (lg : Rat → Int) (hlg : LogOk lg) (m c fuel : Nat) (hc : 0 < c) (hm : lg ((c * 4 ^ m : Nat) : Rat) = m)
    (order : List Nat) (ho : buildInterleaveSp lg (fuel + 2) ((c * 4 ^ m : Nat) : Rat) = some (.ok order))
    (k : Nat) (hk : k ≤ m) :
    order.length = c * 4 ^ m ∧ ∀ g g' a b, order[g % (c * 4 ^ m)]? = some a → order[g' % (c * 4 ^ m)]? = some b →
      a / 4 ^ k = b / 4 ^ k → g % 2 ^ (m - k) = g' % 2 ^ (m - k) := by
  rw [order_eq lg hlg m c fuel hc hm] at ho
  simp only [Option.some.injEq, Except.ok.injEq] at ho
  obtain ⟨j, rfl⟩ : ∃ j, m = j + k := ⟨m - k, by omega⟩
  rw [Nat.add_sub_cancel]
  have hW : 0 < 2 ^ (j + k) := Nat.two_pow_pos _
  have h4 : 4 ^ (j + k) = 2 ^ (j + k) * 2 ^ (j + k) := by rw [← Nat.mul_pow]
  have hlen : order.length = c * 4 ^ (j + k) := by
    rw [← ho]
    simp only [List.length_flatten, List.map_flatten, List.map_map, Function.comp_def, List.length_map, List.length_range]
    simp [List.sum_flatten, List.map_map, Function.comp_def, h4]
    ring
  refine ⟨hlen, ?_⟩
  have cell : ∀ g a, order[g % (c * 4 ^ (j + k))]? = some a → ∃ r x i, r < 2 ^ (j + k) ∧ x < 2 ^ (j + k) ∧
      a = spCell (j + k) r x + 4 ^ (j + k) * i ∧ g % 2 ^ j = x % 2 ^ j := by
    intro g a ha
    have hP : 0 < c * 4 ^ (j + k) := Nat.mul_pos hc (by positivity)
    have hq := Nat.mod_lt g hP
    generalize hqd : g % (c * 4 ^ (j + k)) = q at ha hq
    have hg : g % 2 ^ j = q % 2 ^ j := by
      rw [← hqd, Nat.mod_mod_of_dvd]
      exact Dvd.dvd.mul_left (h4 ▸ Dvd.dvd.mul_right (Nat.pow_dvd_pow 2 (Nat.le_add_right j k)) _) c
    have hx := Nat.mod_lt q hW
    have e1 : q = q / 2 ^ (j + k) * 2 ^ (j + k) + q % 2 ^ (j + k) := by
      rw [Nat.mul_comm]; exact (Nat.div_add_mod q _).symm
    rw [← ho, e1, flatten_cell _ (2 ^ (j + k)) (by
      intro l hl
      obtain ⟨L, hL, hl⟩ := List.mem_flatten.1 hl
      obtain ⟨r, _, rfl⟩ := List.mem_map.1 hL
      obtain ⟨i, _, rfl⟩ := List.mem_map.1 hl
      simp) _ _ hx] at ha
    have e2 : q / 2 ^ (j + k) = q / 2 ^ (j + k) / c * c + q / 2 ^ (j + k) % c := by
      rw [Nat.mul_comm]; exact (Nat.div_add_mod _ _).symm
    have hr : q / 2 ^ (j + k) / c < 2 ^ (j + k) := by
      rw [Nat.div_div_eq_div_mul, Nat.div_lt_iff_lt_mul (Nat.mul_pos hW hc)]
      rw [h4] at hq
      calc q < c * (2 ^ (j + k) * 2 ^ (j + k)) := hq
        _ = 2 ^ (j + k) * (2 ^ (j + k) * c) := by ring
    rw [e2, flatten_cell _ c (by
      intro l hl
      obtain ⟨r, _, rfl⟩ := List.mem_map.1 hl
      simp) _ _ (Nat.mod_lt _ hc)] at ha
    rw [List.getElem?_map, List.getElem?_range hr] at ha
    simp only [Option.map_some, Option.bind_some, List.getElem?_map, List.getElem?_range (Nat.mod_lt _ hc),
      List.getElem?_range hx, Option.some.injEq] at ha
    refine ⟨_, _, _, hr, hx, ha.symm, ?_⟩
    rw [hg, Nat.mod_mod_of_dvd]
    exact Nat.pow_dvd_pow 2 (Nat.le_add_right j k)
  intro g g' a b ha hb hab
  obtain ⟨r, x, i, h1, h2, rfl, h3⟩ := cell g a ha
  obtain ⟨r', x', i', h1', h2', rfl, h3'⟩ := cell g' b hb
  rw [h3, h3']
  have hkq : 0 < 4 ^ k := by positivity
  have split : ∀ s i, (s + 4 ^ (j + k) * i) / 4 ^ k = s / 4 ^ k + 4 ^ j * i := by
    intro s i
    rw [show 4 ^ (j + k) * i = 4 ^ k * (4 ^ j * i) by rw [Nat.pow_add]; ring, Nat.add_mul_div_left _ _ hkq]
  rw [split, split, (spCell_div k j r x).resolve_right (by omega), (spCell_div k j r' x').resolve_right (by omega)] at hab
  have hw : 0 < 2 ^ j := Nat.two_pow_pos j
  have l1 := spCell_lt j (r % 2 ^ j) (x % 2 ^ j)
  have l2 := spCell_lt j (r' % 2 ^ j) (x' % 2 ^ j)
  have hs : spCell j (r % 2 ^ j) (x % 2 ^ j) = spCell j (r' % 2 ^ j) (x' % 2 ^ j) := by
    have := congrArg (· % 4 ^ j) hab
    simpa [Nat.add_mul_mod_self_left, Nat.mod_eq_of_lt l1, Nat.mod_eq_of_lt l2] using this
  exact (spCell_inj j _ _ _ _ (Nat.mod_lt r hw) (Nat.mod_lt x hw) (Nat.mod_lt r' hw) (Nat.mod_lt x' hw) hs).2

theorem apart_of_mod {x y w : Nat} (h : x % w = y % w) (hlt : x < y) : x + w ≤ y := by
  have hd : w ∣ y - x := Nat.dvd_of_mod_eq_zero (Nat.sub_mod_eq_zero_of_mod_eq h.symm)
  have := Nat.le_of_dvd (by omega) hd
  omega

/-- **C136.**  Sending data in `c * 4 ^ m` packets in the order of the successive
packing, and losing only packets whose numbers lie in one aligned group of `4 ^ k`:
two lost bits of the data belong to the same group of bits, or to groups at least
`2 ^ (m - k)` apart. -/
theorem C136_aligned_burst (lg : Rat → Int) (hlg : LogOk lg) (m c fuel : Nat) (hc : 0 < c)
    (hm : lg ((c * 4 ^ m : Nat) : Rat) = m) (order : List Nat)
    (ho : buildInterleaveSp lg (fuel + 2) ((c * 4 ^ m : Nat) : Rat) = some (.ok order)) (k : Nat) (hk : k ≤ m)
    (lost : List Nat) (group : Nat) (hl : ∀ p ∈ lost, 4 ^ k * group ≤ p ∧ p < 4 ^ k * (group + 1))
    (bpi size x y : Nat) (hx : lostBit bpi size order lost x) (hy : lostBit bpi size order lost y)
    (hlt : x / bpi < y / bpi) : x / bpi + 2 ^ (m - k) ≤ y / bpi := by
  obtain ⟨hlen, key⟩ := order_mod lg hlg m c fuel hc hm order ho k hk
  obtain ⟨-, p, hp, ep⟩ := hx
  obtain ⟨-, q, hq, eq⟩ := hy
  rw [hlen] at ep eq
  have hd : ∀ p ∈ lost, p / 4 ^ k = group := by
    intro p hp
    obtain ⟨h1, h2⟩ := hl p hp
    exact Nat.div_eq_of_lt_le (by rw [Nat.mul_comm]; exact h1) (by rw [Nat.mul_comm]; exact h2)
  exact apart_of_mod (key _ _ p q ep eq (by rw [hd p hp, hd q hq])) hlt

/-- **C136.**  A burst of at most `4 ^ k` packets with consecutive numbers, wherever
it begins, damages at most two of any `2 ^ (m - k)` consecutive groups of bits. -/
theorem C136_burst (lg : Rat → Int) (hlg : LogOk lg) (m c fuel : Nat) (hc : 0 < c)
    (hm : lg ((c * 4 ^ m : Nat) : Rat) = m) (order : List Nat)
    (ho : buildInterleaveSp lg (fuel + 2) ((c * 4 ^ m : Nat) : Rat) = some (.ok order)) (k : Nat) (hk : k ≤ m)
    (lost : List Nat) (first : Nat) (hl : ∀ p ∈ lost, first ≤ p ∧ p < first + 4 ^ k)
    (bpi size x y z : Nat) (hx : lostBit bpi size order lost x) (hy : lostBit bpi size order lost y)
    (hz : lostBit bpi size order lost z) (h1 : x / bpi < y / bpi) (h2 : y / bpi < z / bpi) :
    x / bpi + 2 ^ (m - k) ≤ z / bpi := by
  obtain ⟨hlen, key⟩ := order_mod lg hlg m c fuel hc hm order ho k hk
  obtain ⟨-, p, hp, ep⟩ := hx
  obtain ⟨-, q, hq, eq⟩ := hy
  obtain ⟨-, r, hr, er⟩ := hz
  rw [hlen] at ep eq er
  have hkq : 0 < 4 ^ k := by positivity
  have hd : ∀ p ∈ lost, p / 4 ^ k = first / 4 ^ k ∨ p / 4 ^ k = first / 4 ^ k + 1 := by
    intro p hp
    obtain ⟨h1, h2⟩ := hl p hp
    have a := Nat.div_le_div_right (c := 4 ^ k) h1
    have b : p / 4 ^ k ≤ (first + 4 ^ k) / 4 ^ k := Nat.div_le_div_right (Nat.le_of_lt h2)
    rw [Nat.add_div_right _ hkq] at b
    omega
  have three : p / 4 ^ k = q / 4 ^ k ∨ q / 4 ^ k = r / 4 ^ k ∨ p / 4 ^ k = r / 4 ^ k := by
    have := hd p hp; have := hd q hq; have := hd r hr
    omega
  rcases three with h | h | h
  · have := apart_of_mod (key _ _ p q ep eq h) h1; omega
  · have := apart_of_mod (key _ _ q r eq er h) h2; omega
  · exact apart_of_mod (key _ _ p r ep er h) (by omega)

/-- **C136.**  The positions of the errors that deinterleaving reports when only
packets of one aligned group of `4 ^ k` are lost are at least `2 ^ (m - k)` groups
apart. -/
theorem C136_deinterleaved (lg : Rat → Int) (hlg : LogOk lg) (m c fuel : Nat) (hc : 0 < c)
    (hm : lg ((c * 4 ^ m : Nat) : Rat) = m) (order : List Nat)
    (ho : buildInterleaveSp lg (fuel + 2) ((c * 4 ^ m : Nat) : Rat) = some (.ok order)) (k : Nat) (hk : k ≤ m)
    (loss : Nat → Loss) (group : Nat) (hl : ∀ p ∈ order, loss p ≠ .kept → 4 ^ k * group ≤ p ∧ p < 4 ^ k * (group + 1))
    (ws : Nat) (hd : ws ∣ 32) (data : List Nat) (L : Nat) (hL : L < order.length) (hL0 : L ≠ 0)
    (hkept : loss order[L] = .kept) (hnull : ∀ j (h : j < order.length), L < j → loss order[j] = .nulled)
    (f : Nat) (hf : chunkCount ws data < f) (f' : Nat) (hf' : rounds (chunkCount ws data) order.length L < f') :
    ∃ pk out es, interleave f data order ws = some (.ok pk) ∧
      deinterleave f' (receive loss pk) order ws = some (.ok (out, es)) ∧
      es.Pairwise fun e e' => 32 * e.1 + (e.2 : Int) + ((ws * 2 ^ (m - k) : Nat) : Int) ≤ 32 * e'.1 + (e'.2 : Int) := by
  obtain ⟨hlen, key⟩ := order_mod lg hlg m c fuel hc hm order ho k hk
  have hn : order.Nodup := by
    have hp : 0 < c * 4 ^ m := Nat.mul_pos hc (by positivity)
    rw [order_eq lg hlg m c fuel hc hm, ← order_eq lg hlg m c (c * 4 ^ m) hc hm] at ho
    obtain ⟨o, e1, e2⟩ := C10_order_is_permutation lg hlg (c * 4 ^ m) (c * 4 ^ m + 2) hp (by omega)
    rw [e1] at ho
    simp only [Option.some.injEq, Except.ok.injEq] at ho
    rw [← ho]
    exact e2.nodup_iff.2 List.nodup_range
  obtain ⟨pk, out, n, h1, -, -, h2, -⟩ := C14_losses ws hd data order hn loss L hL hL0 hkept hnull f hf f' hf'
  refine ⟨pk, out, _, h1, h2, ?_⟩
  unfold lostPositions
  rw [List.pairwise_map]
  refine List.Pairwise.imp_of_mem ?_ ((List.pairwise_lt_range).filter _)
  intro i j hi hj hij
  have hlost : ∀ i, i ∈ (List.range (rounds (chunkCount ws data) order.length L * order.length)).filter
      (fun i => !keptAt loss order (i % order.length)) → ∃ p, order[i % (c * 4 ^ m)]? = some p ∧ p / 4 ^ k = group := by
    intro i hi
    have hnk := (List.mem_filter.1 hi).2
    have hlt := Nat.mod_lt i (show 0 < order.length by omega)
    rw [← hlen]
    refine ⟨_, List.getElem?_eq_getElem hlt, ?_⟩
    have hne : loss order[i % order.length] ≠ .kept := by
      simpa [keptAt, List.getElem?_eq_getElem hlt] using hnk
    obtain ⟨a, b⟩ := hl _ (List.getElem_mem hlt) hne
    exact Nat.div_eq_of_lt_le (by rw [Nat.mul_comm]; exact a) (by rw [Nat.mul_comm]; exact b)
  obtain ⟨p, hp, ep⟩ := hlost i hi
  obtain ⟨q, hq, eq⟩ := hlost j hj
  have hap := apart_of_mod (key i j p q hp hq (by rw [ep, eq])) hij
  have hmul : i * ws + ws * 2 ^ (m - k) ≤ j * ws := by
    calc i * ws + ws * 2 ^ (m - k) = (i + 2 ^ (m - k)) * ws := by ring
      _ ≤ j * ws := Nat.mul_le_mul_right _ hap
  have a := Nat.div_add_mod (i * ws) 32
  have b := Nat.div_add_mod (j * ws) 32
  generalize i * ws / 32 = iw at *
  generalize i * ws % 32 = ib at *
  generalize j * ws / 32 = jw at *
  generalize j * ws % 32 = jb at *
  generalize ws * 2 ^ (m - k) = d at *
  have : 32 * iw + ib + d ≤ 32 * jw + jb := by omega
  show 32 * (iw : Int) + (ib : Int) + (d : Int) ≤ 32 * (jw : Int) + (jb : Int)
  exact_mod_cast this

/-- **C136.**  When `2 ^ (m - k)` groups are at least an instruction long, every
instruction loses at most one group of bits. -/
theorem C136_one_per_word (lg : Rat → Int) (hlg : LogOk lg) (m c fuel : Nat) (hc : 0 < c)
    (hm : lg ((c * 4 ^ m : Nat) : Rat) = m) (order : List Nat)
    (ho : buildInterleaveSp lg (fuel + 2) ((c * 4 ^ m : Nat) : Rat) = some (.ok order)) (k : Nat) (hk : k ≤ m)
    (lost : List Nat) (group : Nat) (hl : ∀ p ∈ lost, 4 ^ k * group ≤ p ∧ p < 4 ^ k * (group + 1))
    (bpi size x y : Nat) (hd : bpi ∣ 32) (hw : 32 ≤ bpi * 2 ^ (m - k))
    (hx : lostBit bpi size order lost x) (hy : lostBit bpi size order lost y) (hxy : x / 32 = y / 32) :
    x / bpi = y / bpi := by
  have key : ∀ x y, lostBit bpi size order lost x → lostBit bpi size order lost y → x / 32 = y / 32 →
      ¬ x / bpi < y / bpi := by
    intro x y hx hy hxy hlt
    have h := C136_aligned_burst lg hlg m c fuel hc hm order ho k hk lost group hl bpi size x y hx hy hlt
    obtain ⟨e, he⟩ := hd
    have h1 : bpi * (x / bpi + 2 ^ (m - k)) ≤ bpi * (y / bpi) := Nat.mul_le_mul_left _ h
    have h2 := Nat.mul_div_le y bpi
    have hp : 0 < bpi := by
      rcases Nat.eq_zero_or_pos bpi with h0 | h0
      · rw [h0] at he; omega
      · exact h0
    have h3 : e * (x / 32) ≤ x / bpi := by
      rw [Nat.le_div_iff_mul_le hp]
      calc e * (x / 32) * bpi = bpi * e * (x / 32) := by ring
        _ = 32 * (x / 32) := by rw [← he]
        _ ≤ x := Nat.mul_div_le x 32
    have h4 : bpi * (e * (x / 32)) ≤ bpi * (x / bpi) := Nat.mul_le_mul_left _ h3
    rw [← Nat.mul_assoc, ← he] at h4
    rw [Nat.mul_add] at h1
    have := Nat.div_add_mod x 32
    have := Nat.div_add_mod y 32
    have := Nat.mod_lt y (show 0 < 32 by omega)
    omega
  have a := key x y hx hy hxy
  have b := key y x hy hx hxy.symm
  omega

/-- Sixteen packets with the exact logarithm. -/
def burstOrder : List Nat := [0, 8, 2, 10, 12, 4, 14, 6, 3, 11, 1, 9, 15, 7, 13, 5]

/-- The lost groups among the first 32 when packets 4 to 7 are lost, and when packets
2 to 5 are, of sixteen packets: in the first case no two neighbours, in the second
two of them. -/
theorem C136_case :
    buildInterleaveSp (fun p => (Nat.log 4 p.num.toNat : Int)) 18 16 = some (.ok burstOrder) ∧
    ((List.range 32).filter fun g => decide (burstOrder[g % 16]?.getD 0 ∈ [4, 5, 6, 7])) = [5, 7, 13, 15, 21, 23, 29, 31] ∧
    ((List.range 32).filter fun g => decide (burstOrder[g % 16]?.getD 0 ∈ [2, 3, 4, 5])) = [2, 5, 8, 15, 18, 21, 24, 31] := by
  refine ⟨?_, by decide, by decide⟩
  rw [show (16 : Rat) = ((1 * 4 ^ 2 : Nat) : Rat) by norm_num]
  rw [order_eq _ logOk_exact 2 1 16 (by decide) (by decide +kernel)]
  rfl

end Verif
