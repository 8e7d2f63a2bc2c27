import Verif.Proof.Packing
import Mathlib.Data.Nat.Log

/-! # Properties C09-C11: interleaving orders -/

namespace Verif

/-- **C09.**  The packing of order `m` has `2^m` rows of `2^m` cells and holds
every number below `4^m` exactly once. -/
theorem C09_successive_packing (m : Nat) :
    (sucesivePacking m).length = 2 ^ m ∧
    (∀ row ∈ sucesivePacking m, row.length = 2 ^ m) ∧
    (sucesivePacking m).flatten.Perm (List.range (4 ^ m)) :=
  ⟨(square_sp m).1, (square_sp m).2, sucesivePacking_perm m⟩

/-- The values checked by `tests/test_interleaver2D.py` for order 2. -/
example : sucesivePacking 2 =
    [[0, 8, 2, 10], [12, 4, 14, 6], [3, 11, 1, 9], [15, 7, 13, 5]] := by decide

/-- **C10.**  For every positive whole number of packets the flat interleaving
order exists and is a permutation of the packet numbers.  `LogOk` is all that
is assumed of the floating-point `floor(log(p, 4))`. -/
theorem C10_order_is_permutation (lg : Rat → Int) (hlg : LogOk lg) (p fuel : Nat) (hp : 0 < p)
    (hf : p < fuel) :
    ∃ order, buildInterleaveSp lg fuel p = some (.ok order) ∧ order.Perm (List.range p) :=
  buildInterleaveSp_perm hlg p fuel hp hf

/-- No packets at all: the call raises `IndexError`. -/
theorem C10_no_packets (lg : Rat → Int) (fuel : Nat) :
    buildInterleaveSp lg (fuel + 1) 0 = some (.error .index) := by
  simp [buildInterleaveSp, whileLoop, pyGet, bind, Except.bind]

/-- The exact logarithm meets the assumption of C10. -/
theorem logOk_exact : LogOk fun p => (Nat.log 4 p.num.toNat : Int) := by
  intro p hp
  refine ⟨by simp, ?_⟩
  simp only [Rat.num_natCast, Int.toNat_natCast]
  exact Nat.pow_log_le_self 4 (by omega)

/-- What `LogOk` keeps away: a logarithm rounded up past its argument makes the block larger
than the packets left, the remainder is by zero, and the call raises `ValueError`. -/
theorem C10_log_too_big (lg : Rat → Int) (p fuel : Nat) (hp : 0 < p) (h0 : 0 ≤ lg p)
    (hbig : p < 4 ^ (lg p).toNat) :
    buildInterleaveSp lg (fuel + 1) p = some (.error .value) := by
  have h1 : ⌊(p : Rat) / ((4 ^ (lg p).toNat : Nat) : Rat)⌋.toNat = 0 := by
    rw [floor_nat_div, Nat.div_eq_of_lt hbig]; rfl
  have ht : spTurn lg { packets := (p : Rat), index := 0, matrices := [] } = .error .value := by
    simp only [spTurn, if_pos h0, h1, Nat.mul_zero, fmodPos]
    simp [bind, Except.bind]
  have hp' : (0 : Rat) < p := by exact_mod_cast hp
  simp [buildInterleaveSp, whileLoop, hp', ht, bind, Except.bind]

/-- Three packets with a logarithm of one. -/
example : buildInterleaveSp (fun _ => 1) 9 3 = some (.error .value) :=
  C10_log_too_big _ 3 8 (by decide) (by decide) (by decide)

/-- Seven packets: one 2 by 2 block and three single cells, woven by rows. -/
example : buildInterleaveSp (fun p => (Nat.log 4 p.num.toNat : Int)) 8 7
    = some (.ok [0, 2, 4, 5, 6, 3, 1]) := by decide +kernel

/-- **C11.**  Two packets of the same aligned group of `4^k` sit in cells whose
rows and columns agree modulo `2^(m-k)`; if they are different, they are at
least `2^(m-k)` rows or `2^(m-k)` columns apart. -/
theorem C11_burst_separation (m k : Nat) (hk : k ≤ m) (r c r' c' a b : Nat) (rowA rowB : List Nat)
    (h1 : (sucesivePacking m)[r]? = some rowA) (h2 : rowA[c]? = some a)
    (h3 : (sucesivePacking m)[r']? = some rowB) (h4 : rowB[c']? = some b)
    (hg : a / 4 ^ k = b / 4 ^ k) :
    r % 2 ^ (m - k) = r' % 2 ^ (m - k) ∧ c % 2 ^ (m - k) = c' % 2 ^ (m - k) ∧
    (a ≠ b → r + 2 ^ (m - k) ≤ r' ∨ r' + 2 ^ (m - k) ≤ r ∨
             c + 2 ^ (m - k) ≤ c' ∨ c' + 2 ^ (m - k) ≤ c) := by
  obtain ⟨j, rfl⟩ : ∃ j, m = j + k := ⟨m - k, by omega⟩
  rw [Nat.add_sub_cancel]
  have cell : ∀ r c a row, (sucesivePacking ((j + k : Nat) : Int))[r]? = some row →
      row[c]? = some a → r < 2 ^ (j + k) ∧ c < 2 ^ (j + k) ∧ a = spCell (j + k) r c := by
    intro r c a row h1 h2
    rw [sucesivePacking_eq] at h1
    unfold matRows at h1
    rw [List.getElem?_map] at h1
    obtain ⟨x, hx, rfl⟩ := Option.map_eq_some_iff.1 h1
    rw [List.getElem?_eq_some_iff] at hx
    obtain ⟨hl, rfl⟩ := hx
    rw [List.getElem?_map] at h2
    obtain ⟨y, hy, rfl⟩ := Option.map_eq_some_iff.1 h2
    rw [List.getElem?_eq_some_iff] at hy
    obtain ⟨hl', rfl⟩ := hy
    simp only [List.length_range] at hl hl'
    exact ⟨hl, hl', by simp⟩
  obtain ⟨p1, p2, rfl⟩ := cell r c a rowA h1 h2
  obtain ⟨p3, p4, rfl⟩ := cell r' c' b rowB h3 h4
  have d1 := (spCell_div k j r c).resolve_right (by omega)
  have d2 := (spCell_div k j r' c').resolve_right (by omega)
  rw [d1, d2] at hg
  have hw : 0 < 2 ^ j := Nat.two_pow_pos j
  obtain ⟨e1, e2⟩ := spCell_inj j _ _ _ _ (Nat.mod_lt r hw) (Nat.mod_lt c hw) (Nat.mod_lt r' hw)
    (Nat.mod_lt c' hw) hg
  refine ⟨e1, e2, fun hne => ?_⟩
  have far : ∀ x y : Nat, x % 2 ^ j = y % 2 ^ j → x = y ∨ x + 2 ^ j ≤ y ∨ y + 2 ^ j ≤ x := by
    intro x y h
    have hx := Nat.div_add_mod x (2 ^ j)
    have hy := Nat.div_add_mod y (2 ^ j)
    rcases Nat.lt_trichotomy (x / 2 ^ j) (y / 2 ^ j) with hlt | heq | hgt
    · right; left
      have : 2 ^ j * (x / 2 ^ j + 1) ≤ 2 ^ j * (y / 2 ^ j) := Nat.mul_le_mul_left _ hlt
      rw [Nat.mul_add, Nat.mul_one] at this
      omega
    · left; rw [heq] at hx; omega
    · right; right
      have : 2 ^ j * (y / 2 ^ j + 1) ≤ 2 ^ j * (x / 2 ^ j) := Nat.mul_le_mul_left _ hgt
      rw [Nat.mul_add, Nat.mul_one] at this
      omega
  rcases far r r' e1 with hr | hr | hr
  · rcases far c c' e2 with hc | hc | hc
    · exact absurd (by rw [hr, hc]) hne
    · exact .inr (.inr (.inl hc))
    · exact .inr (.inr (.inr hc))
  · exact .inl hr
  · exact .inr (.inl hr)

/-- In the packing of order 2, packets 4 to 7 (one aligned group of four) sit
at mutual distance two: cells (1,1), (3,3), (1,3), (3,1). -/
example : ((sucesivePacking 2)[1]?.bind (·[1]?), (sucesivePacking 2)[3]?.bind (·[3]?),
    (sucesivePacking 2)[1]?.bind (·[3]?), (sucesivePacking 2)[3]?.bind (·[1]?))
    = (some 4, some 5, some 6, some 7) := by decide

end Verif
