import Verif.Proof.StorePackets
import Mathlib.Data.Nat.Log
import Mathlib.Data.Int.Log
import Mathlib.Data.List.Nodup
import Mathlib.Data.List.Range

/-! # C75, C76: address numbering and stored packets -/

namespace Verif

/-! ### C75 -/

/-- **C75**: both numberings tell in-range coordinates apart. -/
theorem C75_injective {x y z x' y' z' : Nat} (hy : y < 32) (hy' : y' < 32) :
    (z < 4 → z' < 4 → hiInHi x y z = hiInHi x' y' z' → x = x' ∧ y = y' ∧ z = z') ∧
    (z < 64 → z' < 64 → lowInHi x y z = lowInHi x' y' z' → x = x' ∧ y = y' ∧ z = z') := by
  unfold hiInHi lowInHi
  constructor
  · intro h1 h2 h3; omega
  · intro h1 h2 h3; omega

/-- **C75**: the high-in-high numbers of the coordinates the script walks are
exactly those below 8192. -/
theorem C75_covers (n : Nat) :
    n < 8192 ↔ ∃ x y z, x < 64 ∧ y < 32 ∧ z < 4 ∧ hiInHi x y z = n := by
  unfold hiInHi
  constructor
  · intro h
    exact ⟨n / 128, n / 4 % 32, n % 4, by omega, by omega, by omega, by omega⟩
  · rintro ⟨x, y, z, h1, h2, h3, rfl⟩
    omega

theorem nodup_flatMap_of {α β : Type} (l : List α) (f : α → List β) (h1 : l.Nodup)
    (h2 : ∀ a ∈ l, (f a).Nodup)
    (h3 : ∀ a ∈ l, ∀ b ∈ l, ∀ x, x ∈ f a → x ∈ f b → a = b) : (l.flatMap f).Nodup := by
  rw [List.nodup_flatMap]
  refine ⟨h2, ?_⟩
  refine List.Pairwise.imp_of_mem ?_ h1
  intro a b ha hb hab x hx hx'
  exact hab (h3 a ha b hb x hx hx')

/-- **C75**: each of the two high-first listings prints every number below 8192
exactly once. -/
theorem C75_listings : printHiLow.Perm (List.range 8192) ∧ printHiHi.Perm (List.range 8192)
    ∧ printHiLow = List.range 8192 := by
  have m1 : ∀ n, n ∈ printHiHi ↔ n < 8192 := by
    intro n
    rw [C75_covers]
    simp only [printHiHi, List.mem_flatMap, List.mem_map, List.mem_range]
    constructor
    · rintro ⟨z, hz, y, hy, x, hx, e⟩; exact ⟨x, y, z, hx, hy, hz, e⟩
    · rintro ⟨x, y, z, hx, hy, hz, e⟩; exact ⟨z, hz, y, hy, x, hx, e⟩
  have n1 : printHiHi.Nodup := by
    unfold printHiHi hiInHi
    apply nodup_flatMap_of _ _ List.nodup_range
    · intro z _
      apply nodup_flatMap_of _ _ List.nodup_range
      · intro y _
        exact List.nodup_range.map (fun a b h => by omega)
      · intro y hy y' hy' n hn hn'
        simp only [List.mem_map, List.mem_range] at *
        obtain ⟨x, _, rfl⟩ := hn
        obtain ⟨x', _, e⟩ := hn'
        omega
    · intro z hz z' hz' n hn hn'
      simp only [List.mem_flatMap, List.mem_map, List.mem_range] at *
      obtain ⟨y, _, x, _, rfl⟩ := hn
      obtain ⟨y', _, x', _, e⟩ := hn'
      omega
  have e2 : printHiLow = List.range 8192 := by
    have key : ∀ a b : Nat, (List.range a).flatMap (fun i => (List.range b).map fun j => i * b + j)
        = List.range (a * b) := by
      intro a b
      induction a with
      | zero => simp
      | succ a ih =>
        rw [List.range_succ, List.flatMap_append, ih, Nat.add_mul, Nat.one_mul, List.range_add]
        simp
    unfold printHiLow hiInHi
    have : ∀ x : Nat, ((List.range 32).flatMap fun y => (List.range 4).map fun z => x * 32 * 4 + y * 4 + z)
        = (List.range 128).map fun j => x * 128 + j := by
      intro x
      rw [show (128 : Nat) = 32 * 4 from rfl, ← key 32 4, List.map_flatMap]
      congr 1
      funext y
      rw [List.map_map]
      apply List.map_congr_left
      intro z _
      show _ = x * (32 * 4) + (y * 4 + z)
      omega
    simp only [this]
    exact key 64 128
  refine ⟨by rw [e2], ?_, e2⟩
  rw [List.perm_ext_iff_of_nodup n1 List.nodup_range]
  intro n
  rw [m1, List.mem_range]

theorem range_pairs {β : Type} (a b : Nat) (hb : 0 < b) (f : Nat → Nat → β) :
    ((List.range a).flatMap fun i => (List.range b).map (f i)) = (List.range (a * b)).map fun k => f (k / b) (k % b) := by
  induction a with
  | zero => simp
  | succ a ih =>
    rw [List.range_succ, List.flatMap_append, ih, Nat.add_mul, Nat.one_mul, List.range_add, List.map_append, List.map_map]
    congr 1
    simp only [List.flatMap_cons, List.flatMap_nil, List.append_nil]
    apply List.map_congr_left
    intro j hj
    rw [List.mem_range] at hj
    simp only [Function.comp]
    rw [Nat.mul_comm a b, Nat.mul_add_div hb, Nat.mul_add_mod, Nat.div_eq_of_lt hj, Nat.mod_eq_of_lt hj, Nat.add_zero]

theorem range_triples {β : Type} (a b c m n : Nat) (hb : 0 < b) (hc : 0 < c) (hm : b * c = m) (hn : a * m = n)
    (f : Nat → Nat → Nat → β) :
    ((List.range a).flatMap fun i => (List.range b).flatMap fun j => (List.range c).map (f i j)) =
      (List.range n).map fun k => f (k / m) (k / c % b) (k % c) := by
  subst hn
  subst hm
  simp only [range_pairs b c hc]
  rw [range_pairs a (b * c) (Nat.mul_pos hb hc) (fun i k => f i (k / c) (k % c))]
  apply List.map_congr_left
  intro k _
  rw [Nat.mul_comm b c, Nat.mod_mul_right_div_self, Nat.mod_mul_right_mod]

/-- **C75 (the order of the listings)**: line `k`, from zero, of the high-first listing
that starts losing the high bit and of the low-first listing. -/
theorem C75_lines :
    printHiHi = (List.range 8192).map (fun k => k % 64 * 128 + k / 64 % 32 * 4 + k / 2048) ∧
    printLoHi = (List.range 8192).map (fun k => k % 64 * 2048 + k / 64 % 32 * 64 + k / 2048) := by
  have h1 := range_triples 4 32 64 2048 8192 (by omega) (by omega) (by omega) (by omega) fun z y x => hiInHi x y z
  have h2 := range_triples 4 32 64 2048 8192 (by omega) (by omega) (by omega) (by omega) fun z y x => lowInHi x y z
  refine ⟨h1.trans (List.map_congr_left fun k _ => ?_), h2.trans (List.map_congr_left fun k _ => ?_)⟩
  · unfold hiInHi; omega
  · unfold lowInHi; omega

/-- **C75 (the low-first listing)**: it prints no number twice, and prints exactly the
numbers below 131072 whose remainder by 64 is below four. -/
theorem C75_low_listing : printLoHi.Nodup ∧ ∀ n, n ∈ printLoHi ↔ n < 131072 ∧ n % 64 < 4 := by
  have hk : ∀ k : Nat, k / 2048 = k / 64 / 32 := fun k => (Nat.div_div_eq_div_mul k 64 32).symm
  constructor
  · rw [C75_lines.2]
    refine (List.nodup_map_iff_inj_on List.nodup_range).2 ?_
    intro a ha b hb h
    rw [List.mem_range] at ha hb
    rw [hk a, hk b] at h
    have e1 := Nat.div_add_mod a 64
    have e2 := Nat.div_add_mod (a / 64) 32
    have e3 := Nat.div_add_mod b 64
    have e4 := Nat.div_add_mod (b / 64) 32
    have l1 : a / 64 / 32 < 4 := by omega
    have l2 : b / 64 / 32 < 4 := by omega
    have l3 := Nat.mod_lt (a / 64) (show 32 > 0 by omega)
    have l4 := Nat.mod_lt (b / 64) (show 32 > 0 by omega)
    have s1 : a / 64 / 32 = b / 64 / 32 := by omega
    have s2 : a / 64 % 32 = b / 64 % 32 := by omega
    have s3 : a % 64 = b % 64 := by omega
    omega
  · intro n
    simp only [printLoHi, List.mem_flatMap, List.mem_map, List.mem_range, lowInHi]
    constructor
    · rintro ⟨z, hz, y, hy, x, hx, rfl⟩
      omega
    · rintro ⟨h1, h2⟩
      exact ⟨n % 64, by omega, n / 64 % 32, by omega, n / 2048, by omega, by rw [hk]; omega⟩

/-! ### C76 -/

/-- **C76, what holds**: when the length is a positive multiple of four, the order
lists every packet once. Missing: the other lengths, for which it is false
(`C76_refuted_one`, `C76_refuted_more`, `C76_empty`). -/
theorem C76_whole_partial (lg : Rat → Int) (hlg : LogOk lg) (p fuel : Nat) (hp : 0 < p) (hf : p < fuel) :
    ∃ order, storeOrder lg fuel (4 * p) = some (.ok order) ∧ order.Perm (List.range p) := by
  unfold storeOrder
  rw [show ((4 * p * 4 : Nat) : Rat) / 16 = (p : Rat) by push_cast; ring]
  exact buildInterleaveSp_perm hlg p fuel hp hf

/-- **C76 is false**: when the length leaves remainder 1, packet 0 is visited
twice. -/
theorem C76_refuted_one (lg : Rat → Int) (hlg : LogOk lg) (hfr : FracOk lg) (p fuel : Nat) (hp : 0 < p)
    (hf : p < fuel) :
    ∃ order, storeOrder lg (fuel + 1) (4 * p + 1) = some (.ok order) ∧ ¬ order.Nodup ∧
      order.Perm (0 :: List.range p) := by
  obtain ⟨s, new, e1, e2, e3, e4⟩ := spLoop_nat hlg fuel p 0 [] hf
  obtain ⟨M, Ms, f1, f2, f3⟩ := e4 hp
  rw [List.nil_append] at e2
  obtain ⟨hs0, j, hj, ej⟩ := spLoop_frac hlg hfr (f := 1 / 4) (by norm_num) (by norm_num) 1 _ _ _ _ _ e1
  have hs : addFrac (1 / 4) s
      = { packets := ((1 : Nat) : Rat) / 4, index := s.index, matrices := s.matrices } := by
    unfold addFrac; rw [hs0]; norm_num
  obtain ⟨i, rfl⟩ : ∃ i, j = i + 2 := ⟨j - 2, by omega⟩
  rw [hs] at ej
  rw [show whileLoop (fun s : SpState => decide (s.packets > 0)) (spTurn lg) (i + 2)
      { packets := ((1 : Nat) : Rat) / 4, index := s.index, matrices := s.matrices }
      = some (.ok { packets := 0, index := s.index, matrices := s.matrices ++ [[[0]]] }) by
    rw [whileLoop, if_pos (by norm_num), spTurn_last hfr 1 (by omega) (by omega), if_neg (by omega)]
    simp [whileLoop]] at ej
  have hpos : 0 < 2 ^ (lg p).toNat := Nat.two_pow_pos _
  obtain ⟨r0, M', hM⟩ : ∃ r0 M', M = r0 :: M' := by
    cases M with
    | nil => have := f2.1; simp at this; omega
    | cons a b => exact ⟨a, b, rfl⟩
  have hr0 : r0.length = 2 ^ (lg p).toNat := f2.2 r0 (by simp [hM])
  have hperm : (weaveRows (s.matrices ++ [[[0]]]) r0.length).flatten.Perm (0 :: List.range p) := by
    have hw := weaveRows_perm (s.matrices ++ [[[0]]]) r0.length (by
      intro M2 h2
      rw [e2, f1, List.mem_append, List.mem_cons, List.mem_singleton] at h2
      rw [hr0]
      rcases h2 with (rfl | h2) | rfl
      · exact f2.1.le
      · exact f3 M2 h2
      · exact hpos)
    refine hw.flatten.trans ?_
    rw [List.range_eq_range', e2, List.flatten_append, List.flatten_append]
    refine (List.Perm.append_right _ ?_).trans
      (List.perm_append_singleton 0 (List.range' 0 p))
    refine List.Perm.trans ?_ e3
    rw [List.flatten_flatten]
  refine ⟨(weaveRows (s.matrices ++ [[[0]]]) r0.length).flatten, ?_, ?_, hperm⟩
  · unfold storeOrder buildInterleaveSp
    rw [show ({ packets := ((((4 * p + 1) * 4 : Nat) : Rat) / 16), index := 0, matrices := [] } : SpState)
        = addFrac (1 / 4) { packets := p, index := 0, matrices := [] } by
      unfold addFrac; congr 1; push_cast; ring]
    rw [ej]
    have g1 : pyGet (s.matrices ++ [[[0]]]) 0 = .ok M := by rw [e2, f1]; simp [pyGet]
    have g2 : pyGet M 0 = .ok r0 := by rw [hM]; simp [pyGet]
    simp only [Option.map_some, bind, Except.bind, g1, g2, pure, Except.pure]
  · intro hnd
    have := hperm.nodup_iff.1 hnd
    rw [List.nodup_cons] at this
    exact this.1 (List.mem_range.2 hp)

/-- **C76 is false**: when the length leaves remainder 2 or 3, there is no order
at all; the call raises `TypeError`. -/
theorem C76_refuted_more (lg : Rat → Int) (hlg : LogOk lg) (hfr : FracOk lg) (p c fuel : Nat)
    (hc : 2 ≤ c) (hc' : c < 4) (hf : p < fuel) :
    storeOrder lg (fuel + 1) (4 * p + c) = some (.error .type) := by
  have hcr : (c : Rat) / 4 < 1 := by
    have : (c : Rat) < 4 := by exact_mod_cast hc'
    linarith
  have hcp : (0 : Rat) < (c : Rat) / 4 := by
    have : (2 : Rat) ≤ c := by exact_mod_cast hc
    linarith
  obtain ⟨s, new, e1, e2, e3, e4⟩ := spLoop_nat hlg fuel p 0 [] hf
  obtain ⟨hs0, j, hj, ej⟩ := spLoop_frac hlg hfr hcp hcr 1 _ _ _ _ _ e1
  have hs : addFrac ((c : Rat) / 4) s
      = { packets := (c : Rat) / 4, index := s.index, matrices := s.matrices } := by
    unfold addFrac; rw [hs0, zero_add]
  obtain ⟨i, rfl⟩ : ∃ i, j = i + 1 := ⟨j - 1, by omega⟩
  rw [hs] at ej
  unfold storeOrder buildInterleaveSp
  rw [show ({ packets := ((((4 * p + c) * 4 : Nat) : Rat) / 16), index := 0, matrices := [] } : SpState)
      = addFrac ((c : Rat) / 4) { packets := p, index := 0, matrices := [] } by
    unfold addFrac; congr 1; push_cast; ring]
  rw [ej, whileLoop, if_pos (by simpa using hcp), spTurn_last hfr c (by omega) hc', if_pos (by omega)]
  rfl

/-- No instructions: `IndexError`. -/
theorem C76_empty (lg : Rat → Int) (fuel : Nat) :
    storeOrder lg (fuel + 1) 0 = some (.error .index) := by
  simp [storeOrder, buildInterleaveSp, whileLoop, pyGet, bind, Except.bind]

/-- The exact logarithm. -/
theorem fracOk_exact : LogOk (fun p => Int.log 4 p) ∧ FracOk (fun p => Int.log 4 p) := by
  have hnat : ∀ p : Nat, Int.log 4 ((p : Nat) : Rat) = Nat.log 4 p := fun p => Int.log_natCast 4 p
  refine ⟨?_, ?_, ?_⟩
  · intro p hp
    simp only [hnat]
    exact ⟨by simp, by simpa using Nat.pow_log_le_self 4 (by omega)⟩
  · intro p f hp h0 h1
    have h1p : (1 : Rat) ≤ (p : Rat) + f := by
      have : (1 : Rat) ≤ p := by exact_mod_cast hp
      linarith
    show Int.log 4 ((p : Rat) + f) = Int.log 4 (p : Rat)
    rw [Int.log_of_one_le_right _ h1p, hnat]
    congr 2
    rw [Nat.floor_eq_iff (by linarith)]
    constructor <;> linarith
  · intro f h0 h1
    have hpos : (0 : Rat) < f := by linarith
    show Int.log 4 f = -1
    rw [Int.log_of_right_le_one _ h1.le]
    have : ⌈f⁻¹⌉₊ ≤ 4 ∧ 1 < ⌈f⁻¹⌉₊ := by
      constructor
      · rw [Nat.ceil_le]
        rw [inv_le_comm₀ hpos (by norm_num)]
        norm_num at h0 ⊢
        exact h0
      · rw [Nat.lt_ceil]
        rw [Nat.cast_one]
        exact (one_lt_inv₀ hpos).2 h1
    have : Nat.clog 4 ⌈f⁻¹⌉₊ = 1 := by
      rcases this with ⟨h4, h2⟩
      rw [Nat.clog_eq_one (by omega) h4]
    rw [this]
    rfl

/-- Five instructions: packet 0 twice, packet 1 (holding the fifth) never. -/
example : ∃ order, storeOrder (fun p => Int.log 4 p) 3 5 = some (.ok order) ∧ order = [0, 0] := by
  obtain ⟨order, h, _, hp⟩ := C76_refuted_one _ fracOk_exact.1 fracOk_exact.2 1 2 (by omega) (by omega)
  refine ⟨order, h, ?_⟩
  have : order.Perm (List.replicate 2 0) := hp
  exact List.perm_replicate.1 this

end Verif
