import Verif.Model.StorePackets
import Verif.Proof.Packing
import Mathlib.Tactic.NormNum

/-! # Lemmas about a fractional number of packets -/

namespace Verif

/-- What is needed of `floor(log(p, 4))` for quarters of a packet; true of the
exact logarithm (`fracOk_exact`). -/
def FracOk (lg : Rat → Int) : Prop :=
  (∀ (p : Nat) (f : Rat), 0 < p → 0 ≤ f → f < 1 → lg ((p : Rat) + f) = lg (p : Rat)) ∧
  ∀ f : Rat, 1 / 4 ≤ f → f < 1 → lg f = -1

theorem floor_frac (p q : Nat) (f : Rat) (hq : 0 < q) (h0 : 0 ≤ f) (h1 : f < 1) :
    ⌊((p : Rat) + f) / (q : Rat)⌋ = ((p / q : Nat) : Int) := by
  have hq' : (0 : Rat) < q := by exact_mod_cast hq
  rw [Int.floor_eq_iff]
  have h := Nat.div_add_mod p q
  have hm := Nat.mod_lt p hq
  have e : (q : Rat) * ((p / q : Nat) : Rat) + ((p % q : Nat) : Rat) = (p : Rat) := by exact_mod_cast h
  have hm' : ((p % q : Nat) : Rat) + 1 ≤ (q : Rat) := by exact_mod_cast hm
  have hm0 : (0 : Rat) ≤ ((p % q : Nat) : Rat) := by positivity
  rw [Int.cast_natCast]
  constructor
  · rw [le_div_iff₀ hq']; linarith
  · rw [div_lt_iff₀ hq']; linarith

theorem fmodPos_frac (p q : Nat) (f : Rat) (hq : 0 < q) (h0 : 0 ≤ f) (h1 : f < 1) :
    fmodPos ((p : Rat) + f) q = .ok (((p % q : Nat) : Rat) + f) := by
  unfold fmodPos
  have : (q : Rat) ≠ 0 := by exact_mod_cast (by omega : q ≠ 0)
  rw [if_neg this, floor_frac p q f hq h0 h1]
  congr 1
  have h := Nat.div_add_mod p q
  have h2 : (q : Rat) * ((p / q : Nat) : Rat) + ((p % q : Nat) : Rat) = (p : Rat) := by
    exact_mod_cast h
  rw [Int.cast_natCast]
  linarith

/-- Adding a fraction of a packet to a state. -/
def addFrac (f : Rat) (s : SpState) : SpState := { s with packets := s.packets + f }

/-- A turn with a whole number of packets left does the same with a fraction
more. -/
theorem spTurn_frac {lg : Rat → Int} (hlg : LogOk lg) (hf : FracOk lg) {f : Rat} (h0 : 0 ≤ f)
    (h1 : f < 1) (p idx : Nat) (mats : List (List (List Nat))) (hp : 0 < p) :
    spTurn lg (addFrac f { packets := p, index := idx, matrices := mats }) =
      (spTurn lg { packets := p, index := idx, matrices := mats }).map (addFrac f) := by
  obtain ⟨g0, g1⟩ := hlg p hp
  obtain ⟨n, hn⟩ : ∃ n : Nat, lg p = n := ⟨(lg p).toNat, by omega⟩
  have hn' : lg ((p : Rat) + f) = n := (hf.1 p f hp h0 h1).trans hn
  unfold spTurn addFrac
  simp only [hn, hn', Int.toNat_natCast] at *
  have hq : 0 < 4 ^ n := Nat.pos_of_ne_zero (by positivity)
  have hc : 0 < p / 4 ^ n := Nat.div_pos g1 hq
  have hn0 : (0 : Int) ≤ (n : Int) := by omega
  simp only [if_pos hn0]
  rw [floor_nat_div, floor_frac p (4 ^ n) f hq h0 h1, Int.toNat_natCast]
  rw [fmodPos_nat _ _ (Nat.mul_pos hq hc), fmodPos_frac _ _ f (Nat.mul_pos hq hc) h0 h1]
  rfl

theorem spLoop_frac {lg : Rat → Int} (hlg : LogOk lg) (hf : FracOk lg) {f : Rat} (h0 : 0 < f)
    (h1 : f < 1) (k : Nat) : ∀ (fuel p idx : Nat) (mats : List (List (List Nat))) (s : SpState),
    whileLoop (fun s => decide (s.packets > 0)) (spTurn lg) fuel
        { packets := p, index := idx, matrices := mats } = some (.ok s) →
    s.packets = 0 ∧ ∃ j, k < j ∧
      whileLoop (fun s => decide (s.packets > 0)) (spTurn lg) (fuel + k)
        (addFrac f { packets := p, index := idx, matrices := mats })
      = whileLoop (fun s => decide (s.packets > 0)) (spTurn lg) j (addFrac f s) := by
  intro fuel
  induction fuel with
  | zero => intro p idx mats s h; cases h
  | succ fuel ih =>
    intro p idx mats s h
    by_cases hp : 0 < p
    · have hpos : decide ((p : Rat) > 0) = true := by
        rw [decide_eq_true_eq]; exact_mod_cast hp
      have hpos' : decide ((addFrac f { packets := p, index := idx, matrices := mats }).packets > 0)
          = true := by
        rw [decide_eq_true_eq]
        show (p : Rat) + f > 0
        have : (0 : Rat) ≤ p := by positivity
        linarith
      simp only [whileLoop, hpos, if_true] at h
      rw [spTurn_nat hlg p idx mats hp] at h
      obtain ⟨e0, j, hj, e⟩ := ih _ _ _ _ h
      refine ⟨e0, j, hj, ?_⟩
      rw [show fuel + 1 + k = (fuel + k) + 1 by omega]
      simp only [whileLoop, hpos', if_true]
      rw [spTurn_frac hlg hf h0.le h1 p idx mats hp, spTurn_nat hlg p idx mats hp]
      exact e
    · have hp0 : p = 0 := by omega
      subst hp0
      simp [whileLoop] at h
      subst h
      exact ⟨rfl, fuel + 1 + k, by omega, rfl⟩

/-- The last turn: nothing but a fraction of at least a quarter is left. -/
theorem spTurn_last {lg : Rat → Int} (hf : FracOk lg) (c : Nat) (hc : 1 ≤ c) (hc' : c < 4) (idx : Nat)
    (mats : List (List (List Nat))) :
    spTurn lg { packets := (c : Rat) / 4, index := idx, matrices := mats } =
      if c > 1 then .error .type
      else .ok { packets := 0, index := idx, matrices := mats ++ [[[0]]] } := by
  have hl : lg ((c : Rat) / 4) = -1 := by
    apply hf.2
    · have : (1 : Rat) ≤ c := by exact_mod_cast hc
      linarith
    · have : (c : Rat) < 4 := by exact_mod_cast hc'
      linarith
  have hfl : ⌊(c : Rat) / 4 / (4 : Rat) ^ (-1 : Int)⌋.toNat = c := by
    rw [show (c : Rat) / 4 / (4 : Rat) ^ (-1 : Int) = ((c : Int) : Rat) by
      rw [zpow_neg_one, Int.cast_natCast]; field_simp]
    rw [Int.floor_intCast, Int.toNat_natCast]
  unfold spTurn
  simp only [hl]
  rw [if_neg (by omega), hfl]
  by_cases h : c > 1
  · rw [if_pos h, if_pos h]
  · have : c = 1 := by omega
    subst this
    rw [if_neg h, if_neg h, if_pos (by omega)]
    have : fmodPos (((1 : Nat) : Rat) / 4) ((4 : Rat) ^ (-1 : Int) * ((1 : Nat) : Rat)) = .ok 0 := by
      unfold fmodPos
      norm_num
    rw [this]
    rfl

end Verif
