import Verif.Model.Huffman
import Verif.Spec.Huffman
import Verif.Proof.Basic
import Mathlib.Data.List.Perm.Basic
import Mathlib.Tactic.Ring

/-! Lemmas about Huffman codes. -/

namespace Verif
open Spec

/-! ### Kraft's inequality -/

/-- Kraft sum scaled by `2 ^ M`. -/
def kraft (M : Nat) (ls : List Nat) : Nat := (ls.map fun l => 2 ^ (M - l)).sum

theorem kraft_perm {M : Nat} {l l' : List Nat} (h : l.Perm l') : kraft M l = kraft M l' :=
  (h.map _).sum_nat

theorem kraft_cons (M l : Nat) (ls : List Nat) : kraft M (l :: ls) = 2 ^ (M - l) + kraft M ls := by
  simp [kraft]

/-- Codes pairwise not prefixes of each other. -/
def Free (cs : List (List Bool)) : Prop := cs.Pairwise fun a b => ¬ a <+: b ∧ ¬ b <+: a

theorem tails_free (b : Bool) (cs : List (List Bool)) (h : Free cs) :
    Free (cs.filterMap fun c => match c with | [] => none | x :: t => if x = b then some t else none) := by
  unfold Free
  rw [List.pairwise_filterMap]
  refine h.imp ?_
  intro u v huv x hx y hy
  cases u with
  | nil => simp at hx
  | cons p u =>
    cases v with
    | nil => simp at hy
    | cons q v =>
      simp only [Option.mem_def] at hx hy
      split at hx
      · split at hy
        · rename_i h1 h2
          simp only [Option.some.injEq] at hx hy
          subst h1 h2 hx hy
          simpa [List.prefix_cons_inj] using huv
        · simp at hy
      · simp at hx

theorem kraft_of_free : ∀ (M : Nat) (cs : List (List Bool)), Free cs → (∀ c ∈ cs, c.length ≤ M) →
    kraft M (cs.map List.length) ≤ 2 ^ M := by
  intro M
  induction M with
  | zero =>
    intro cs hf hl
    cases cs with
    | nil => simp [kraft]
    | cons c cs =>
      cases cs with
      | nil => simp [kraft]
      | cons d cs =>
        exfalso
        have h1 : c = [] := List.length_eq_zero_iff.1 (Nat.le_zero.1 (hl c (by simp)))
        have := (List.pairwise_cons.1 hf).1 d (by simp)
        rw [h1] at this
        exact this.1 List.nil_prefix
  | succ M ih =>
    intro cs hf hl
    by_cases hnil : [] ∈ cs
    · -- the empty code is alone
      have : cs = [[]] := by
        cases cs with
        | nil => simp at hnil
        | cons c cs =>
          cases cs with
          | nil =>
            rw [List.mem_singleton] at hnil
            rw [← hnil]
          | cons d cs =>
            exfalso
            obtain ⟨h1, h2⟩ := List.pairwise_cons.1 hf
            rcases List.mem_cons.1 hnil with h | h
            · have := h1 d (by simp)
              rw [← h] at this
              exact this.1 List.nil_prefix
            · exact (h1 [] h).2 List.nil_prefix
      subst this
      simp [kraft]
    · have h0 := ih _ (tails_free false cs hf) (by
        intro c hc
        obtain ⟨d, hd, h⟩ := List.mem_filterMap.1 hc
        cases d with
        | nil => simp at h
        | cons x t =>
          have := hl _ hd
          simp only at h
          split at h
          · simp only [Option.some.injEq] at h; subst h; simp at this; omega
          · simp at h)
      have h1 := ih _ (tails_free true cs hf) (by
        intro c hc
        obtain ⟨d, hd, h⟩ := List.mem_filterMap.1 hc
        cases d with
        | nil => simp at h
        | cons x t =>
          have := hl _ hd
          simp only at h
          split at h
          · simp only [Option.some.injEq] at h; subst h; simp at this; omega
          · simp at h)
      have hsum : kraft (M + 1) (cs.map List.length) =
          kraft M ((cs.filterMap fun c => match c with
            | [] => none | x :: t => if x = false then some t else none).map List.length) +
          kraft M ((cs.filterMap fun c => match c with
            | [] => none | x :: t => if x = true then some t else none).map List.length) := by
        clear ih hf hl h0 h1
        induction cs with
        | nil => simp [kraft]
        | cons c cs ih =>
          have hc : c ≠ [] := by rintro rfl; exact hnil (by simp)
          have hcs : [] ∉ cs := fun h => hnil (by simp [h])
          cases c with
          | nil => exact absurd rfl hc
          | cons x t =>
            rw [List.map_cons, kraft_cons, ih hcs]
            cases x
            · simp only [List.filterMap_cons, if_true, Bool.false_eq_true, if_false, List.map_cons,
                kraft_cons, List.length_cons]
              rw [Nat.add_sub_add_right]; omega
            · simp only [List.filterMap_cons, if_true, Bool.true_eq_false, if_false, List.map_cons,
                kraft_cons, List.length_cons]
              rw [Nat.add_sub_add_right]; omega
      rw [hsum, Nat.pow_succ]
      omega

/-! ### The lower bound -/

/-- The cost of merging two least weights repeatedly. -/
inductive Huff : List Nat → Nat → Prop
  | one (w : Nat) : Huff [w] 0
  | merge {ws rest : List Nat} {a b c : Nat} : ws.Perm (a :: b :: rest) → a ≤ b →
      (∀ x ∈ rest, b ≤ x) → Huff ((a + b) :: rest) c → Huff ws (a + b + c)

/-- Total of weight times length. -/
def wcost (P : List (Nat × Nat)) : Nat := (P.map fun p => p.1 * p.2).sum

theorem wcost_cons (p : Nat × Nat) (P : List (Nat × Nat)) : wcost (p :: P) = p.1 * p.2 + wcost P := by
  simp [wcost]

theorem wcost_perm {P Q : List (Nat × Nat)} (h : P.Perm Q) : wcost P = wcost Q := (h.map _).sum_nat

theorem exists_longest : ∀ P : List (Nat × Nat), P ≠ [] →
    ∃ q R, P.Perm (q :: R) ∧ ∀ r ∈ R, r.2 ≤ q.2 := by
  intro P
  induction P with
  | nil => intro h; exact absurd rfl h
  | cons p P ih =>
    intro _
    by_cases hP : P = []
    · subst hP; exact ⟨p, [], List.Perm.refl _, by simp⟩
    · obtain ⟨q, R, h1, h2⟩ := ih hP
      by_cases hpq : q.2 ≤ p.2
      · refine ⟨p, q :: R, h1.cons p, ?_⟩
        intro r hr
        rcases List.mem_cons.1 hr with rfl | hr
        · exact hpq
        · have := h2 r hr; omega
      · refine ⟨q, p :: R, (h1.cons p).trans (List.Perm.swap q p R), ?_⟩
        intro r hr
        rcases List.mem_cons.1 hr with rfl | hr
        · omega
        · exact h2 r hr

theorem dvd_sum_of {d : Nat} : ∀ {l : List Nat}, (∀ x ∈ l, d ∣ x) → d ∣ l.sum
  | [], _ => by simp
  | x :: l, h => by
    rw [List.sum_cons]
    exact Nat.dvd_add (h x (by simp)) (dvd_sum_of fun y hy => h y (by simp [hy]))

/-- The least weight may be given the greatest length. -/
theorem exchange {P : List (Nat × Nat)} {a : Nat} {rest : List Nat}
    (hw : (P.map (·.1)).Perm (a :: rest)) (ha : ∀ x ∈ rest, a ≤ x) :
    ∃ L R, (R.map (·.1)).Perm rest ∧ (L :: R.map (·.2)).Perm (P.map (·.2)) ∧
      (∀ r ∈ R, r.2 ≤ L) ∧ a * L + wcost R ≤ wcost P := by
  have : a ∈ P.map (·.1) := hw.mem_iff.2 (by simp)
  obtain ⟨p, hp, rfl⟩ := List.mem_map.1 this
  have hP := List.perm_cons_erase hp
  generalize P.erase p = P1 at hP
  have hP1 : (P1.map (·.1)).Perm rest := by
    have := (hP.map (·.1)).symm.trans hw
    simpa using this
  by_cases hlong : ∀ r ∈ P1, r.2 ≤ p.2
  · exact ⟨p.2, P1, hP1, (hP.map (fun x : Nat × Nat => x.2)).symm, hlong, by rw [wcost_perm hP, wcost_cons]⟩
  · have hne : P1 ≠ [] := by rintro rfl; simp at hlong
    obtain ⟨q, P2, h1, h2⟩ := exists_longest P1 hne
    have hpq : p.2 ≤ q.2 := by
      by_contra hc
      apply hlong
      intro r hr
      rcases List.mem_cons.1 (h1.mem_iff.1 hr) with rfl | hr
      · omega
      · have := h2 r hr; omega
    have hwq : p.1 ≤ q.1 := ha q.1 (hP1.mem_iff.1 (List.mem_map.2 ⟨q, h1.mem_iff.2 (by simp), rfl⟩))
    refine ⟨q.2, (q.1, p.2) :: P2, ?_, ?_, ?_, ?_⟩
    · exact ((h1.map (·.1)).symm).trans hP1
    · refine List.Perm.trans (List.Perm.swap _ _ _) ?_
      exact (((h1.cons p).map (·.2)).symm).trans (hP.map (·.2)).symm
    · intro r hr
      rcases List.mem_cons.1 hr with rfl | hr
      · exact hpq
      · exact h2 r hr
    · rw [wcost_perm hP, wcost_cons p, wcost_perm h1, wcost_cons, wcost_cons]
      dsimp only
      obtain ⟨d, hd⟩ : ∃ d, q.1 = p.1 + d := ⟨q.1 - p.1, by omega⟩
      obtain ⟨e, he⟩ : ∃ e, q.2 = p.2 + e := ⟨q.2 - p.2, by omega⟩
      rw [hd, he]
      have : p.1 * (p.2 + e) + (p.1 + d) * p.2 + d * e = p.1 * p.2 + (p.1 + d) * (p.2 + e) := by ring
      omega

/-- No assignment of lengths meeting Kraft's inequality is cheaper than merging. -/
theorem huff_le {ws : List Nat} {c : Nat} (h : Huff ws c) : ∀ (P : List (Nat × Nat)) (M : Nat),
    (P.map (·.1)).Perm ws → (∀ p ∈ P, p.2 ≤ M) → kraft M (P.map (·.2)) ≤ 2 ^ M → c ≤ wcost P := by
  induction h with
  | one w => intro P M _ _ _; exact Nat.zero_le _
  | @merge ws rest a b c hp hab hb _ ih =>
    intro P M hw hM hK
    obtain ⟨L, R, r1, r2, r3, r4⟩ := exchange (hw.trans hp) (by
      intro x hx
      rcases List.mem_cons.1 hx with rfl | hx
      · exact hab
      · have := hb x hx; omega)
    obtain ⟨L2, R2, s1, s2, s3, s4⟩ := exchange r1 hb
    have hL2 : L2 ≤ L := by
      have : L2 ∈ R.map (·.2) := s2.mem_iff.1 (by simp)
      obtain ⟨r, hr, rfl⟩ := List.mem_map.1 this
      exact r3 r hr
    have hlen : ∀ l ∈ L :: R.map (·.2), l ≤ M := by
      intro l hl
      obtain ⟨p, hp, rfl⟩ := List.mem_map.1 (r2.mem_iff.1 hl)
      exact hM p hp
    have hLM : L ≤ M := hlen L (by simp)
    rw [← kraft_perm r2, kraft_cons, ← kraft_perm s2, kraft_cons] at hK
    -- everything but the first is a multiple of 2 ^ (M - L2)
    have hdvd : 2 ^ (M - L2) ∣ kraft M (R2.map (·.2)) := by
      unfold kraft
      apply dvd_sum_of
      intro x hx
      rw [List.map_map] at hx
      obtain ⟨r, hr, rfl⟩ := List.mem_map.1 hx
      have := s3 r hr
      exact Nat.pow_dvd_pow 2 (by simp only; omega)
    obtain ⟨q, hq⟩ := hdvd
    have hpos : 0 < 2 ^ (M - L) := Nat.two_pow_pos _
    have hd : 0 < 2 ^ (M - L2) := Nat.two_pow_pos _
    have hsplit : 2 ^ M = 2 ^ (M - L2) * 2 ^ L2 := by
      rw [← Nat.pow_add]; congr 1; omega
    rw [hq] at hK
    have hlt : 2 ^ (M - L2) * (1 + q) < 2 ^ (M - L2) * 2 ^ L2 := by
      rw [← hsplit, Nat.mul_add]; omega
    have hq2 : 1 + q < 2 ^ L2 := Nat.lt_of_mul_lt_mul_left hlt
    have hL2pos : 1 ≤ L2 := by
      by_contra hc
      have : L2 = 0 := by omega
      subst this
      simp at hq2
    have := ih ((a + b, L2 - 1) :: R2) M (by simpa using s1) (by
        intro p hp
        rcases List.mem_cons.1 hp with rfl | hp
        · dsimp only; omega
        · have := s3 p hp; omega) (by
        rw [List.map_cons, kraft_cons, hq]
        have h1 : M - (L2 - 1) = (M - L2) + 1 := by omega
        have h2 : 2 ^ (M - L2) * (1 + q + 1) ≤ 2 ^ (M - L2) * 2 ^ L2 := Nat.mul_le_mul_left _ hq2
        dsimp only
        rw [h1, Nat.pow_succ, hsplit]
        have h3 : 2 ^ (M - L2) * (1 + q + 1) = 2 ^ (M - L2) * 2 + 2 ^ (M - L2) * q := by ring
        omega)
    rw [wcost_cons] at this
    dsimp only at this
    obtain ⟨m, hm⟩ : ∃ m, L2 = m + 1 := ⟨L2 - 1, by omega⟩
    have h5 : a * L2 ≤ a * L := Nat.mul_le_mul_left _ hL2
    have h6 : (a + b) * (L2 - 1) + (a + b) = a * L2 + b * L2 := by
      rw [hm]; simp only [Nat.add_sub_cancel]; ring
    omega

/-! ### The loop -/

theorem popLeast_spec : ∀ (h : List HItem) (m : HItem) (r : List HItem),
    popLeast h = some (m, r) → h.Perm (m :: r) ∧ ∀ x ∈ r, m.wt ≤ x.wt := by
  intro h
  induction h with
  | nil => intro m r h; simp [popLeast] at h
  | cons x xs ih =>
    intro m r h
    unfold popLeast at h
    cases hp : popLeast xs with
    | none =>
      rw [hp] at h
      simp only [Option.some.injEq, Prod.mk.injEq] at h
      obtain ⟨rfl, rfl⟩ := h
      have : xs = [] := by
        cases xs with
        | nil => rfl
        | cons y ys =>
          exfalso
          unfold popLeast at hp
          split at hp
          · simp at hp
          · split at hp <;> simp at hp
      subst this
      exact ⟨List.Perm.refl _, by simp⟩
    | some p =>
      obtain ⟨m', r'⟩ := p
      obtain ⟨h1, h2⟩ := ih m' r' hp
      rw [hp] at h
      dsimp only at h
      split at h
      · rename_i hlt
        simp only [Option.some.injEq, Prod.mk.injEq] at h
        obtain ⟨rfl, rfl⟩ := h
        have hle : m'.wt ≤ x.wt := by
          unfold itemLt at hlt
          simp only [Bool.or_eq_true, Bool.and_eq_true, decide_eq_true_eq] at hlt
          omega
        refine ⟨(h1.cons x).trans (List.Perm.swap _ _ _), ?_⟩
        intro y hy
        rcases List.mem_cons.1 hy with rfl | hy
        · exact hle
        · exact h2 y hy
      · rename_i hlt
        simp only [Option.some.injEq, Prod.mk.injEq] at h
        obtain ⟨rfl, rfl⟩ := h
        have hle : x.wt ≤ m'.wt := by
          unfold itemLt at hlt
          simp only [Bool.or_eq_true, Bool.and_eq_true, decide_eq_true_eq] at hlt
          omega
        refine ⟨List.Perm.refl _, ?_⟩
        intro y hy
        rcases List.mem_cons.1 (h1.mem_iff.1 hy) with rfl | hy
        · exact hle
        · have := h2 y hy; omega

theorem popLeast_some {h : List HItem} (hne : h ≠ []) : ∃ m r, popLeast h = some (m, r) := by
  cases h with
  | nil => exact absurd rfl hne
  | cons x xs =>
    unfold popLeast
    split
    · exact ⟨_, _, rfl⟩
    · split <;> exact ⟨_, _, rfl⟩

/-- What holds of every heap entry. -/
structure ItemOk (freq : Int → Nat) (it : HItem) : Prop where
  ne : it.pairs ≠ []
  wt : it.wt = (it.pairs.map fun p => freq p.1).sum
  free : Free (it.pairs.map (·.2))

def pairCost (freq : Int → Nat) (ps : List (Int × List Bool)) : Nat :=
  (ps.map fun p => freq p.1 * p.2.length).sum

def heapCost (freq : Int → Nat) (h : List HItem) : Nat := (h.map fun it => pairCost freq it.pairs).sum

theorem pairCost_addBit (freq : Int → Nat) (b : Bool) (ps : List (Int × List Bool)) :
    pairCost freq (addBit b ps) = pairCost freq ps + (ps.map fun p => freq p.1).sum := by
  unfold pairCost addBit
  induction ps with
  | nil => rfl
  | cons p ps ih =>
    simp only [List.map_cons, List.sum_cons, List.length_cons, ih, Nat.mul_add]
    omega

theorem addBit_symbols (b : Bool) (ps : List (Int × List Bool)) :
    (addBit b ps).map (·.1) = ps.map (·.1) := by simp [addBit, Function.comp_def]

theorem addBit_codes (b : Bool) (ps : List (Int × List Bool)) :
    (addBit b ps).map (·.2) = (ps.map (·.2)).map (b :: ·) := by simp [addBit, Function.comp_def]

theorem merge_ok {freq : Int → Nat} {lo hi : HItem} (h1 : ItemOk freq lo) (h2 : ItemOk freq hi) :
    ItemOk freq ⟨lo.wt + hi.wt, addBit false lo.pairs ++ addBit true hi.pairs⟩ := by
  refine ⟨?_, ?_, ?_⟩
  · dsimp only
    intro h
    have := (List.append_eq_nil_iff.1 h).1
    exact h1.ne (by simpa [addBit] using this)
  · dsimp only
    rw [List.map_append, List.sum_append]
    have : ∀ b ps, (addBit b ps).map (fun p => freq p.1) = ps.map fun p => freq p.1 := by
      intro b ps; simp [addBit, Function.comp_def]
    rw [this, this, h1.wt, h2.wt]
  · dsimp only
    unfold Free
    rw [List.map_append, addBit_codes, addBit_codes, List.pairwise_append]
    refine ⟨?_, ?_, ?_⟩
    · rw [List.pairwise_map]
      refine h1.free.imp ?_
      intro a b h
      simpa [List.prefix_cons_inj] using h
    · rw [List.pairwise_map]
      refine h2.free.imp ?_
      intro a b h
      simpa [List.prefix_cons_inj] using h
    · intro a ha b hb
      obtain ⟨a', _, rfl⟩ := List.mem_map.1 ha
      obtain ⟨b', _, rfl⟩ := List.mem_map.1 hb
      simp [List.cons_prefix_cons]

theorem huffLoop (freq : Int → Nat) : ∀ (n : Nat) (heap : List HItem), heap.length = n + 1 →
    (∀ it ∈ heap, ItemOk freq it) → ∀ fuel, n < fuel →
    ∃ it c, whileLoop (fun h => decide (h.length > 1)) huffTurn fuel heap = some (.ok [it]) ∧
      ItemOk freq it ∧
      (it.pairs.map (·.1)).Perm ((heap.flatMap (·.pairs)).map (·.1)) ∧
      Huff (heap.map (·.wt)) c ∧ pairCost freq it.pairs = heapCost freq heap + c := by
  intro n
  induction n with
  | zero =>
    intro heap hl hok fuel hf
    obtain ⟨it, rfl⟩ := List.length_eq_one_iff.1 hl
    obtain ⟨f, rfl⟩ : ∃ f, fuel = f + 1 := ⟨fuel - 1, by omega⟩
    refine ⟨it, 0, by simp [whileLoop], hok it (by simp), by simp, .one _, by simp [heapCost]⟩
  | succ n ih =>
    intro heap hl hok fuel hf
    obtain ⟨f, rfl⟩ : ∃ f, fuel = f + 1 := ⟨fuel - 1, by omega⟩
    obtain ⟨lo, h1, e1⟩ := popLeast_some (h := heap) (by rintro rfl; simp at hl)
    obtain ⟨p1, m1⟩ := popLeast_spec _ _ _ e1
    have l1 : h1.length = n + 1 := by have := p1.length_eq; simp at this; omega
    obtain ⟨hi, h2, e2⟩ := popLeast_some (h := h1) (by rintro rfl; simp at l1)
    obtain ⟨p2, m2⟩ := popLeast_spec _ _ _ e2
    have l2 : h2.length = n := by have := p2.length_eq; simp at this; omega
    have hperm : heap.Perm (lo :: hi :: h2) := p1.trans (p2.cons lo)
    have oklo := hok lo (hperm.mem_iff.2 (by simp))
    have okhi := hok hi (hperm.mem_iff.2 (by simp))
    have hturn : huffTurn heap =
        .ok (⟨lo.wt + hi.wt, addBit false lo.pairs ++ addBit true hi.pairs⟩ :: h2) := by
      simp only [huffTurn, e1, e2]
    obtain ⟨it, c, r1, r2, r3, r4, r5⟩ := ih
      (⟨lo.wt + hi.wt, addBit false lo.pairs ++ addBit true hi.pairs⟩ :: h2) (by simp [l2]) (by
        intro x hx
        rcases List.mem_cons.1 hx with rfl | hx
        · exact merge_ok oklo okhi
        · exact hok x (hperm.mem_iff.2 (by simp [hx]))) f (by omega)
    refine ⟨it, lo.wt + hi.wt + c, ?_, r2, ?_, ?_, ?_⟩
    · rw [whileLoop, if_pos (by simp; omega), hturn]
      exact r1
    · refine r3.trans ?_
      have hsym : ((heap.flatMap (·.pairs)).map (·.1)).Perm
          (((lo :: hi :: h2).flatMap (·.pairs)).map (·.1)) := (hperm.flatMap_right _).map _
      refine List.Perm.trans ?_ hsym.symm
      simp only [List.flatMap_cons, List.map_append, addBit_symbols, List.append_assoc]
      exact List.Perm.refl _
    · refine .merge (hperm.map (·.wt)) (m1 hi (p2.mem_iff.2 (by simp))) ?_ r4
      intro x hx
      obtain ⟨y, hy, rfl⟩ := List.mem_map.1 hx
      exact m2 y hy
    · have hc : heapCost freq heap = pairCost freq lo.pairs + (pairCost freq hi.pairs + heapCost freq h2) := by
        have : heapCost freq heap = heapCost freq (lo :: hi :: h2) := (hperm.map _).sum_nat
        rw [this]; simp [heapCost]
      have hm : heapCost freq
          (⟨lo.wt + hi.wt, addBit false lo.pairs ++ addBit true hi.pairs⟩ :: h2) =
          pairCost freq lo.pairs + lo.wt + (pairCost freq hi.pairs + hi.wt) + heapCost freq h2 := by
        have happ : ∀ a b, pairCost freq (a ++ b) = pairCost freq a + pairCost freq b := by
          intro a b; simp [pairCost]
        simp only [heapCost, List.map_cons, List.sum_cons, happ, pairCost_addBit]
        rw [oklo.wt, okhi.wt]
      rw [r5, hm, hc]
      omega

end Verif
