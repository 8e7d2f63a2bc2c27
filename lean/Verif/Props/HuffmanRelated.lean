import Mathlib.Algebra.Order.BigOperators.Group.List
import Verif.Props.HuffmanBounds

/-!
# C132: the reported sizes of related programs

A program with fewer instructions or with parts read more coarsely never needs
more bits, and a program repeated needs as many times the bits.
-/

namespace Verif

open Spec

theorem encode_length (code : Int → List Bool) (msg : List Int) :
    (encodeMessage code msg).length = (msg.map fun s => (code s).length).sum := by
  rw [encodeMessage, List.length_flatMap]

theorem shortest_subperm {s t : List Int} {x y : Nat} (h : s.Subperm t) (hs : Shortest s x) (ht : Shortest t y) :
    x ≤ y := by
  obtain ⟨⟨code, hp, hl⟩, -⟩ := ht
  have h1 := hs.2 code fun a ha b hb => hp a (h.subset ha) b (h.subset hb)
  refine h1.trans ?_
  rw [← hl, encode_length, encode_length]
  obtain ⟨s', hs', hsub⟩ := h
  rw [← (hs'.map _).sum_eq]
  exact (hsub.map _).sum_le_sum fun _ _ => Nat.zero_le _

theorem shortest_map {s : List Int} {f : Int → Int} {x y : Nat} (hs : Shortest s x) (ht : Shortest (s.map f) y) :
    y ≤ x := by
  classical
  obtain ⟨⟨code, hp, hl⟩, -⟩ := hs
  have hbest : ∀ v, ∃ u, v ∈ s.map f → u ∈ s ∧ f u = v ∧ ∀ u' ∈ s, f u' = v → (code u).length ≤ (code u').length := by
    intro v
    by_cases hv : v ∈ s.map f
    · have hex : ∃ n, ∃ u ∈ s, f u = v ∧ (code u).length = n := by
        obtain ⟨u, hu, e⟩ := List.mem_map.1 hv
        exact ⟨_, u, hu, e, rfl⟩
      obtain ⟨u, hu, e, hn⟩ := Nat.find_spec hex
      exact ⟨u, fun _ => ⟨hu, e, fun u' hu' e' => hn ▸ Nat.find_min' hex ⟨u', hu', e', rfl⟩⟩⟩
    · exact ⟨0, fun h => absurd h hv⟩
  choose best hb using hbest
  refine (ht.2 (fun v => code (best v)) ?_).trans ?_
  · intro a ha b hb' hab
    obtain ⟨a1, a2, -⟩ := hb a ha
    obtain ⟨b1, b2, -⟩ := hb b hb'
    exact hp _ a1 _ b1 fun e => hab (by rw [← a2, ← b2, e])
  · rw [← hl, encode_length, encode_length, List.map_map]
    exact List.sum_le_sum fun u hu => (hb (f u) (List.mem_map.2 ⟨u, hu, rfl⟩)).2.2 u hu rfl

theorem shortest_unique {s : List Int} {x y : Nat} (h : Shortest s x) (h' : Shortest s y) : x = y := by
  obtain ⟨⟨c, hc, rfl⟩, h1⟩ := h
  obtain ⟨⟨c', hc', rfl⟩, h2⟩ := h'
  exact Nat.le_antisymm (h1 _ hc') (h2 _ hc)

theorem shortest_repeat {s : List Int} {x k : Nat} (hk : 0 < k) (h : Shortest s x) :
    Shortest (List.replicate k s).flatten (k * x) := by
  have hmem : ∀ a, a ∈ (List.replicate k s).flatten ↔ a ∈ s := by
    intro a
    simp only [List.mem_flatten, List.mem_replicate]
    exact ⟨fun ⟨l, ⟨_, e⟩, ha⟩ => e ▸ ha, fun ha => ⟨s, ⟨by omega, rfl⟩, ha⟩⟩
  have hlen : ∀ code, (encodeMessage code (List.replicate k s).flatten).length = k * (encodeMessage code s).length := by
    intro code
    simp only [encode_length, List.map_flatten, List.sum_flatten, List.map_replicate, List.sum_replicate]
    rfl
  obtain ⟨⟨code, hp, hl⟩, h2⟩ := h
  refine ⟨⟨code, fun a ha b hb => hp a ((hmem a).1 ha) b ((hmem b).1 hb), by rw [hlen, hl]⟩, fun c hc => ?_⟩
  rw [hlen]
  exact Nat.mul_le_mul_left k (h2 c fun a ha b hb => hc a ((hmem a).2 ha) b ((hmem b).2 hb))

theorem flatMap_sublist (x : Nat → List Int) {p q : List Nat} (h : p.Sublist q) : (p.flatMap x).Sublist (q.flatMap x) := by
  induction h with
  | slnil => exact List.Sublist.refl _
  | cons a _ ih => rw [List.flatMap_cons]; exact ih.trans (List.sublist_append_right _ _)
  | cons_cons a _ ih => rw [List.flatMap_cons, List.flatMap_cons]; exact (List.Sublist.refl _).append ih

/-- **C132, fewer instructions.**  A program made of some of the instructions of
another, in any order, never needs more bits. -/
theorem C132_fewer (x : Nat → List Int) (p q : List Nat) (h : p.Subperm q) (hp : p.flatMap x ≠ []) (fuel : Nat)
    (hf : (q.flatMap x).length ≤ fuel) :
    ∃ a b, huffmanSize fuel (freqInfo x p).1 [] = some (.ok a) ∧ huffmanSize fuel (freqInfo x q).1 [] = some (.ok b) ∧
      a ≤ b := by
  have hs : (p.flatMap x).Subperm (q.flatMap x) := by
    obtain ⟨p', h1, h2⟩ := h
    exact ⟨p'.flatMap x, h1.flatMap_right x, flatMap_sublist x h2⟩
  have hl := hs.length_le
  obtain ⟨a, ha, ha2⟩ := (counts_freqInfo x p).size hp fuel (by omega)
  obtain ⟨b, hb, hb2⟩ := (counts_freqInfo x q).size (fun e => hp (by rw [e] at hs; exact List.subperm_nil.1 hs)) fuel hf
  exact ⟨a, b, ha2, hb2, shortest_subperm hs ha hb⟩

/-- **C132, coarser parts.**  When some parts are no longer told apart, the
program never needs more bits. -/
theorem C132_coarser (x : Nat → List Int) (f : Int → Int) (p : List Nat) (hp : p.flatMap x ≠ []) (fuel : Nat)
    (hf : (p.flatMap x).length ≤ fuel) :
    ∃ a b, huffmanSize fuel (freqInfo (fun i => (x i).map f) p).1 [] = some (.ok a) ∧
      huffmanSize fuel (freqInfo x p).1 [] = some (.ok b) ∧ a ≤ b := by
  have he : (p.flatMap fun i => (x i).map f) = (p.flatMap x).map f := by rw [List.map_flatMap]
  obtain ⟨a, ha, ha2⟩ := (counts_freqInfo (fun i => (x i).map f) p).size (by rw [he]; simpa using hp) fuel
    (by rw [he]; simpa using hf)
  obtain ⟨b, hb, hb2⟩ := (counts_freqInfo x p).size hp fuel hf
  rw [he] at ha
  exact ⟨a, b, ha2, hb2, shortest_map hb ha⟩

/-- **C132, repetition.**  A program repeated needs as many times the bits. -/
theorem C132_repeated (x : Nat → List Int) (p : List Nat) (hp : p.flatMap x ≠ []) (k : Nat) (hk : 0 < k) (fuel : Nat)
    (hf : k * (p.flatMap x).length ≤ fuel) :
    ∃ a, huffmanSize fuel (freqInfo x p).1 [] = some (.ok a) ∧
      huffmanSize fuel (freqInfo x (List.replicate k p).flatten).1 [] = some (.ok (k * a)) := by
  have he : (List.replicate k p).flatten.flatMap x = (List.replicate k (p.flatMap x)).flatten := by
    induction k with
    | zero => omega
    | succ k ih =>
      cases k with
      | zero => simp
      | succ k =>
        rw [List.replicate_succ, List.flatten_cons, List.flatMap_append, ih (by omega)
          ((Nat.mul_le_mul_right _ (by omega)).trans hf), ← List.flatten_cons, ← List.replicate_succ]
  have hl : (List.replicate k (p.flatMap x)).flatten.length = k * (p.flatMap x).length := by
    simp [List.length_flatten, List.map_replicate, List.sum_replicate]
  obtain ⟨a, ha, ha2⟩ := (counts_freqInfo x p).size hp fuel ((Nat.le_mul_of_pos_left _ hk).trans hf)
  have hr := shortest_repeat hk ha
  obtain ⟨b, hb, hb2⟩ := (counts_freqInfo x (List.replicate k p).flatten).size
    (by
      rw [he]
      intro e
      have := congrArg List.length e
      rw [hl, List.length_nil, Nat.mul_eq_zero] at this
      rcases this with h | h
      · omega
      · exact hp (List.length_eq_zero_iff.1 h)) fuel (by rw [he, hl]; exact hf)
  rw [he] at hb
  rw [shortest_unique hb hr] at hb2
  exact ⟨a, ha2, hb2⟩

/-- One part per instruction: a program, a part of it, the program with two
parts taken as one, and the program three times. -/
theorem C132_case :
    let x : Nat → List Int := fun i => [(i : Int)]
    huffmanSize 20 (freqInfo x [1, 2, 1, 3, 4]).1 [] = some (.ok 10) ∧
    huffmanSize 20 (freqInfo x [4, 1, 1]).1 [] = some (.ok 3) ∧
    huffmanSize 20 (freqInfo (fun i => (x i).map fun v => if v = 4 then 3 else v) [1, 2, 1, 3, 4]).1 [] = some (.ok 8) ∧
    huffmanSize 20 (freqInfo x [1, 2, 1, 3, 4, 1, 2, 1, 3, 4, 1, 2, 1, 3, 4]).1 [] = some (.ok 30) := by
  decide +kernel

end Verif
