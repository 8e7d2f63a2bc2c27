import Verif.Proof.Huffman
import Mathlib.Data.List.Nodup
import Mathlib.Data.List.Induction

/-! # Properties C31–C34: Huffman codes and frequency tables -/

namespace Verif
open Spec

/-- The code word a result of `encode` gives to a symbol. -/
def codeOf (r : List (Int × List Bool)) (s : Int) : List Bool := (dictGet r s).getD []

/-- The frequency of a symbol in a table. -/
def freqOf (tbl : List (Int × Nat)) (s : Int) : Nat := (dictGet tbl s).getD 0

theorem freqOf_mem {tbl : List (Int × Nat)} (hn : (tbl.map (·.1)).Nodup) {p : Int × Nat}
    (hp : p ∈ tbl) : freqOf tbl p.1 = p.2 := by
  have : dictGet tbl p.1 = some p.2 := dictGet_of_mem hn hp
  simp [freqOf, this]

theorem codeOf_mem {r : List (Int × List Bool)} (hn : (r.map (·.1)).Nodup) {p : Int × List Bool}
    (hp : p ∈ r) : codeOf r p.1 = p.2 := by
  have : dictGet r p.1 = some p.2 := dictGet_of_mem hn hp
  simp [codeOf, this]

/-- What the whole computation gives. -/
theorem encode_run (tbl : List (Int × Nat)) (hn : (tbl.map (·.1)).Nodup) (hne : tbl ≠ [])
    (fuel : Nat) (hf : tbl.length ≤ fuel) :
    ∃ r c, huffEncode fuel tbl = some (.ok r) ∧ (r.map (·.1)).Perm (tbl.map (·.1)) ∧
      Free (r.map (·.2)) ∧ r.Pairwise codeLe ∧
      Huff (tbl.map (·.2)) c ∧ pairCost (freqOf tbl) r = c := by
  have hlen : 0 < tbl.length := List.length_pos_of_ne_nil hne
  obtain ⟨it, c, h1, h2, h3, h4, h5⟩ := huffLoop (freqOf tbl) (tbl.length - 1) (huffHeap tbl)
    (by simp [huffHeap]; omega) (by
      intro it hit
      obtain ⟨p, hp, rfl⟩ := List.mem_map.1 hit
      exact ⟨by simp, by simp [freqOf_mem hn hp], by simp [Free]⟩) fuel (by omega)
  have hperm : (it.pairs.insertionSort codeLe).Perm it.pairs := List.perm_insertionSort _ _
  refine ⟨it.pairs.insertionSort codeLe, c, ?_, ?_, ?_, ?_, ?_, ?_⟩
  · unfold huffEncode
    rw [h1]
    rfl
  · refine (hperm.map _).trans (h3.trans ?_)
    have : (List.flatMap (fun x => x.pairs) (huffHeap tbl)).map (·.1) = tbl.map (·.1) := by
      clear h1 h2 h3 h4 h5 hlen hf hne hn
      unfold huffHeap
      induction tbl with
      | nil => rfl
      | cons p t ih => simpa [List.flatMap_cons] using ih
    rw [this]
  · exact (List.Perm.pairwise_iff (fun {a b} h => ⟨h.2, h.1⟩) (hperm.map _)).2 h2.free
  · haveI : Std.Total codeLe := ⟨by
      intro a b
      show (_ ∨ _) ∨ (_ ∨ _)
      omega⟩
    haveI : IsTrans _ codeLe := ⟨by
      intro a b c h1 h2
      have h1 : _ ∨ _ := h1
      have h2 : _ ∨ _ := h2
      show _ ∨ _
      omega⟩
    exact List.pairwise_insertionSort codeLe it.pairs
  · have : (huffHeap tbl).map (·.wt) = tbl.map (·.2) := by simp [huffHeap, Function.comp_def]
    rwa [this] at h4
  · have : heapCost (freqOf tbl) (huffHeap tbl) = 0 := by
      clear h1 h2 h3 h4 h5 hlen hf hne hn
      unfold heapCost huffHeap
      rw [List.map_map]
      have : ∀ f, ((tbl.map ((fun it => pairCost f it.pairs) ∘
          fun p => (⟨p.2, [(p.1, [])]⟩ : HItem))).sum) = 0 := by
        intro f
        induction tbl with
        | nil => rfl
        | cons p t ih => rw [List.map_cons, List.sum_cons, ih]; simp [pairCost]
      exact this _
    have h6 : pairCost (freqOf tbl) (it.pairs.insertionSort codeLe) = pairCost (freqOf tbl) it.pairs :=
      (hperm.map _).sum_nat
    rw [h6, h5, this, Nat.zero_add]

/-- Prefix freedom of the code from the pairwise property. -/
theorem free_codeOf {r : List (Int × List Bool)} (hn : (r.map (·.1)).Nodup)
    (hf : Free (r.map (·.2))) : PrefixFree (r.map (·.1)) (codeOf r) := by
  intro a ha b hb hab
  obtain ⟨p, hp, rfl⟩ := List.mem_map.1 ha
  obtain ⟨q, hq, rfl⟩ := List.mem_map.1 hb
  rw [codeOf_mem hn hp, codeOf_mem hn hq]
  have hf' : r.Pairwise fun p q => ¬ p.2 <+: q.2 ∧ ¬ q.2 <+: p.2 := List.pairwise_map.1 hf
  clear hf ha hb hn
  induction r with
  | nil => simp at hp
  | cons x r ih =>
    obtain ⟨h1, h2⟩ := List.pairwise_cons.1 hf'
    rcases List.mem_cons.1 hp with e | hp' <;> rcases List.mem_cons.1 hq with e' | hq'
    · exact absurd (by rw [e, e']) hab
    · rw [e]; exact (h1 q hq').1
    · rw [e']; exact (h1 p hp').2
    · exact ih hp' hq' h2

theorem prefixFree_perm {s t : List Int} (h : s.Perm t) {code : Int → List Bool}
    (hp : PrefixFree s code) : PrefixFree t code :=
  fun a ha b hb hab => hp a (h.mem_iff.2 ha) b (h.mem_iff.2 hb) hab

/-- With two symbols, messages over a prefix-free code are told apart. -/
theorem decode_unique {symbols : List Int} {code : Int → List Bool} (hp : PrefixFree symbols code)
    (h2 : ∀ s ∈ symbols, ∃ t ∈ symbols, t ≠ s) : ∀ m m' : List Int, (∀ s ∈ m, s ∈ symbols) →
    (∀ s ∈ m', s ∈ symbols) → encodeMessage code m = encodeMessage code m' → m = m' := by
  have hne : ∀ s ∈ symbols, code s ≠ [] := by
    intro s hs h
    obtain ⟨t, ht, hts⟩ := h2 s hs
    exact hp s hs t ht (Ne.symm hts) (by rw [h]; exact List.nil_prefix)
  intro m
  induction m with
  | nil =>
    intro m' _ h' heq
    cases m' with
    | nil => rfl
    | cons s m' =>
      exfalso
      simp only [encodeMessage, List.flatMap_nil, List.flatMap_cons] at heq
      exact hne s (h' s (by simp)) (List.append_eq_nil_iff.1 heq.symm).1
  | cons s m ih =>
    intro m' h h' heq
    cases m' with
    | nil =>
      exfalso
      simp only [encodeMessage, List.flatMap_nil, List.flatMap_cons] at heq
      exact hne s (h s (by simp)) (List.append_eq_nil_iff.1 heq).1
    | cons t m' =>
      simp only [encodeMessage, List.flatMap_cons] at heq
      have hst : s = t := by
        by_contra hst
        have hs := h s (by simp)
        have ht := h' t (by simp)
        have p1 : code s <+: code t ++ m'.flatMap code := ⟨_, heq⟩
        have p2 : code t <+: code t ++ m'.flatMap code := ⟨_, rfl⟩
        rcases List.prefix_or_prefix_of_prefix p1 p2 with h | h
        · exact hp s hs t ht hst h
        · exact hp t ht s hs (Ne.symm hst) h
      subst hst
      rw [List.append_cancel_left_eq] at heq
      rw [ih m' (fun x hx => h x (by simp [hx])) (fun x hx => h' x (by simp [hx])) heq]

/-- **C31.**  Encoding a non-empty table ends; every symbol gets exactly one
code, the codes are prefix free and listed by increasing length, and with two
or more symbols two different messages never have the same bits. -/
theorem C31_prefix_free (tbl : List (Int × Nat)) (hn : (tbl.map (·.1)).Nodup) (hne : tbl ≠ [])
    (fuel : Nat) (hf : tbl.length ≤ fuel) :
    ∃ r, huffEncode fuel tbl = some (.ok r) ∧ (r.map (·.1)).Perm (tbl.map (·.1)) ∧
      PrefixFree (tbl.map (·.1)) (codeOf r) ∧
      r.Pairwise (fun p q => p.2.length ≤ q.2.length) ∧
      (2 ≤ tbl.length → ∀ m m' : List Int, (∀ s ∈ m, s ∈ tbl.map (·.1)) →
        (∀ s ∈ m', s ∈ tbl.map (·.1)) →
        encodeMessage (codeOf r) m = encodeMessage (codeOf r) m' → m = m') := by
  obtain ⟨r, c, h1, h2, h3, h4, _, _⟩ := encode_run tbl hn hne fuel hf
  have hpf := prefixFree_perm h2 (free_codeOf (h2.nodup_iff.2 hn) h3)
  refine ⟨r, h1, h2, hpf, h4.imp (fun {a b} h => by have h : _ ∨ _ := h; omega), ?_⟩
  intro hlen
  refine decode_unique hpf ?_
  intro s hs
  cases tbl with
  | nil => exact absurd rfl hne
  | cons p t =>
    cases t with
    | nil => simp at hlen
    | cons q t =>
      simp only [List.map_cons, List.nodup_cons, List.mem_cons, not_or] at hn
      by_cases hps : p.1 = s
      · exact ⟨q.1, by simp, fun h => hn.1.1 (hps.trans h.symm)⟩
      · exact ⟨p.1, by simp, hps⟩

/-- An empty table is rejected. -/
theorem C31_empty (fuel : Nat) (hf : 0 < fuel) : huffEncode fuel [] = some (.error .index) := by
  obtain ⟨f, rfl⟩ : ∃ f, fuel = f + 1 := ⟨fuel - 1, by omega⟩
  rfl

/-- A single symbol gets the empty code. -/
theorem C31_single (s : Int) (f fuel : Nat) (hf : 0 < fuel) :
    huffEncode fuel [(s, f)] = some (.ok [(s, [])]) := by
  obtain ⟨g, rfl⟩ : ∃ f, fuel = f + 1 := ⟨fuel - 1, by omega⟩
  rfl

example : huffEncode 10 [(1, 5), (2, 1), (3, 2)] =
    some (.ok [(1, [true]), (2, [false, false]), (3, [false, true])]) := by decide +kernel

theorem huffSum_eq (tbl : List (Int × Nat)) : ∀ (r : List (Int × List Bool)) (n : Nat),
    (∀ p ∈ r, p.1 ∈ tbl.map (·.1)) → huffSum tbl r n = .ok (n + pairCost (freqOf tbl) r) := by
  intro r
  induction r with
  | nil => intro n _; simp [huffSum, pairCost]
  | cons p r ih =>
    intro n h
    have : (dictGet tbl p.1).isSome := (dictGet_isSome tbl p.1).2 (h p (by simp))
    obtain ⟨f, hf⟩ := Option.isSome_iff_exists.1 this
    have hfo : freqOf tbl p.1 = f := by simp [freqOf, hf]
    simp only [huffSum, hf]
    rw [ih _ fun q hq => h q (by simp [hq])]
    simp only [pairCost, List.map_cons, List.sum_cons, hfo]
    congr 1; omega

/-- The cost of a code as weights and lengths. -/
theorem totalSize_wcost (tbl : List (Int × Nat)) (code : Int → List Bool) :
    totalSize tbl code = wcost (tbl.map fun p => (p.2, (code p.1).length)) := by
  simp [totalSize, wcost, Function.comp_def]

theorem pairCost_totalSize {tbl : List (Int × Nat)} {r : List (Int × List Bool)}
    (hn : (tbl.map (·.1)).Nodup) (hp : (r.map (·.1)).Perm (tbl.map (·.1))) :
    pairCost (freqOf tbl) r = totalSize tbl (codeOf r) := by
  have hr := hp.nodup_iff.2 hn
  have h1 : pairCost (freqOf tbl) r =
      ((r.map (·.1)).map fun s => freqOf tbl s * (codeOf r s).length).sum := by
    rw [List.map_map]
    unfold pairCost
    congr 1
    apply List.map_congr_left
    intro p hp
    simp only [Function.comp, codeOf_mem hr hp]
  have h2 : totalSize tbl (codeOf r) =
      ((tbl.map (·.1)).map fun s => freqOf tbl s * (codeOf r s).length).sum := by
    rw [List.map_map]
    unfold totalSize
    congr 1
    apply List.map_congr_left
    intro p hp
    simp only [Function.comp, freqOf_mem hn hp]
  rw [h1, h2]
  exact (hp.map _).sum_nat

theorem pairwise_of_prefixFree (code : Int → List Bool) : ∀ ss : List Int, ss.Nodup →
    PrefixFree ss code → Free (ss.map code) := by
  intro ss
  induction ss with
  | nil => intro _ _; exact List.Pairwise.nil
  | cons s ss ih =>
    intro hn h
    rw [List.nodup_cons] at hn
    refine List.pairwise_cons.2 ⟨?_, ih hn.2 fun a ha b hb => h a (by simp [ha]) b (by simp [hb])⟩
    intro c hc
    obtain ⟨t, ht, rfl⟩ := List.mem_map.1 hc
    have hst : s ≠ t := by rintro rfl; exact hn.1 ht
    exact ⟨h s (by simp) t (by simp [ht]) hst, h t (by simp [ht]) s (by simp) (Ne.symm hst)⟩

theorem le_maxLength (code : Int → List Bool) (ss : List Int) :
    ∃ M, ∀ s ∈ ss, (code s).length ≤ M := by
  induction ss with
  | nil => exact ⟨0, by simp⟩
  | cons s ss ih =>
    obtain ⟨M, hM⟩ := ih
    refine ⟨max M (code s).length, ?_⟩
    intro t ht
    rcases List.mem_cons.1 ht with rfl | ht
    · omega
    · have := hM t ht; omega

/-- A merging cost of the same frequencies is below every prefix-free code. -/
theorem huff_le_code {ws : List Nat} {c : Nat} (h : Huff ws c) (tbl : List (Int × Nat))
    (hn : (tbl.map (·.1)).Nodup) (hw : (tbl.map (·.2)).Perm ws) (code : Int → List Bool)
    (hp : PrefixFree (tbl.map (·.1)) code) : c ≤ totalSize tbl code := by
  obtain ⟨M, hM⟩ := le_maxLength code (tbl.map (·.1))
  rw [totalSize_wcost]
  refine huff_le h _ M ?_ ?_ ?_
  · simpa [Function.comp_def] using hw
  · intro p hp
    obtain ⟨q, hq, rfl⟩ := List.mem_map.1 hp
    exact hM q.1 (List.mem_map.2 ⟨q, hq, rfl⟩)
  · have := kraft_of_free M ((tbl.map (·.1)).map code) (pairwise_of_prefixFree code _ hn hp) (by
      intro c hc
      obtain ⟨s, hs, rfl⟩ := List.mem_map.1 hc
      exact hM s hs)
    simpa [Function.comp_def] using this

theorem size_run (tbl : List (Int × Nat)) (hn : (tbl.map (·.1)).Nodup) (hne : tbl ≠ [])
    (fuel : Nat) (hf : tbl.length ≤ fuel) :
    ∃ r c, huffEncode fuel tbl = some (.ok r) ∧ huffmanSize fuel tbl [] = some (.ok c) ∧
      huffmanSize fuel tbl r = some (.ok c) ∧
      PrefixFree (tbl.map (·.1)) (codeOf r) ∧ c = totalSize tbl (codeOf r) ∧
      Huff (tbl.map (·.2)) c := by
  obtain ⟨r, c, h1, h2, h3, _, h5, h6⟩ := encode_run tbl hn hne fuel hf
  have hsum : huffSum tbl r 0 = .ok c := by
    rw [huffSum_eq tbl r 0 fun p hp => h2.mem_iff.1 (List.mem_map.2 ⟨p, hp, rfl⟩), h6, Nat.zero_add]
  have hrne : r ≠ [] := by
    rintro rfl
    have := h2.length_eq
    simp at this
    exact hne (List.length_eq_zero_iff.1 this.symm)
  refine ⟨r, c, h1, ?_, ?_, prefixFree_perm h2 (free_codeOf (h2.nodup_iff.2 hn) h3), ?_, h5⟩
  · simp only [huffmanSize, if_true, h1, Option.map_some]
    exact congrArg some hsum
  · simp only [huffmanSize, if_neg hrne, hsum]
  · rw [← pairCost_totalSize hn h2, h6]

/-- **C32.**  The reported size is the size of the produced code, which is
prefix free, and no prefix-free code of the same symbols is smaller. -/
theorem C32_minimal (tbl : List (Int × Nat)) (hn : (tbl.map (·.1)).Nodup) (hne : tbl ≠ [])
    (fuel : Nat) (hf : tbl.length ≤ fuel) :
    ∃ r size, huffEncode fuel tbl = some (.ok r) ∧ huffmanSize fuel tbl [] = some (.ok size) ∧
      huffmanSize fuel tbl r = some (.ok size) ∧
      PrefixFree (tbl.map (·.1)) (codeOf r) ∧ size = totalSize tbl (codeOf r) ∧
      ∀ code, PrefixFree (tbl.map (·.1)) code → size ≤ totalSize tbl code := by
  obtain ⟨r, c, h1, h2, h3, h4, h5, h6⟩ := size_run tbl hn hne fuel hf
  exact ⟨r, c, h1, h2, h3, h4, h5, fun code hc => huff_le_code h6 tbl hn (List.Perm.refl _) code hc⟩

example : huffmanSize 10 [(1, 5), (2, 1), (3, 2), (7, 2)] [] = some (.ok 18) := by decide +kernel

/-- A code with a symbol outside the table is rejected. -/
theorem C32_unknown_symbol (fuel : Nat) (tbl : List (Int × Nat)) (s : Int) (c : List Bool)
    (r : List (Int × List Bool)) (hs : s ∉ tbl.map (·.1)) :
    huffmanSize fuel tbl ((s, c) :: r) = some (.error .key) := by
  have : dictGet tbl s = none := (dictGet_eq_none tbl s).2 hs
  simp [huffmanSize, huffSum, this]

/-- **C33.**  The reported size only depends on the multiset of frequencies. -/
theorem C33_multiset (tbl tbl' : List (Int × Nat)) (hn : (tbl.map (·.1)).Nodup)
    (hn' : (tbl'.map (·.1)).Nodup) (hperm : (tbl.map (·.2)).Perm (tbl'.map (·.2)))
    (fuel fuel' : Nat) (hf : tbl.length < fuel) (hf' : tbl'.length < fuel') :
    huffmanSize fuel tbl [] = huffmanSize fuel' tbl' [] := by
  have hlen : tbl.length = tbl'.length := by simpa using hperm.length_eq
  by_cases hne : tbl = []
  · subst hne
    have : tbl' = [] := List.length_eq_zero_iff.1 hlen.symm
    subst this
    simp only [huffmanSize, if_true, C31_empty fuel (by omega), C31_empty fuel' (by omega)]
  · have hne' : tbl' ≠ [] := by rintro rfl; exact hne (List.length_eq_zero_iff.1 hlen)
    obtain ⟨r, c, _, h2, _, h4, h5, h6⟩ := size_run tbl hn hne fuel (by omega)
    obtain ⟨r', c', _, h2', _, h4', h5', h6'⟩ := size_run tbl' hn' hne' fuel' (by omega)
    have a := huff_le_code h6 tbl' hn' hperm.symm _ h4'
    have b := huff_le_code h6' tbl hn hperm _ h4
    rw [h2, h2']
    congr 2; omega

example : huffmanSize 10 [(1, 5), (2, 1), (3, 2)] [] = huffmanSize 9 [(8, 2), (6, 5), (-1, 1)] [] :=
  C33_multiset _ _ (by decide) (by decide) (by decide) _ _ (by decide) (by decide)

/-! ### C34 -/

theorem counter_get (l : List Int) (k : Int) :
    dictGet (counterItems l) k = if l.count k = 0 then none else some (l.count k) := by
  unfold counterItems
  induction l using List.reverseRecOn with
  | nil => simp [dictGet_nil]
  | append_singleton l a ih =>
    rw [List.foldl_append, List.foldl_cons, List.foldl_nil, dictGet_dictSet, List.count_append]
    by_cases h : a = k
    · subst h
      rw [if_pos rfl, ih]
      split <;> simp_all
    · rw [if_neg (by simpa [eq_comm] using h), ih]
      simp [List.count_singleton, h]

theorem counter_nodup (l : List Int) : ((counterItems l).map (·.1)).Nodup := by
  unfold counterItems
  induction l using List.reverseRecOn with
  | nil => simp
  | append_singleton l a ih =>
    rw [List.foldl_append, List.foldl_cons, List.foldl_nil, keys_dictSet]
    split
    · exact ih
    · rename_i h
      exact List.nodup_append.2 ⟨ih, by simp, by
        intro x hx y hy
        rw [List.mem_singleton] at hy
        subst hy
        rintro rfl
        exact h hx⟩

theorem inner_get (p : Nat) : ∀ (items : List (Int × Nat)) (s : List (Int × Nat) × List (Int × List Nat))
    (k : Int), (items.map (·.1)).Nodup →
    dictGet (items.foldl (freqInner p) s).1 k =
      (match dictGet items k with
       | none => dictGet s.1 k
       | some r => some ((dictGet s.1 k).getD 0 + r)) ∧
    dictGet (items.foldl (freqInner p) s).2 k =
      (match dictGet items k with
       | none => dictGet s.2 k
       | some _ => some (if p ∈ (dictGet s.2 k).getD [] then (dictGet s.2 k).getD []
                         else (dictGet s.2 k).getD [] ++ [p])) := by
  intro items
  induction items with
  | nil => intro s k _; simp [dictGet_nil]
  | cons q items ih =>
    intro s k hn
    rw [List.map_cons, List.nodup_cons] at hn
    rw [List.foldl_cons]
    obtain ⟨h1, h2⟩ := ih (freqInner p s q) k hn.2
    rw [h1, h2, dictGet_cons]
    have hf : dictGet (freqInner p s q).1 k =
        if q.1 = k then some ((dictGet s.1 k).getD 0 + q.2) else dictGet s.1 k := by
      unfold freqInner
      dsimp only
      rw [dictGet_dictSet]
      by_cases h : q.1 = k
      · subst h
        simp only [if_true]
        cases hd : dictGet s.1 q.1 with
        | none => simp [dictGet_dictSet]
        | some v => simp [hd]
      · have h' : k ≠ q.1 := fun e => h e.symm
        rw [if_neg h]
        by_cases hd : (dictGet s.1 q.1).isNone
        · rw [if_pos hd, dictGet_dictSet]; simp [h, h']
        · rw [if_neg hd]; simp [h, h']
    have hw : dictGet (freqInner p s q).2 k =
        if q.1 = k then some (if p ∈ (dictGet s.2 k).getD [] then (dictGet s.2 k).getD []
          else (dictGet s.2 k).getD [] ++ [p]) else dictGet s.2 k := by
      unfold freqInner
      dsimp only
      by_cases h : q.1 = k
      · subst h
        rw [if_pos rfl]
        cases hd : dictGet s.2 q.1 with
        | none => simp [dictGet_dictSet]
        | some v =>
          dsimp only [Option.getD_some]
          split
          · exact hd
          · simp [dictGet_dictSet]
      · have h' : k ≠ q.1 := fun e => h e.symm
        rw [if_neg h]
        cases hd : dictGet s.2 q.1 with
        | none => simp [dictGet_dictSet, h, h']
        | some v =>
          dsimp only
          split
          · rfl
          · simp [dictGet_dictSet, h, h']
    by_cases h : q.1 = k
    · subst h
      have : dictGet items q.1 = none := (dictGet_eq_none items q.1).2 hn.1
      simp only [if_true] at hf hw ⊢
      rw [this, hf, hw]
      exact ⟨rfl, rfl⟩
    · simp only [if_neg h] at hf hw ⊢
      rw [hf, hw]
      exact ⟨rfl, rfl⟩

/-- **C34.**  The frequency of a part is its number of occurrences over the
program; the instructions recorded for it are those containing it, in program
order, without repetition; parts that do not occur have no entry. -/
theorem C34_frequencies (x : Nat → List Int) (program : List Nat) (k : Int) :
    dictGet (freqInfo x program).1 k =
      (if (program.map fun p => (x p).count k).sum = 0 then none
       else some (program.map fun p => (x p).count k).sum) ∧
    dictGet (freqInfo x program).2 k =
      (if program.filter (fun p => decide (k ∈ x p)) = [] then none
       else some (program.filter (fun p => decide (k ∈ x p))).eraseDups) := by
  unfold freqInfo
  induction program using List.reverseRecOn with
  | nil => simp [dictGet_nil]
  | append_singleton program p ih =>
    obtain ⟨ih1, ih2⟩ := ih
    rw [List.foldl_append, List.foldl_cons, List.foldl_nil]
    generalize List.foldl _ ([], []) program = s at ih1 ih2
    obtain ⟨h1, h2⟩ := inner_get p (counterItems (x p)) s k (counter_nodup _)
    rw [h1, h2, counter_get]
    have hS : ((program ++ [p]).map fun p => (x p).count k).sum =
        (program.map fun p => (x p).count k).sum + (x p).count k := by simp
    rw [hS]
    generalize (program.map fun p => (x p).count k).sum = S at ih1
    by_cases hk : k ∈ x p
    · have hc : (x p).count k ≠ 0 := fun h => (List.count_eq_zero.1 h) hk
      have hF : (program ++ [p]).filter (fun p => decide (k ∈ x p)) =
          program.filter (fun p => decide (k ∈ x p)) ++ [p] := by simp [hk]
      rw [hF]
      generalize program.filter (fun p => decide (k ∈ x p)) = F at ih2
      rw [if_neg hc]
      dsimp only
      rw [ih1, ih2, if_neg (show ¬ S + (x p).count k = 0 by omega),
        if_neg (show ¬ F ++ [p] = [] by simp)]
      constructor
      · by_cases hs : S = 0
        · simp [hs]
        · simp [hs]
      · by_cases hnil : F = []
        · simp [hnil, List.eraseDups_cons]
        · rw [if_neg hnil, Option.getD_some, List.eraseDups_append]
          by_cases hp : p ∈ F
          · rw [if_pos (by simpa using hp)]
            have : List.removeAll [p] F = [] := by simpa [List.removeAll] using hp
            rw [this]; simp
          · rw [if_neg (by simpa using hp)]
            have : List.removeAll [p] F = [p] := by simpa [List.removeAll] using hp
            rw [this]; simp [List.eraseDups_cons]
    · have hc : (x p).count k = 0 := List.count_eq_zero.2 hk
      have hF : (program ++ [p]).filter (fun p => decide (k ∈ x p)) =
          program.filter (fun p => decide (k ∈ x p)) := by simp [hk]
      rw [hF, if_pos hc, hc]
      exact ⟨ih1, ih2⟩

example : freqInfo (fun p => if p = 0 then [3, 3, 5] else [5]) [0, 1, 0] =
    ([(3, 4), (5, 3)], [(3, [0]), (5, [0, 1])]) := by decide +kernel

end Verif
