import Verif.Spec.ReaderFunctions
import Verif.Proof.ReaderErrors

/-! # The functions of any listing -/

namespace Verif

open Spec (Item entries lastEntry codes picks ownerAt placesOf MadeFrom TableAt CodeAt ItemAt Reads White HexText sectAfter)

theorem entries_entry (items : List Item) (a : Int) (n : List Char) : entries (items ++ [.entry a n]) = entries items ++ [(a, n)] := by
  unfold entries
  rw [List.filterMap_append]
  rfl

theorem entries_code (items : List Item) (a e : Int) : entries (items ++ [.code a e]) = entries items := by
  unfold entries
  rw [List.filterMap_append]
  simp

theorem lastEntry_snoc (es : List (Int × List Char)) (b a : Int) (n : List Char) :
    lastEntry (es ++ [(b, n)]) a = if b = a then some es.length else lastEntry es a := by
  unfold lastEntry
  rw [List.length_append, List.length_singleton, List.range_succ, List.filter_append]
  have : (List.range es.length).filter (fun j => decide ((es ++ [(b, n)])[j]?.map (·.1) = some a)) =
      (List.range es.length).filter fun j => decide (es[j]?.map (·.1) = some a) := by
    apply List.filter_congr
    intro j hj
    rw [List.getElem?_append_left (List.mem_range.1 hj)]
  rw [this]
  by_cases h : b = a
  · rw [if_pos h]
    simp [h]
  · rw [if_neg h]
    simp [h]

theorem lastEntry_spec {es : List (Int × List Char)} {a : Int} {j : Nat} (h : lastEntry es a = some j) :
    ∃ n, es[j]? = some (a, n) := by
  unfold lastEntry at h
  have := List.mem_of_getLast? h
  rw [List.mem_filter] at this
  obtain ⟨_, h2⟩ := this
  have h2 : es[j]?.map (·.1) = some a := by simpa using h2
  cases h3 : es[j]? with
  | none => rw [h3] at h2; cases h2
  | some p =>
    rw [h3] at h2
    cases h2
    exact ⟨p.2, rfl⟩

theorem codes_snoc (items : List Item) (x : Item) : codes (items ++ [x]) =
    codes items ++ (match x with | .code _ _ => [items.length] | .entry _ _ => []) := by
  unfold codes
  rw [List.length_append, List.length_singleton, List.range_succ, List.filter_append]
  congr 1
  · apply List.filter_congr
    intro j hj
    rw [List.getElem?_append_left (List.mem_range.1 hj)]
  · cases x <;> simp

theorem codes_lt {items : List Item} {k : Nat} (h : k ∈ codes items) : k < items.length := by
  unfold codes at h
  exact List.mem_range.1 (List.mem_filter.1 h).1

theorem picks_snoc (items : List Item) (x : Item) : picks (items ++ [x]) =
    picks items ++ (match x with | .code a _ => (lastEntry (entries items) a).toList | .entry _ _ => []) := by
  unfold picks
  rw [List.length_append, List.length_singleton, List.range_succ, List.filterMap_append]
  congr 1
  · apply List.filterMap_congr
    intro j hj
    have hj := List.mem_range.1 hj
    rw [List.getElem?_append_left hj, List.take_append_of_le_length hj.le]
  · cases x with
    | entry a n => simp
    | code a e =>
      simp only [List.filterMap_cons, List.filterMap_nil, List.getElem?_concat_length]
      rw [List.take_left]
      cases lastEntry (entries items) a <;> rfl

theorem ownerAt_lt (items : List Item) (x : Item) {k : Nat} (h : k < items.length) : ownerAt (items ++ [x]) k = ownerAt items k := by
  unfold ownerAt
  rw [List.take_append_of_le_length (by omega)]

theorem ownerAt_last (items : List Item) (x : Item) : ownerAt (items ++ [x]) items.length = (picks (items ++ [x])).getLast? := by
  unfold ownerAt
  rw [List.take_of_length_le (by simp)]

theorem placesOf_entry (items : List Item) (a : Int) (n : List Char) (j : Nat) : placesOf (items ++ [.entry a n]) j = placesOf items j := by
  unfold placesOf
  rw [codes_snoc]
  simp only [List.append_nil]
  apply List.filter_congr
  intro k hk
  rw [ownerAt_lt _ _ (codes_lt hk)]

theorem placesOf_code (items : List Item) (a e : Int) (j : Nat) : placesOf (items ++ [.code a e]) j =
    placesOf items j ++ if (picks (items ++ [.code a e])).getLast? = some j then [items.length] else [] := by
  unfold placesOf
  rw [codes_snoc, List.filter_append]
  congr 1
  · apply List.filter_congr
    intro k hk
    rw [ownerAt_lt _ _ (codes_lt hk)]
  · simp only [List.filter_cons, List.filter_nil, ownerAt_last]
    split <;> split <;> simp_all

theorem picks_lt {items : List Item} {j : Nat} (h : j ∈ picks items) : j < (entries items).length := by
  induction items using List.reverseRecOn with
  | nil => simp [picks] at h
  | append_singleton items x ih =>
    rw [picks_snoc] at h
    have hle : (entries items).length ≤ (entries (items ++ [x])).length := by
      unfold entries
      rw [List.filterMap_append, List.length_append]
      omega
    rcases List.mem_append.1 h with h | h
    · exact Nat.lt_of_lt_of_le (ih h) hle
    · cases x with
      | entry a n => simp at h
      | code a e =>
        have h : lastEntry (entries items) a = some j := by simpa using h
        obtain ⟨n, h⟩ := lastEntry_spec h
        exact Nat.lt_of_lt_of_le (List.getElem?_eq_some_iff.1 h).1 hle

/-- What the variables of the reader hold after some items. -/
structure RdInv {α : Type} (mk : Int → Int → Py α) (s : RdSt α) (items : List Item) : Prop where
  names : s.objs.map (·.1) = (entries items).map (·.2)
  last : ∀ a, dictGet s.dict a = lastEntry (entries items) a
  keys : s.dict.map (·.1) = Spec.firsts ((entries items).map (·.1))
  cur : s.cur = (picks items).getLast?
  owned : ∀ (j : Nat) (f : List Char × List α), s.objs[j]? = some f → List.Forall₂ (MadeFrom mk items) (placesOf items j) f.2
  all : List.Forall₂ (MadeFrom mk items) (codes items) s.insts

theorem madeFrom_mono {α : Type} {mk : Int → Int → Py α} {items : List Item} {x : Item} {k : Nat} {i : α}
    (h : MadeFrom mk items k i) : MadeFrom mk (items ++ [x]) k i := by
  obtain ⟨a, e, h1, h2⟩ := h
  exact ⟨a, e, by rw [List.getElem?_append_left (List.getElem?_eq_some_iff.1 h1).1]; exact h1, h2⟩

theorem RdInv.length {α : Type} {mk : Int → Int → Py α} {s : RdSt α} {items : List Item} (h : RdInv mk s items) :
    s.objs.length = (entries items).length := by
  have := congrArg List.length h.names
  simpa using this

theorem rdInv_entry {α : Type} {mk : Int → Int → Py α} {s : RdSt α} {items : List Item} (h : RdInv mk s items) (a : Int) (n : List Char) :
    RdInv mk { s with objs := s.objs ++ [(n, [])], dict := dictSet s.dict a s.objs.length } (items ++ [.entry a n]) := by
  refine ⟨?_, ?_, ?_, ?_, ?_, ?_⟩
  · rw [entries_entry, List.map_append, List.map_append, h.names]
    rfl
  · intro b
    rw [entries_entry, lastEntry_snoc, dictGet_dictSet, h.last, h.length]
  · rw [entries_entry, List.map_append, List.map_singleton, firsts_append]
    show (dictSet s.dict a _).map (·.1) = _
    rw [keys_dictSet, h.keys]
    have : a ∈ Spec.firsts ((entries items).map (·.1)) ↔ a ∈ (entries items).map (·.1) := by
      rw [← h.keys, ← dictGet_isSome, h.last]
      constructor
      · intro h
        obtain ⟨j, hj⟩ := Option.isSome_iff_exists.1 h
        obtain ⟨n, hn⟩ := lastEntry_spec hj
        exact List.mem_map.2 ⟨_, List.mem_of_getElem? hn, rfl⟩
      · intro h
        rw [Option.isSome_iff_ne_none]
        intro hn
        unfold lastEntry at hn
        rw [List.getLast?_eq_none_iff, List.filter_eq_nil_iff] at hn
        obtain ⟨p, hp, hpa⟩ := List.mem_map.1 h
        obtain ⟨j, hj, hp⟩ := List.getElem_of_mem hp
        refine hn j (List.mem_range.2 hj) ?_
        simp [hj, hp, hpa]
    by_cases hm : a ∈ (entries items).map (·.1)
    · rw [if_pos (this.2 hm), if_pos hm]
    · rw [if_neg (fun h => hm (this.1 h)), if_neg hm]
  · rw [picks_snoc, List.append_nil]
    exact h.cur
  · intro j f hj
    rw [placesOf_entry]
    by_cases hlt : j < s.objs.length
    · rw [List.getElem?_append_left hlt] at hj
      exact (h.owned j f hj).imp fun _ _ => madeFrom_mono
    · have hj' : j = s.objs.length := by
        have := (List.getElem?_eq_some_iff.1 hj).1
        simp at this
        omega
      subst hj'
      rw [List.getElem?_concat_length] at hj
      cases hj
      have : placesOf items s.objs.length = [] := by
        unfold placesOf
        rw [List.filter_eq_nil_iff]
        intro k hk ho
        have ho : ownerAt items k = some s.objs.length := by simpa using ho
        unfold ownerAt at ho
        have := picks_lt (List.mem_of_getLast? ho)
        have hle : (entries (items.take (k + 1))).length ≤ (entries items).length :=
          ((List.take_sublist _ _).filterMap _).length_le
        rw [h.length] at this
        omega
      rw [this]
      exact .nil
  · rw [codes_snoc]
    simp only [List.append_nil]
    exact h.all.imp fun _ _ => madeFrom_mono

theorem rdInv_code {α : Type} {mk : Int → Int → Py α} {s : RdSt α} {items : List Item} (h : RdInv mk s items) (a e : Int) (i : α)
    (hi : mk e a = .ok i) (cur : Option Nat) (objs : List (List Char × List α))
    (hobjs : objs = match cur with | some k => s.objs.modify k fun f => (f.1, f.2 ++ [i]) | none => s.objs)
    (hcur : cur = match dictGet s.dict a with | some k => some k | none => s.cur) :
    RdInv mk { s with objs := objs, cur := cur, insts := s.insts ++ [i] } (items ++ [.code a e]) := by
  have hmade : MadeFrom mk (items ++ [.code a e]) items.length i := ⟨a, e, by rw [List.getElem?_concat_length], hi⟩
  have hcur : cur = (picks (items ++ [.code a e])).getLast? := by
    rw [hcur, picks_snoc, h.last]
    cases hl : lastEntry (entries items) a with
    | none => simp [h.cur, hl]
    | some k => simp [hl]
  subst hobjs
  subst hcur
  refine ⟨?_, ?_, ?_, rfl, ?_, ?_⟩
  · rw [entries_code, ← h.names]
    cases (picks (items ++ [.code a e])).getLast? with
    | none => rfl
    | some k =>
      simp only
      apply List.ext_getElem?
      intro m
      rw [List.getElem?_map, List.getElem?_map, List.getElem?_modify]
      cases s.objs[m]? with
      | none => rfl
      | some f => by_cases hk : k = m <;> simp [hk]
  · rw [entries_code]; exact h.last
  · rw [entries_code]; exact h.keys
  · intro j f hj
    rw [placesOf_code]
    cases hp : (picks (items ++ [.code a e])).getLast? with
    | none =>
      rw [hp] at hj
      rw [if_neg (by simp), List.append_nil]
      exact (h.owned j f hj).imp fun _ _ => madeFrom_mono
    | some k =>
      rw [hp] at hj
      simp only [List.getElem?_modify] at hj
      cases hf : s.objs[j]? with
      | none => rw [hf] at hj; simp at hj
      | some f0 =>
        rw [hf] at hj
        by_cases hk : k = j
        · rw [if_pos (by rw [hk])]
          have hj : f = (f0.1, f0.2 ++ [i]) := by simpa [hk] using hj.symm
          rw [hj]
          exact List.rel_append ((h.owned j f0 hf).imp fun _ _ => madeFrom_mono) (.cons hmade .nil)
        · rw [if_neg (by simpa using hk), List.append_nil]
          have hj : f = f0 := by simpa [hk] using hj.symm
          rw [hj]
          exact (h.owned j f0 hf).imp fun _ _ => madeFrom_mono
  · rw [codes_snoc]
    exact List.rel_append (h.all.imp fun _ _ => madeFrom_mono) (.cons hmade .nil)

theorem rstrip_last (s : List Char) : ∀ c ∈ (rstrip s).getLast?, c ∉ Spec.whites := by
  intro c hc hw
  unfold rstrip at hc
  rw [List.getLast?_reverse] at hc
  have := List.head?_dropWhile_not isBlank s.reverse
  rw [hc] at this
  have this : isBlank c = false := this
  rw [whites_blank c hw] at this
  cases this

/-- A line of the function table, the other way round. -/
theorem classify_tableAt {sect : Option (List Char)} {line : List Char} {v : Int} {n : List Char}
    (h : classify sect line = .ok (.func v n)) : TableAt sect line v n := by
  by_cases h0 : White line
  · unfold classify at h
    rw [if_pos (strip_nil_iff.2 h0)] at h
    cases h
  cases h1 : Spec.opens line with
  | some n =>
    rw [classify_opens h1] at h
    cases h
  | none =>
    refine ⟨h0, h1, ?_⟩
    cases sect with
    | none =>
      unfold classify at h
      rw [if_neg (fun h => h0 (strip_nil_iff.1 h)), if_neg (opens_none.1 h1)] at h
      cases h
    | some m =>
      refine ⟨m, rfl, ?_⟩
      by_cases hf : "function".toList <+: m
      · refine ⟨hf, ?_⟩
        obtain ⟨t1, t2⟩ := classify_table h0 h1 hf
        by_cases hg : ∃ a n v, line = a ++ ';' :: n ∧ ';' ∉ a ∧ ';' ∉ n ∧ HexText a v
        · obtain ⟨a, k, v', g1, g2, g3, g4⟩ := hg
          rw [t1 a k v' g1 g2 g3 g4] at h
          cases h
          obtain ⟨w, e1, e2⟩ := rstrip_split k
          exact ⟨a, w, by rw [← e1]; exact g1, g2, by rw [← e1]; exact g3, g4, e2, rstrip_last k⟩
        · rw [t2 hg] at h
          cases h
      · exfalso
        by_cases hc : ∃ k ∈ Spec.codeNames, k <+: m
        · obtain ⟨t1, t2⟩ := classify_code h0 h1 hf hc
          rcases split_first ';' line with h2 | ⟨a, t, h2, ha⟩
          · rw [t1 h2] at h
            cases h
          · obtain ⟨f, r, h3, hf', hr⟩ := split_field ';' t
            rw [h3] at h2
            obtain ⟨u1, u2⟩ := t2 a f r h2 ha hf' hr
            by_cases hg : ∃ v w, HexText a v ∧ HexText f w
            · obtain ⟨v', w', hv, hw⟩ := hg
              rw [u1 v' w' hv hw] at h
              cases h
            · rw [u2 hg] at h
              cases h
        · unfold classify at h
          rw [if_neg (fun h => h0 (strip_nil_iff.1 h)), if_neg (opens_none.1 h1)] at h
          simp only at h
          rw [if_neg (fun h => hf (List.isPrefixOf_iff_prefix.1 h)), if_neg (fun h => hc (isCode_iff.1 h))] at h
          cases h

theorem tableAt_classify {sect : Option (List Char)} {line : List Char} {v : Int} {n : List Char}
    (h : TableAt sect line v n) : ∃ m, classify sect line = .ok (.func v m) := by
  obtain ⟨h0, h1, s, rfl, hf, a, w, e1, e2, e3, e4, _⟩ := h
  exact ⟨_, (classify_table h0 h1 hf).1 a (n ++ w) v e1 e2 e3 e4⟩

theorem rdInv_congr {α : Type} {mk : Int → Int → Py α} {s s' : RdSt α} {items : List Item} (h : RdInv mk s items)
    (h1 : s'.objs = s.objs) (h2 : s'.dict = s.dict) (h3 : s'.cur = s.cur) (h4 : s'.insts = s.insts) : RdInv mk s' items :=
  ⟨h1 ▸ h.names, h2 ▸ h.last, h2 ▸ h.keys, h3 ▸ h.cur, h1 ▸ h.owned, h4 ▸ h.all⟩

theorem rdLine_items {α : Type} {mk : Int → Int → Py α} {s s' : RdSt α} {line : List Char} (h : rdLine mk s line = .ok s') :
    ∃ piece : List Item, ((∃ x, ItemAt s.sect line x ∧ piece = [x]) ∨ ((¬ ∃ x, ItemAt s.sect line x) ∧ piece = [])) ∧
      ∀ items, RdInv mk s items → RdInv mk s' (items ++ piece) := by
  unfold rdLine at h
  cases hc : classify s.sect line with
  | error e => rw [hc] at h; cases h
  | ok ev =>
    rw [hc] at h
    have hno : (∀ w v, ev ≠ .inst w v) → (∀ v n, ev ≠ .func v n) → ¬ ∃ x, ItemAt s.sect line x := by
      rintro hn hm ⟨x, hx⟩
      cases x with
      | entry a n =>
        obtain ⟨m, hm'⟩ := tableAt_classify hx
        rw [hm'] at hc
        exact hm a m (Except.ok.inj hc).symm
      | code a e =>
        rw [classify_codeAt.2 hx] at hc
        exact hn e a (Except.ok.inj hc).symm
    cases ev with
    | skip =>
      have := Except.ok.inj h
      subst this
      exact ⟨[], .inr ⟨hno (by simp) (by simp), rfl⟩, fun items hi => by rw [List.append_nil]; exact hi⟩
    | sect n =>
      have := Except.ok.inj h
      subst this
      exact ⟨[], .inr ⟨hno (by simp) (by simp), rfl⟩, fun items hi => by rw [List.append_nil]; exact rdInv_congr hi rfl rfl rfl rfl⟩
    | func a n =>
      have := Except.ok.inj h
      subst this
      exact ⟨[.entry a n], .inl ⟨.entry a n, classify_tableAt hc, rfl⟩, fun items hi => rdInv_entry hi a n⟩
    | inst w v =>
      have h : (mk w v >>= _) = .ok s' := h
      cases hm : mk w v with
      | error x => rw [hm] at h; cases h
      | ok i =>
        rw [hm] at h
        have := Except.ok.inj h
        subst this
        exact ⟨[.code v w], .inl ⟨.code v w, classify_codeAt.1 hc, rfl⟩, fun items hi => rdInv_code hi v w i hm _ _ rfl rfl⟩

theorem reads_snoc {lines : List (List Char)} {items piece : List Item} {line : List Char} (h : Reads lines items)
    (hp : (∃ x, ItemAt (sectAfter lines) line x ∧ piece = [x]) ∨ ((¬ ∃ x, ItemAt (sectAfter lines) line x) ∧ piece = [])) :
    Reads (lines ++ [line]) (items ++ piece) := by
  obtain ⟨pieces, i2, i3, i4⟩ := h
  refine ⟨pieces ++ [piece], by rw [i2]; simp, by simp [i3], ?_⟩
  intro p line' q hq
  rcases List.eq_nil_or_concat q with rfl | ⟨q', y, rfl⟩
  · obtain ⟨rfl, hy⟩ := List.append_inj' hq rfl
    cases hy
    exact ⟨piece, by rw [← i3]; simp, hp⟩
  · have hq : lines ++ [line] = (p ++ line' :: q') ++ [y] := by rw [hq]; simp
    obtain ⟨hq, _⟩ := List.append_inj' hq rfl
    obtain ⟨pc, c1, c2⟩ := i4 p line' q' hq
    exact ⟨pc, by rw [List.getElem?_append_left (by rw [i3, hq]; simp)]; exact c1, c2⟩

theorem rd_items {α : Type} {mk : Int → Int → Py α} (lines : List (List Char)) : ∀ s, lines.foldlM (rdLine mk) {} = .ok s →
    s.sect = sectAfter lines ∧ ∃ items, Reads lines items ∧ RdInv mk s items := by
  induction lines using List.reverseRecOn with
  | nil =>
    intro s h
    have := Except.ok.inj h
    subst this
    refine ⟨rfl, [], ⟨[], rfl, rfl, fun p line q h => by simp at h⟩, rfl, fun _ => rfl, rfl, rfl, ?_, .nil⟩
    intro j f h
    simp at h
  | append_singleton lines line ih =>
    intro s h
    rw [List.foldlM_append] at h
    cases h1 : lines.foldlM (rdLine mk) {} with
    | error e => rw [h1] at h; cases h
    | ok s1 =>
      rw [h1] at h
      have h : (rdLine mk s1 line >>= fun s => pure s) = .ok s := h
      rw [bind_pure] at h
      obtain ⟨i1, items, i2, i3⟩ := ih s1 h1
      obtain ⟨piece, p1, p2⟩ := rdLine_items h
      rw [i1] at p1
      exact ⟨by rw [rdLine_sect h, sectAfter_snoc, i1], items ++ piece, reads_snoc i2 p1, p2 items i3⟩

theorem firsts_nodup (l : List Int) : (Spec.firsts l).Nodup := by
  induction l with
  | nil => exact List.nodup_nil
  | cons a l ih =>
    rw [Spec.firsts]
    exact List.nodup_cons.2 ⟨by simp, ih.filter _⟩

theorem elfio_functions {α : Type} {mk : Int → Int → Py α} {lines : List (List Char)} {fs : List (List Char × List α)} {is : List α}
    (h : elfioRead mk lines = .ok (fs, is)) : ∃ items, Reads lines items ∧
      List.Forall₂ (MadeFrom mk items) (codes items) is ∧
      List.Forall₂ (fun a f => ∃ j, lastEntry (entries items) a = some j ∧ (entries items)[j]? = some (a, f.1) ∧
        List.Forall₂ (MadeFrom mk items) (placesOf items j) f.2) (Spec.firsts ((entries items).map (·.1))) fs := by
  unfold elfioRead at h
  cases h1 : lines.foldlM (rdLine mk) {} with
  | error e => rw [h1] at h; cases h
  | ok s =>
    rw [h1] at h
    obtain ⟨_, items, i1, i2⟩ := rd_items lines s h1
    have hinj := Except.ok.inj h
    have e1 : s.dict.filterMap (fun p => s.objs[p.2]?) = fs := congrArg Prod.fst hinj
    have e2 : s.insts = is := congrArg Prod.snd hinj
    refine ⟨items, i1, e2 ▸ i2.all, ?_⟩
    rw [← i2.keys, ← e1]
    have hnd : (s.dict.map (·.1)).Nodup := i2.keys ▸ firsts_nodup _
    have key : ∀ d : List (Int × Nat), (∀ p ∈ d, p ∈ s.dict) →
        List.Forall₂ (fun a f => ∃ j, lastEntry (entries items) a = some j ∧ (entries items)[j]? = some (a, f.1) ∧
          List.Forall₂ (MadeFrom mk items) (placesOf items j) f.2) (d.map (·.1)) (d.filterMap fun p => s.objs[p.2]?) := by
      intro d
      induction d with
      | nil => intro _; exact .nil
      | cons p d ih =>
        intro hd
        have hg := dictGet_of_mem hnd (hd p List.mem_cons_self)
        rw [i2.last] at hg
        obtain ⟨n, hn⟩ := lastEntry_spec hg
        have hlt : p.2 < s.objs.length := by
          rw [i2.length]
          exact (List.getElem?_eq_some_iff.1 hn).1
        have ho : s.objs[p.2]? = some s.objs[p.2] := List.getElem?_eq_getElem hlt
        rw [List.map_cons, List.filterMap_cons, ho]
        refine .cons ⟨p.2, hg, ?_, i2.owned _ _ ho⟩ (ih fun q hq => hd q (List.mem_cons_of_mem _ hq))
        have := congrArg (·[p.2]?) i2.names
        simp only [List.getElem?_map, ho, hn, Option.map_some, Option.some.injEq] at this
        rw [hn, ← this]
    exact key s.dict fun _ h => h

end Verif
