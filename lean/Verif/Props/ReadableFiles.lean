import Mathlib.Data.List.Dedup
import Verif.Props.Rewrite
import Verif.Props.Resave

/-! # C131: exactly which bytes are a solution file, and what is read from them -/

namespace Verif

namespace Spec

/-- All numbers of an entry fit four bytes; it may have no word. -/
def entryNumbers (e : Nat × List Nat) : Prop :=
  e.1 < 2 ^ 32 ∧ e.2.length < 2 ^ 32 ∧ ∀ w ∈ e.2, w < 2 ^ 32

/-- The last entry of an address that has words. -/
def lastWords (es : List (Nat × List Nat)) (k : Nat) : Option (List Nat) :=
  (es.reverse.find? fun e => e.1 = k ∧ e.2 ≠ []).map (·.2)

/-- The different numbers of a list in the order in which they first occur. -/
def firstOccurrences (l : List Nat) : List Nat := l.reverse.dedup.reverse

/-- What a list of entries means: at every address the words of its last entry
that has any, and as original the last of these words; addresses in the order in
which they first have words. -/
structure Means (es : List (Nat × List Nat)) (o p : Program) : Prop where
  keys : p.map (·.1) = o.map (·.1)
  order : p.map (·.1) = firstOccurrences ((es.filter fun e => decide (e.2 ≠ [])).map (·.1))
  words : ∀ k, dictGet p k = (lastWords es k).map fun ws => ws.map fun w => ⟨w, k⟩
  original : ∀ k, dictGet o k = (lastWords es k).map fun ws => [⟨ws.getLast?.getD 0, k⟩]

end Spec

open Spec

theorem ofNat_byte (b : UInt8) {n : Nat} (h : n = b.toNat) : UInt8.ofNat n = b := by
  rw [h]; exact UInt8.ofNat_toNat

theorem readLE_four {bs : Bytes} {r : Nat × Bytes} (h : readLE 4 bs = .ok r) :
    r.1 < 2 ^ 32 ∧ bs = le32 r.1 ++ r.2 := by
  refine ⟨readLE_four_lt h, ?_⟩
  unfold readLE at h
  split at h
  · cases h
  · rename_i hl
    cases h
    match bs, hl with
    | b0 :: b1 :: b2 :: b3 :: r, _ =>
      have h0 := b0.toNat_lt
      have h1 := b1.toNat_lt
      have h2 := b2.toNat_lt
      have h3 := b3.toNat_lt
      simp only [List.take_succ_cons, List.take_zero, leVal, le32, List.drop_succ_cons, List.drop_zero,
        List.cons_append, List.nil_append]
      rw [ofNat_byte b0 (by omega), ofNat_byte b1 (by omega), ofNat_byte b2 (by omega), ofNat_byte b3 (by omega)]
    | [_, _, _], hl => simp at hl
    | [_, _], hl => simp at hl
    | [_], hl => simp at hl
    | [], hl => simp at hl

theorem readInsts_parse (a : Nat) : ∀ (n : Nat) (bs : Bytes) (r : List CInst × Bytes), readInsts a n bs = .ok r →
    ∃ ws : List Nat, ws.length = n ∧ (∀ w ∈ ws, w < 2 ^ 32) ∧ bs = ws.flatMap le32 ++ r.2 ∧
      r.1 = ws.map fun w => ⟨w, a⟩ := by
  intro n
  induction n with
  | zero => intro bs r h; cases h; exact ⟨[], rfl, by simp, rfl, rfl⟩
  | succ n ih =>
    intro bs r h
    rw [readInsts, bind_ok] at h
    obtain ⟨x, h1, h⟩ := h
    rw [bind_ok] at h
    obtain ⟨c, h2, h⟩ := h
    rw [bind_ok] at h
    obtain ⟨t, h3, h⟩ := h
    cases h
    obtain ⟨ws, e1, e2, e3, e4⟩ := ih _ _ h3
    obtain ⟨f1, f2⟩ := readLE_four h1
    unfold mkInst at h2
    rw [if_pos f1] at h2
    cases h2
    refine ⟨x.1 :: ws, by simp [e1], by simpa using ⟨f1, e2⟩, ?_, by simp [e4]⟩
    rw [f2, e3]; simp

/-- What one entry does to the originals and the program. -/
def entryStep (s : Program × Program) (e : Nat × List Nat) : Program × Program :=
  if e.2 = [] then s
  else (dictSet s.1 e.1 [⟨e.2.getLast?.getD 0, e.1⟩], dictSet s.2 e.1 (e.2.map fun w => ⟨w, e.1⟩))

theorem last_get (a : Nat) (ws : List Nat) (h : ws ≠ []) :
    pyGet (ws.map fun w => (⟨w, a⟩ : CInst)) ((ws.length : Int) - 1) = .ok ⟨ws.getLast?.getD 0, a⟩ := by
  have hp := List.length_pos_iff.2 h
  have hk : ((ws.length : Int) - 1) = ((ws.length - 1 : Nat) : Int) := by omega
  rw [hk, pyGet_nat _ _ (by simp; omega)]
  congr 1
  rw [List.getElem_map]
  congr 1
  rw [List.getLast?_eq_getElem?, List.getElem?_eq_getElem (by omega), Option.getD_some]

theorem last_lt {ws : List Nat} (h : ∀ w ∈ ws, w < 2 ^ 32) : ws.getLast?.getD 0 < 2 ^ 32 := by
  cases hl : ws.getLast? with
  | none => simp
  | some w => exact h w (List.mem_of_getLast? hl)

theorem readEntries_parse : ∀ (n : Nat) (bs : Bytes) (s : Program × Program) (r : (Program × Program) × Bytes),
    readEntries n bs s = .ok r →
    ∃ es : List (Nat × List Nat), es.length = n ∧ (∀ e ∈ es, entryNumbers e) ∧ bs = es.flatMap entryBytes ++ r.2 ∧
      r.1 = es.foldl entryStep s := by
  intro n
  induction n with
  | zero => intro bs s r h; cases h; exact ⟨[], rfl, by simp, rfl, rfl⟩
  | succ n ih =>
    intro bs s r h
    rw [readEntries, bind_ok] at h
    obtain ⟨a, h1, h⟩ := h
    rw [bind_ok] at h
    obtain ⟨c, h2, h⟩ := h
    obtain ⟨a1, a2⟩ := readLE_four h1
    obtain ⟨c1, c2⟩ := readLE_four h2
    split at h
    · rename_i hc
      rw [bind_ok] at h
      obtain ⟨t, h3, h⟩ := h
      rw [bind_ok] at h
      obtain ⟨l, h4, h⟩ := h
      rw [bind_ok] at h
      obtain ⟨o, h5, h⟩ := h
      obtain ⟨ws, e1, e2, e3, e4⟩ := readInsts_parse _ _ _ _ h3
      have hne : ws ≠ [] := by rintro rfl; simp at e1; omega
      rw [e4, ← e1, last_get _ _ hne] at h4
      cases h4
      unfold mkInst at h5
      rw [if_pos (last_lt e2)] at h5
      cases h5
      obtain ⟨es, g1, g2, g3, g4⟩ := ih _ _ _ h
      refine ⟨(a.1, ws) :: es, by simp [g1], ?_, ?_, ?_⟩
      · simp only [List.mem_cons, forall_eq_or_imp]
        exact ⟨⟨a1, by rw [e1]; exact c1, e2⟩, g2⟩
      · rw [a2, c2, e3, g3]
        simp [entryBytes, e1]
      · rw [g4, List.foldl_cons, entryStep, if_neg hne, e4]
    · rename_i hc
      obtain ⟨es, g1, g2, g3, g4⟩ := ih _ _ _ h
      have h0 : c.1 = 0 := by omega
      refine ⟨(a.1, []) :: es, by simp [g1], ?_, ?_, ?_⟩
      · simp only [List.mem_cons, forall_eq_or_imp]
        exact ⟨⟨a1, by simp, by simp⟩, g2⟩
      · rw [a2, c2, g3, h0]
        simp [entryBytes]
      · rw [g4, List.foldl_cons, entryStep, if_pos rfl]

theorem readEntries_step : ∀ (es : List (Nat × List Nat)) (rest : Bytes) (s : Program × Program),
    (∀ e ∈ es, entryNumbers e) →
    readEntries es.length (es.flatMap entryBytes ++ rest) s = .ok (es.foldl entryStep s, rest) := by
  intro es
  induction es with
  | nil => intro rest s _; rfl
  | cons e es ih =>
    intro rest s hf
    obtain ⟨h1, h3, h4⟩ := hf e (by simp)
    rw [List.length_cons, readEntries, List.flatMap_cons]
    have : (entryBytes e ++ es.flatMap entryBytes) ++ rest =
        le32 e.1 ++ (le32 e.2.length ++ (e.2.flatMap le32 ++ (es.flatMap entryBytes ++ rest))) := by
      simp [entryBytes]
    rw [this, readLE_append h1]
    simp only [bind, Except.bind, readLE_append h3]
    by_cases hne : e.2 = []
    · rw [hne]
      simp only [List.length_nil, gt_iff_lt, lt_self_iff_false, if_false, List.flatMap_nil, List.nil_append]
      rw [ih _ _ fun x hx => hf x (by simp [hx]), List.foldl_cons]
      simp [entryStep, hne]
    · rw [if_pos (List.length_pos_iff.2 hne), readInsts_words _ _ _ h4]
      simp only [last_get _ _ hne, mkInst, if_pos (last_lt h4)]
      rw [ih _ _ fun x hx => hf x (by simp [hx]), List.foldl_cons]
      simp [entryStep, hne]

theorem header_read (es : List (Nat × List Nat)) (rest : Bytes) :
    readLE 8 (header ++ (le32 es.length ++ (es.flatMap entryBytes ++ rest))) =
      .ok (magicWord, le32 es.length ++ (es.flatMap entryBytes ++ rest)) := by
  unfold readLE
  rw [if_neg (by simp [header])]
  rw [List.take_left' (show header.length = 8 from rfl), List.drop_left' (show header.length = 8 from rfl)]
  congr 2

theorem readSolution_iff (bs : Bytes) (s : Program × Program) :
    readSolution bs = .ok s ↔
      ∃ (es : List (Nat × List Nat)) (rest : Bytes), es.length < 2 ^ 32 ∧ (∀ e ∈ es, entryNumbers e) ∧
        bs = solutionFile es ++ rest ∧ s = es.foldl entryStep ([], []) := by
  constructor
  · intro h
    have h8 : bs.take 8 = header := by
      by_contra hne
      rcases C27_foreign bs hne with ⟨he, -⟩ | he <;> rw [he] at h <;> cases h
    unfold readSolution at h
    cases hf : readFrom bs with
    | error e => rw [hf] at h; cases h
    | ok r =>
      rw [hf] at h
      cases h
      unfold readFrom at hf
      rw [bind_ok] at hf
      obtain ⟨m, h1, hf⟩ := hf
      split at hf
      · cases hf
      · rw [bind_ok] at hf
        obtain ⟨n, h2, hf⟩ := hf
        obtain ⟨n1, n2⟩ := readLE_four h2
        obtain ⟨es, g1, g2, g3, g4⟩ := readEntries_parse _ _ _ _ hf
        refine ⟨es, r.2, g1 ▸ n1, g2, ?_, g4⟩
        have hm : m.2 = bs.drop 8 := by
          unfold readLE at h1
          split at h1
          · cases h1
          · cases h1; rfl
        rw [← List.take_append_drop 8 bs, h8, ← hm, n2, g3, ← g1]
        simp [solutionFile]
  · rintro ⟨es, rest, hl, hn, rfl, rfl⟩
    unfold readSolution readFrom
    have : solutionFile es ++ rest = header ++ (le32 es.length ++ (es.flatMap entryBytes ++ rest)) := by
      simp [solutionFile]
    rw [this, header_read]
    simp only [bind, Except.bind]
    rw [if_neg (by simp), readLE_append hl]
    dsimp only
    rw [readEntries_step _ _ _ hn]
    rfl

theorem Spec.Means.distinct {es : List (Nat × List Nat)} {o p : Program} (h : Means es o p) : (p.map (·.1)).Nodup := by
  rw [h.order]
  exact List.nodup_reverse.2 (List.nodup_dedup _)

theorem keys_set {β : Type} (d : List (Nat × β)) (k : Nat) (v : β) :
    (dictSet d k v).map (·.1) = if k ∈ d.map (·.1) then d.map (·.1) else d.map (·.1) ++ [k] := by
  induction d with
  | nil => simp [dictSet]
  | cons x d ih =>
    unfold dictSet
    by_cases h : x.1 = k
    · simp [h]
    · have h' : ¬ k = x.1 := fun e => h e.symm
      simp only [h, if_false, List.map_cons, ih, List.mem_cons, h', false_or]
      split <;> simp

theorem means_step {es : List (Nat × List Nat)} {o p : Program} (h : Means es o p) (e : Nat × List Nat) :
    Means (es ++ [e]) (entryStep (o, p) e).1 (entryStep (o, p) e).2 := by
  have hlast : ∀ k, lastWords (es ++ [e]) k = if e.1 = k ∧ e.2 ≠ [] then some e.2 else lastWords es k := by
    intro k
    unfold lastWords
    rw [List.reverse_append, List.reverse_singleton, List.singleton_append, List.find?_cons]
    by_cases hk : e.1 = k ∧ e.2 ≠ []
    · simp [hk]
    · simp [hk]
  unfold entryStep
  by_cases hne : e.2 = []
  · rw [if_pos hne]
    have : ∀ k, lastWords (es ++ [e]) k = lastWords es k := fun k => by rw [hlast, if_neg (by simp [hne])]
    exact ⟨h.keys, by rw [List.filter_append]; simpa [hne] using h.order, fun k => by rw [this]; exact h.words k, fun k => by rw [this]; exact h.original k⟩
  · rw [if_neg hne]
    refine ⟨?_, ?_, fun k => ?_, fun k => ?_⟩
    · simp only [keys_set, h.keys]
    · simp only [keys_set, h.order, firstOccurrences, List.mem_reverse, List.mem_dedup, List.filter_append,
        List.map_append, List.reverse_append]
      have : ([e].filter fun e => decide (e.2 ≠ [])) = [e] := by simp [hne]
      rw [this]
      simp only [List.map_cons, List.map_nil, List.reverse_singleton, List.singleton_append]
      split
      · rename_i hm
        rw [List.dedup_cons_of_mem (List.mem_reverse.2 hm)]
      · rename_i hm
        rw [List.dedup_cons_of_notMem (fun h => hm (List.mem_reverse.1 h)), List.reverse_cons]
    · rw [hlast, dictGet_dictSet]
      by_cases hk : e.1 = k
      · subst hk; simp [hne]
      · have hk' : ¬ k = e.1 := fun h => hk h.symm
        simp [hk, hk', h.words]
    · rw [hlast, dictGet_dictSet]
      by_cases hk : e.1 = k
      · subst hk; simp [hne]
      · have hk' : ¬ k = e.1 := fun h => hk h.symm
        simp [hk, hk', h.original]

theorem means_fold (es : List (Nat × List Nat)) :
    Means es (es.foldl entryStep ([], [])).1 (es.foldl entryStep ([], [])).2 := by
  induction es using List.reverseRecOn with
  | nil => exact ⟨rfl, rfl, fun k => rfl, fun k => rfl⟩
  | append_singleton es e ih =>
    rw [List.foldl_append]
    exact means_step ih e

/-- **C131, which files are read.**  Bytes can be read as a solution exactly when
they are a file of the format whose numbers fit, possibly followed by other bytes;
an entry without words counts but says nothing. -/
theorem C131_readable (bs : Bytes) :
    (∃ o p, readSolution bs = .ok (o, p)) ↔
      ∃ (es : List (Nat × List Nat)) (rest : Bytes), es.length < 2 ^ 32 ∧ (∀ e ∈ es, entryNumbers e) ∧
        bs = solutionFile es ++ rest := by
  constructor
  · rintro ⟨o, p, h⟩
    obtain ⟨es, rest, h1, h2, h3, -⟩ := (readSolution_iff bs _).1 h
    exact ⟨es, rest, h1, h2, h3⟩
  · rintro ⟨es, rest, h1, h2, h3⟩
    exact ⟨_, _, (readSolution_iff bs _).2 ⟨es, rest, h1, h2, h3, rfl⟩⟩

/-- **C131, what is read.**  From such a file, later entries of an address replace
earlier ones, and the original of an address is the last word of its entry. -/
theorem C131_meaning (es : List (Nat × List Nat)) (hl : es.length < 2 ^ 32) (hn : ∀ e ∈ es, entryNumbers e)
    (rest : Bytes) : ∃ o p, readSolution (solutionFile es ++ rest) = .ok (o, p) ∧ Means es o p :=
  ⟨_, _, (readSolution_iff _ _).2 ⟨es, rest, hl, hn, rfl, rfl⟩, means_fold es⟩

theorem lastWords_mem {es : List (Nat × List Nat)} {k : Nat} {ws : List Nat} (h : lastWords es k = some ws) :
    (k, ws) ∈ es ∧ ws ≠ [] := by
  unfold lastWords at h
  obtain ⟨e, he, rfl⟩ := Option.map_eq_some_iff.1 h
  have h1 := List.find?_some he
  have h2 := List.mem_reverse.1 (List.mem_of_find?_eq_some he)
  simp only [decide_eq_true_eq] at h1
  exact ⟨by rw [← h1.1]; exact h2, h1.2⟩

theorem fold_length (es : List (Nat × List Nat)) : ∀ s : Program × Program,
    (es.foldl entryStep s).2.length ≤ s.2.length + es.length := by
  have hset : ∀ (d : Program) (k : Nat) (v : List CInst), (dictSet d k v).length ≤ d.length + 1 := by
    intro d k v
    induction d with
    | nil => simp [dictSet]
    | cons x d ih => unfold dictSet; split <;> simp <;> omega
  induction es with
  | nil => intro s; simp
  | cons e es ih =>
    intro s
    rw [List.foldl_cons]
    refine (ih _).trans ?_
    unfold entryStep
    split
    · simp
    · have := hset s.2 e.1 (e.2.map fun w => ⟨w, e.1⟩)
      simp only [List.length_cons]
      omega

theorem upTo_fits {e : Nat} {l : List Nat} (hl : l.length < 2 ^ 32) (hw : ∀ w ∈ l, w < 2 ^ 32) :
    (upTo e l).length < 2 ^ 32 ∧ ∀ w ∈ upTo e l, w < 2 ^ 32 := by
  have : (upTo e l).Sublist l := by
    clear hl hw
    induction l with
    | nil => exact List.Sublist.refl _
    | cons x l ih =>
      unfold upTo
      split
      · exact List.Sublist.cons₂ _ (List.nil_sublist _)
      · exact List.Sublist.cons₂ _ ih
  exact ⟨lt_of_le_of_lt this.length_le hl, fun w h => hw w (this.subset h)⟩

/-- **C131, writing what was read.**  Whatever file was read, writing it succeeds,
and what is written is read and written the same from then on. -/
theorem C131_rewrite (bs : Bytes) (o p : Program) (h : readSolution bs = .ok (o, p)) :
    (writeBinary o p).2 = .ok () ∧
    ∃ o' p', readSolution (writeBinary o p).1 = .ok (o', p') ∧ writeBinary o' p' = writeBinary o p := by
  obtain ⟨es, rest, h1, h2, h3, h4⟩ := (readSolution_iff bs _).1 h
  have hm : Means es o p := by
    have := means_fold es
    rw [← h4] at this
    exact this
  have hok : (writeBinary o p).2 = .ok () := by
    refine (C28_write_iff o p).2 ⟨?_, fun q hq => ?_⟩
    · have := fold_length es ([], [])
      rw [← h4] at this
      simp only [List.length_nil, Nat.zero_add] at this
      omega
    · have hq' := dictGet_of_mem hm.distinct hq
      have hw := hm.words q.1
      rw [hq'] at hw
      obtain ⟨ws, hws, he⟩ := Option.map_eq_some_iff.1 hw.symm
      obtain ⟨w1, w2⟩ := lastWords_mem hws
      obtain ⟨n1, n2, n3⟩ := h2 _ w1
      have ho := hm.original q.1
      rw [hws, Option.map_some] at ho
      have henc : q.2.map (·.encoding) = ws := by rw [← he]; simp [Function.comp_def]
      have hmem : ws.getLast?.getD 0 ∈ ws := by
        rw [List.getLast?_eq_some_getLast w2]
        exact List.getLast_mem w2
      refine ⟨_, _, ho, by rw [henc]; exact hmem, ?_⟩
      rw [henc]
      obtain ⟨u1, u2⟩ := upTo_fits (e := ws.getLast?.getD 0) n2 n3
      exact ⟨n1, upTo_length_pos hmem, u1, u2⟩
  refine ⟨hok, ?_⟩
  obtain ⟨o', p', g1, g2⟩ := C125_rewrite o p hm.distinct hok []
  rw [List.append_nil] at g1
  exact ⟨o', p', g1, by rw [g2, ← hok]⟩

/-- **C131, the same file.**  Writing what was read gives the same bytes exactly
when the file is one of the format with nothing after it, every address has one
entry, and every entry has words of which the last is there only once. -/
theorem C131_same_file (bs : Bytes) (o p : Program) (h : readSolution bs = .ok (o, p)) :
    (writeBinary o p).1 = bs ↔
      ∃ es : List (Nat × List Nat), es.length < 2 ^ 32 ∧ (∀ e ∈ es, entryNumbers e) ∧ bs = solutionFile es ∧
        (es.map (·.1)).Nodup ∧ ∀ e ∈ es, ∃ ws w, e.2 = ws ++ [w] ∧ w ∉ ws := by
  have hcut : ∀ (ws : List Nat) (w : Nat), w ∉ ws → upTo w (ws ++ [w]) = ws ++ [w] := by
    intro ws w hw
    induction ws with
    | nil => simp [upTo]
    | cons x ws ih =>
      simp only [List.mem_cons, not_or] at hw
      simp only [List.cons_append, upTo, if_neg fun e : x = w => hw.1 e.symm, ih hw.2]
  have hcut' : ∀ (l : List Nat) (w : Nat), w ∈ l → ∃ ws, upTo w l = ws ++ [w] ∧ w ∉ ws := by
    intro l w hw
    induction l with
    | nil => simp at hw
    | cons x l ih =>
      by_cases hx : x = w
      · exact ⟨[], by simp [upTo, hx], by simp⟩
      · obtain ⟨ws, e1, e2⟩ := ih ((List.mem_cons.1 hw).resolve_left fun e => hx e.symm)
        refine ⟨x :: ws, by simp [upTo, hx, e1], ?_⟩
        simp only [List.mem_cons, not_or]
        exact ⟨fun e => hx e.symm, e2⟩
  constructor
  · intro e
    obtain ⟨es, rest, h1, h2, h3, h4⟩ := (readSolution_iff bs _).1 h
    have hm : Means es o p := by
      have := means_fold es
      rw [← h4] at this
      exact this
    have hok := (C131_rewrite bs o p h).1
    obtain ⟨hl, hall⟩ := (C28_write_iff o p).1 hok
    obtain ⟨o', p', g1, g2, g3, g4, g5⟩ := C26_read_written o p hm.distinct hok []
    have hp' : (p'.map (·.1)).Nodup := g3 ▸ hm.distinct
    have key : ∀ q ∈ p', ∃ ws w, q.2.map (·.encoding) = ws ++ [w] ∧ w ∉ ws ∧ entryFits (q.1, q.2.map (·.encoding)) := by
      intro q hq
      have hk : q.1 ∈ p.map (·.1) := by rw [← g3]; exact List.mem_map.2 ⟨q, hq, rfl⟩
      obtain ⟨cs, hcs⟩ := Option.isSome_iff_exists.1 ((dictGet_isSome p q.1).2 hk)
      obtain ⟨c, l, e1, e2, e3⟩ := hall (q.1, cs) (dictGet_mem hcs)
      obtain ⟨⟨cs', f1, f2, -⟩, -⟩ := g5 q.1 cs c l hcs e1
      rw [dictGet_of_mem hp' hq, Option.some.injEq] at f1
      subst f1
      obtain ⟨ws, w1, w2⟩ := hcut' _ _ e2
      exact ⟨ws, _, f2.trans w1, w2, by rw [f2]; exact e3⟩
    refine ⟨p'.map fun q => (q.1, q.2.map (·.encoding)), ?_, ?_, by rw [← e, g2], ?_, ?_⟩
    · have := congrArg List.length g3
      simp only [List.length_map] at this ⊢
      omega
    · intro e he
      obtain ⟨q, hq, rfl⟩ := List.mem_map.1 he
      obtain ⟨-, -, -, -, k1, -, k2, k3⟩ := key q hq
      exact ⟨k1, k2, k3⟩
    · rw [List.map_map]; exact hp'
    · intro e he
      obtain ⟨q, hq, rfl⟩ := List.mem_map.1 he
      obtain ⟨ws, w, k1, k2, -⟩ := key q hq
      exact ⟨ws, w, k1, k2⟩
  · rintro ⟨es, h1, h2, rfl, h4, h5⟩
    have hf : ∀ e ∈ es, entryFits e := by
      intro e he
      obtain ⟨ws, w, e1, -⟩ := h5 e he
      obtain ⟨n1, n2, n3⟩ := h2 e he
      exact ⟨n1, by rw [e1]; simp, n2, n3⟩
    have hr := readFrom_file es hf h4 h1 []
    rw [List.append_nil] at hr
    unfold readSolution at h
    rw [hr] at h
    cases h
    have hw : writeEntries (entriesOriginal es) (entriesProgram es) = (es.flatMap entryBytes, .ok ()) := by
      apply writeEntries_ok
      unfold entriesProgram
      rw [List.forall₂_map_left_iff]
      refine List.forall₂_same.2 fun e he => ⟨rfl, ?_⟩
      obtain ⟨ws, w, e1, e2⟩ := h5 e he
      have hg : dictGet (entriesOriginal es) e.1 = some [⟨e.2.getLast?.getD 0, e.1⟩] := by
        apply dictGet_of_mem
        · unfold entriesOriginal; rw [List.map_map]; exact h4
        · exact List.mem_map.2 ⟨e, he, rfl⟩
      have henc : (e.2.map fun w => (⟨w, e.1⟩ : CInst)).map (·.encoding) = e.2 := by simp [Function.comp_def]
      refine ⟨_, _, hg, ?_, ?_, hf e he⟩
      · dsimp only; rw [henc, e1]; simp
      · dsimp only; rw [henc, e1]
        simp only [List.getLast?_append, List.getLast?_singleton, Option.some_or, Option.getD_some]
        exact (hcut ws w e2).symm
    unfold writeBinary
    have hlen : (entriesProgram es).length = es.length := by simp [entriesProgram]
    rw [seq_ok, hlen, writeInt_ok h1, seq_ok, hw, header_eq]
    simp [solutionFile]

/-- A file with an entry without words, an address twice and a word after the
original: it is read, and written differently, and then always the same. -/
theorem C131_case :
    readSolution (solutionFile [(4, [5]), (8, []), (4, [7, 9, 7])] ++ [0]) = .ok ([(4, [⟨7, 4⟩])], [(4, [⟨7, 4⟩, ⟨9, 4⟩, ⟨7, 4⟩])]) ∧
    writeBinary [(4, [⟨7, 4⟩])] [(4, [⟨7, 4⟩, ⟨9, 4⟩, ⟨7, 4⟩])] = (solutionFile [(4, [7])], .ok ()) ∧
    readSolution (solutionFile [(4, [7])]) = .ok ([(4, [⟨7, 4⟩])], [(4, [⟨7, 4⟩])]) ∧
    writeBinary [(4, [⟨7, 4⟩])] [(4, [⟨7, 4⟩])] = (solutionFile [(4, [7])], .ok ()) :=
  ⟨by rfl, by rfl, by rfl, by rfl⟩

end Verif
