import Verif.Model.Readers
import Verif.Spec.Readers
import Verif.Proof.Metadata

/-! # Lemmas about the readers of listings -/

namespace Verif

/-! ### Texts -/

theorem splitAtChar_none (c : Char) (s : List Char) (h : c ∉ s) : splitAtChar c s = [s] := by
  induction s with
  | nil => rfl
  | cons x t ih =>
    simp only [List.mem_cons, not_or] at h
    rw [splitAtChar, if_neg (fun e => h.1 e.symm), ih h.2]

theorem splitAtChar_cons (c : Char) (s t : List Char) (h : c ∉ s) :
    splitAtChar c (s ++ c :: t) = s :: splitAtChar c t := by
  induction s with
  | nil => simp [splitAtChar]
  | cons x s ih =>
    simp only [List.mem_cons, not_or] at h
    rw [List.cons_append, splitAtChar, if_neg (fun e => h.1 e.symm), ih h.2]

theorem splitAtChar_ne_nil (c : Char) (s : List Char) : splitAtChar c s ≠ [] := by
  cases s with
  | nil => simp [splitAtChar]
  | cons x t =>
    rw [splitAtChar]
    split
    · simp
    · split <;> simp

theorem dropWhile_all {α : Type} (p : α → Bool) (l : List α) (h : ∀ x ∈ l, p x = true) :
    l.dropWhile p = [] := by
  induction l with
  | nil => rfl
  | cons x t ih =>
    rw [List.dropWhile_cons_of_pos (h x (by simp)), ih fun y hy => h y (List.mem_cons_of_mem _ hy)]

theorem dropWhile_append_all {α : Type} (p : α → Bool) (l m : List α) (h : ∀ x ∈ l, p x = true) :
    (l ++ m).dropWhile p = m.dropWhile p := by
  induction l with
  | nil => rfl
  | cons x t ih =>
    rw [List.cons_append, List.dropWhile_cons_of_pos (h x (by simp)),
      ih fun y hy => h y (List.mem_cons_of_mem _ hy)]

theorem dropWhile_head {α : Type} (p : α → Bool) (l : List α) (h : ∀ x, l.head? = some x → p x = false) :
    l.dropWhile p = l := by
  cases l with
  | nil => rfl
  | cons x t => rw [List.dropWhile_cons_of_neg]; rw [h x rfl]; simp

/-- Blanks around a text without blanks at its ends. -/
theorem strip_text (s ws : List Char) (hs : ∀ c ∈ s, isBlank c = false) (hw : ∀ c ∈ ws, isBlank c = true) :
    strip (s ++ ws) = s := by
  unfold strip rstrip
  cases s with
  | nil =>
    rw [List.nil_append, dropWhile_all _ _ hw]; rfl
  | cons x t =>
    rw [dropWhile_head _ (x :: t ++ ws)]
    · rw [List.reverse_append, dropWhile_append_all _ _ _ (fun c hc => hw c (by simpa using hc)),
        dropWhile_head, List.reverse_reverse]
      intro y hy
      exact hs y (List.mem_reverse.1 (List.mem_of_mem_head? hy))
    · intro y hy
      rw [List.cons_append, List.head?_cons, Option.some.injEq] at hy
      exact hs y (by simp [← hy])

theorem whites_blank : ∀ c ∈ Spec.whites, isBlank c = true := by decide

theorem isBlank_whites (c : Char) (h : isBlank c = true) : c ∈ Spec.whites := by
  simp only [isBlank, Bool.or_eq_true, decide_eq_true_eq] at h
  simp only [Spec.whites, List.mem_cons, List.not_mem_nil, or_false]
  rcases h with ((((h | h) | h) | h) | h) | h
  · exact Or.inl h
  · exact Or.inr (Or.inl h)
  · exact Or.inr (Or.inr (Or.inl h))
  · exact Or.inr (Or.inr (Or.inr (Or.inl h)))
  · have := Char.ofNat_toNat c
    rw [h] at this
    exact Or.inr (Or.inr (Or.inr (Or.inr (Or.inl this.symm))))
  · have := Char.ofNat_toNat c
    rw [h] at this
    exact Or.inr (Or.inr (Or.inr (Or.inr (Or.inr this.symm))))

theorem rstrip_name (n pad : List Char) (h : ∀ c, n.getLast? = some c → c ∉ Spec.whites)
    (hp : Spec.White pad) : rstrip (n ++ pad) = n := by
  unfold rstrip
  rw [List.reverse_append, dropWhile_append_all _ _ _
      (fun c hc => whites_blank c (hp c (List.mem_reverse.1 hc))), dropWhile_head, List.reverse_reverse]
  intro c hc
  rw [List.head?_reverse] at hc
  by_contra hb
  exact h c hc (isBlank_whites c (by simpa using hb))

theorem strip_white (ws : List Char) (h : Spec.White ws) : strip ws = [] := by
  have := strip_text [] ws (by simp) (by
    intro c hc
    exact whites_blank c (h c hc))
  simpa using this

theorem strip_ne_nil (s : List Char) (c : Char) (hc : c ∈ s) (hb : isBlank c = false) : strip s ≠ [] := by
  intro h
  unfold strip rstrip at h
  rw [List.reverse_eq_nil_iff] at h
  have h1 : ∀ l : List Char, l.dropWhile isBlank = [] → ∀ x ∈ l, isBlank x = true := by
    intro l
    induction l with
    | nil => intro _ x hx; cases hx
    | cons y t ih =>
      intro hl x hx
      by_cases hy : isBlank y = true
      · rw [List.dropWhile_cons_of_pos hy] at hl
        rcases List.mem_cons.1 hx with rfl | hx
        · exact hy
        · exact ih hl x hx
      · rw [List.dropWhile_cons_of_neg hy] at hl
        cases hl
  have h2 := h1 _ h
  by_cases hd : s.dropWhile isBlank = []
  · rw [h1 _ hd c hc] at hb; cases hb
  · have hh : ∀ l : List Char, l.dropWhile isBlank ≠ [] → ∃ x ∈ l.dropWhile isBlank, isBlank x = false := by
      intro l
      induction l with
      | nil => intro h; exact absurd rfl h
      | cons y t ih =>
        intro hl
        by_cases hy : isBlank y = true
        · rw [List.dropWhile_cons_of_pos hy] at hl ⊢
          exact ih hl
        · rw [List.dropWhile_cons_of_neg hy]
          exact ⟨y, by simp, by simpa using hy⟩
    obtain ⟨x, hx, hxb⟩ := hh s hd
    rw [h2 x (List.mem_reverse.2 hx)] at hxb
    cases hxb

/-! ### Numerals -/

theorem hexTable_facts : ∀ d ∈ Spec.hexTable, hexDigit d.1 = some d.2 ∧ isBlank d.1 = false ∧ d.1 ≠ '_' ∧
    d.1 ≠ 'x' ∧ d.1 ≠ 'X' ∧ d.1 ≠ '-' ∧ d.1 ≠ '+' ∧ d.1 ≠ ';' ∧ d.1 ≠ '.' := by decide

theorem hexLoop_digits (ds : List (Char × Nat)) (h : ∀ d ∈ ds, d ∈ Spec.hexTable) (acc : Nat) (b : Bool)
    (hb : b = true ∨ ds ≠ []) :
    hexLoop (ds.map (·.1)) acc b = some (ds.foldl (fun a d => 16 * a + d.2) acc) := by
  induction ds generalizing acc b with
  | nil =>
    rcases hb with rfl | hb
    · rfl
    · exact absurd rfl hb
  | cons d ds ih =>
    obtain ⟨h1, _, h3, _⟩ := hexTable_facts d (h d (by simp))
    rw [List.map_cons, hexLoop, if_neg h3, h1]
    simp only
    rw [ih (fun e he => h e (List.mem_cons_of_mem _ he)) _ true (Or.inl rfl), List.foldl_cons]
    congr 2
    omega

theorem hexBody_digits (ds : List (Char × Nat)) (h : ∀ d ∈ ds, d ∈ Spec.hexTable) (hne : ds ≠ []) :
    hexBody (ds.map (·.1)) = some (ds.foldl (fun a d => 16 * a + d.2) 0) ∧
    hexBody ('0' :: 'x' :: ds.map (·.1)) = some (ds.foldl (fun a d => 16 * a + d.2) 0) := by
  have hl := hexLoop_digits ds h 0 false (Or.inr hne)
  have hx : ∀ d ∈ ds, d.1 ≠ 'x' ∧ d.1 ≠ 'X' ∧ d.1 ≠ '_' := fun d hd =>
    ⟨(hexTable_facts d (h d hd)).2.2.2.1, (hexTable_facts d (h d hd)).2.2.2.2.1,
      (hexTable_facts d (h d hd)).2.2.1⟩
  constructor
  · rw [← hl]
    cases ds with
    | nil => exact absurd rfl hne
    | cons a ds =>
      cases ds with
      | nil =>
        unfold hexBody
        split <;> simp_all
      | cons b ds =>
        have hb := hx b (by simp)
        unfold hexBody
        split
        all_goals first
          | rfl
          | (next heq =>
              simp only [List.map_cons, List.cons.injEq] at heq
              first
              | exact absurd heq.2.1 hb.1
              | exact absurd heq.2.1 hb.2.1)
  · rw [← hl]
    unfold hexBody
    split
    all_goals first
      | rfl
      | (next heq =>
          cases ds with
          | nil => exact absurd rfl hne
          | cons a ds =>
            have ha := hx a (by simp)
            simp only [List.map_cons, List.cons.injEq] at heq
            first
            | exact absurd heq.2.2.1 ha.2.2
            | exact absurd heq.2.1 (by decide))
      | (next heq =>
          simp only [List.cons.injEq, true_and] at heq
          rw [heq])
      | (exfalso; simp_all)

theorem numeral_chars {t : List Char} {n : Nat} (h : Spec.Numeral t n) :
    t ≠ [] ∧ ∀ c ∈ t, isBlank c = false ∧ c ≠ ';' ∧ c ≠ '.' ∧ c ≠ '-' ∧ c ≠ '+' := by
  obtain ⟨ds, hne, hd, ht, _⟩ := h
  have hm : ∀ c ∈ ds.map (·.1), isBlank c = false ∧ c ≠ ';' ∧ c ≠ '.' ∧ c ≠ '-' ∧ c ≠ '+' := by
    intro c hc
    obtain ⟨d, hd', rfl⟩ := List.mem_map.1 hc
    obtain ⟨_, h2, _, _, _, h6, h7, h8, h9⟩ := hexTable_facts d (hd d hd')
    exact ⟨h2, h8, h9, h6, h7⟩
  rcases ht with rfl | rfl
  · exact ⟨by simpa using hne, hm⟩
  · refine ⟨by simp, ?_⟩
    intro c hc
    rcases List.mem_cons.1 hc with rfl | hc
    · decide
    rcases List.mem_cons.1 hc with rfl | hc
    · decide
    exact hm c hc

theorem pyInt16_numeral {t : List Char} {n : Nat} (h : Spec.Numeral t n) (ws : List Char)
    (hw : ∀ c ∈ ws, isBlank c = true) : pyInt16 (t ++ ws) = .ok n := by
  obtain ⟨hne, hc⟩ := numeral_chars h
  unfold pyInt16
  rw [strip_text t ws (fun c hc' => (hc c hc').1) hw]
  have hb : hexBody t = some n := by
    obtain ⟨ds, hne, hd, ht, rfl⟩ := h
    obtain ⟨h1, h2⟩ := hexBody_digits ds hd hne
    rcases ht with rfl | rfl
    · exact h1
    · exact h2
  have : signedHex t = some (n : Int) := by
    cases t with
    | nil => exact absurd rfl hne
    | cons c t =>
      rw [signedHex, if_neg (hc c (by simp)).2.2.2.1, if_neg (hc c (by simp)).2.2.2.2, hb]
      rfl
  rw [this]

/-! ### Lines of a listing -/

theorem classify_blank (sect : Option (List Char)) (ws : List Char) (h : Spec.White ws) :
    classify sect ws = .ok .skip := by
  unfold classify
  rw [if_pos (strip_white ws h)]

theorem classify_dot (sect : Option (List Char)) (n : List Char) (h : '.' ∉ n) :
    classify sect ('.' :: n ++ ['\n']) = .ok (.sect (n ++ ['\n'])) := by
  have hn : '.' ∉ n ++ ['\n'] := by simp [h]
  unfold classify
  rw [if_neg (strip_ne_nil _ '.' (by simp) (by decide)), if_pos (by simp)]
  rw [show '.' :: n ++ ['\n'] = [] ++ '.' :: (n ++ ['\n']) by simp, splitAtChar_cons _ _ _ (by simp),
    splitAtChar_none _ _ hn]

theorem numeral_line {t : List Char} {a : Nat} (h : Spec.Numeral t a) (r : List Char) :
    strip (t ++ r) ≠ [] ∧ (t ++ r).head? ≠ some '.' := by
  obtain ⟨hne, hc⟩ := numeral_chars h
  cases t with
  | nil => exact absurd rfl hne
  | cons c t =>
    refine ⟨strip_ne_nil _ c (by simp) (hc c (by simp)).1, ?_⟩
    rw [List.cons_append, List.head?_cons]
    intro e
    exact (hc c (by simp)).2.2.1 (Option.some.inj e)

theorem white_semi {w : List Char} (h : Spec.White w) : ';' ∉ w := by
  intro hc
  exact absurd (h _ hc) (by decide)

theorem classify_func (s t : List Char) (a : Nat) (n pad : List Char)
    (hs : "function".toList.isPrefixOf s = true) (h : (Spec.FnLine.entry t a n pad).Ok) :
    classify (some s) (Spec.FnLine.entry t a n pad).text = .ok (.func a n) := by
  obtain ⟨ht, hn, hl, hp⟩ := h
  obtain ⟨h1, h2⟩ := numeral_line ht (';' :: (n ++ pad))
  have ht' : ';' ∉ t := fun hc => ((numeral_chars ht).2 _ hc).2.1 rfl
  have hnp : ';' ∉ n ++ pad := by
    rw [List.mem_append, not_or]
    exact ⟨hn, white_semi hp⟩
  have hi := pyInt16_numeral ht [] (by simp)
  rw [List.append_nil] at hi
  rw [Spec.FnLine.text, classify, if_neg h1, if_neg h2]
  rw [if_pos hs, splitAtChar_cons _ _ _ ht', splitAtChar_none _ _ hnp]
  simp only
  rw [hi, rstrip_name _ _ hl hp]
  rfl

theorem classify_inst (s at_ : List Char) (a : Nat) (et : List Char) (e : Nat) (r : List Char)
    (hs : "function".toList.isPrefixOf s = false) (hc : isCode s = true)
    (h : (Spec.CodeLine.entry at_ a et e r).Ok) :
    classify (some s) (Spec.CodeLine.entry at_ a et e r).text = .ok (.inst e a) := by
  obtain ⟨ha, he, hr⟩ := h
  obtain ⟨h1, h2⟩ := numeral_line ha (';' :: (et ++ r))
  have ha' : ';' ∉ at_ := fun hc => ((numeral_chars ha).2 _ hc).2.1 rfl
  have he' : ';' ∉ et := fun hc => ((numeral_chars he).2 _ hc).2.1 rfl
  have hi := pyInt16_numeral ha [] (by simp)
  rw [List.append_nil] at hi
  rw [Spec.CodeLine.text, classify, if_neg h1, if_neg h2]
  rw [if_neg (by rw [hs]; simp), if_pos hc, splitAtChar_cons _ _ _ ha']
  rcases hr with hr | ⟨w, rfl⟩
  · rw [splitAtChar_none _ (et ++ r) (by rw [List.mem_append, not_or]; exact ⟨he', white_semi hr⟩)]
    simp only
    rw [pyInt16_numeral he r (fun c hc => whites_blank c (hr c hc)), hi]
    rfl
  · rw [splitAtChar_cons _ _ _ he']
    simp only
    have hj := pyInt16_numeral he [] (by simp)
    rw [List.append_nil] at hj
    rw [hj, hi]
    rfl

theorem classify_junk (s t : List Char) (hs : "function".toList.isPrefixOf s = false) (hc : isCode s = true)
    (h : (Spec.CodeLine.junk t).Ok) : classify (some s) t = .ok .skip := by
  rw [classify, if_neg h.2]
  split
  · rfl
  · rw [hs]
    simp only [Bool.false_eq_true, if_false]
    rw [splitAtChar_none _ _ h.1]

theorem code_not_function (n : List Char) (h : ∃ k ∈ Spec.codeNames, k <+: n) :
    "function".toList.isPrefixOf (n ++ ['\n']) = false ∧ isCode (n ++ ['\n']) = true := by
  obtain ⟨k, hk, hp⟩ := h
  have hp' : k <+: n ++ ['\n'] := hp.trans (List.prefix_append _ _)
  have hcode : ∀ k ∈ Spec.codeNames,
      ¬ ("function".toList <+: k) ∧ ¬ (k <+: "function".toList) := by decide
  constructor
  · rw [Bool.eq_false_iff]
    intro hf
    rcases List.prefix_or_prefix_of_prefix (List.isPrefixOf_iff_prefix.1 hf) hp' with h | h
    · exact (hcode k hk).1 h
    · exact (hcode k hk).2 h
  · simp only [Spec.codeNames, List.mem_cons, List.not_mem_nil, or_false] at hk
    simp only [isCode, Bool.or_eq_true, List.isPrefixOf_iff_prefix]
    rcases hk with rfl | rfl | rfl | rfl
    · exact Or.inl (Or.inl (Or.inl hp'))
    · exact Or.inl (Or.inl (Or.inr hp'))
    · exact Or.inl (Or.inr hp')
    · exact Or.inr hp'

theorem classify_other (n l : List Char)
    (h : ∀ k ∈ "function".toList :: Spec.codeNames, ¬ k <+: n ++ ['\n']) (hl : l.head? ≠ some '.') :
    classify (some (n ++ ['\n'])) l = .ok .skip := by
  have hk : ∀ k ∈ "function".toList :: Spec.codeNames, k.isPrefixOf (n ++ ['\n']) = false := by
    intro k hk
    rw [Bool.eq_false_iff]
    intro hf
    exact h k hk (List.isPrefixOf_iff_prefix.1 hf)
  have hc : isCode (n ++ ['\n']) = false := by
    rw [isCode, hk _ (by simp [Spec.codeNames]), hk _ (by simp [Spec.codeNames]),
      hk _ (by simp [Spec.codeNames]), hk _ (by simp [Spec.codeNames])]
    rfl
  rw [classify, if_neg hl]
  split
  · rfl
  · rw [if_neg (by rw [hk _ (by simp)]; simp), if_neg (by rw [hc]; simp)]

/-! ### The function table -/

/-- The state after a function header. -/
def fnStep {α : Type} (s : RdSt α) (h : Int × List Char) : RdSt α :=
  { s with objs := s.objs ++ [(h.2, [])], dict := dictSet s.dict h.1 s.objs.length }

theorem read_table {α : Type} (mk : Int → Int → Py α) (fs : List Spec.FnLine) (hok : ∀ f ∈ fs, f.Ok)
    (n : List Char) (hn : "function".toList.isPrefixOf n = true) (s : RdSt α) (hs : s.sect = some n) :
    (fs.map Spec.FnLine.text).foldlM (rdLine mk) s
      = .ok ((Spec.Listing.headers ⟨fs, []⟩).foldl fnStep s) := by
  induction fs generalizing s with
  | nil => rfl
  | cons f fs ih =>
    rw [List.map_cons, List.foldlM_cons]
    have hf := hok f (by simp)
    have ih' := ih fun g hg => hok g (List.mem_cons_of_mem _ hg)
    cases f with
    | blank ws =>
      rw [rdLine, show (Spec.FnLine.blank ws).text = ws from rfl, classify_blank _ ws hf]
      exact ih' s hs
    | entry t a m pad =>
      rw [rdLine, hs, classify_func n t a m pad hn hf]
      exact ih' (fnStep s (a, m)) hs

/-- The functions known after their headers, without code. -/
structure TableOk {α : Type} (hs : List (Int × List Char)) (s : RdSt α) : Prop where
  nodup : (s.dict.map (·.1)).Nodup
  keys : ∀ a, a ∈ s.dict.map (·.1) ↔ a ∈ hs.map (·.1)
  objs : ∀ a k, dictGet s.dict a = some k → ∃ n, s.objs[k]? = some (n, []) ∧ Spec.lastName hs a = some n
  inj : ∀ a b k, dictGet s.dict a = some k → dictGet s.dict b = some k → a = b

theorem lastName_append (hs : List (Int × List Char)) (h : Int × List Char) (a : Int) :
    Spec.lastName (hs ++ [h]) a = if h.1 = a then some h.2 else Spec.lastName hs a := by
  unfold Spec.lastName
  rw [List.reverse_append, List.reverse_singleton, List.singleton_append, List.find?_cons]
  by_cases e : h.1 = a
  · rw [if_pos e]
    simp [e]
  · rw [if_neg e]
    have : (h.1 == a) = false := by simpa using e
    rw [this]

theorem table_ok {α : Type} (hs : List (Int × List Char)) (s : RdSt α) (h0 : s.objs = []) (h1 : s.dict = []) :
    TableOk hs (hs.foldl fnStep s) ∧ (hs.foldl fnStep s).cur = s.cur ∧
      (hs.foldl fnStep s).insts = s.insts ∧ (hs.foldl fnStep s).sect = s.sect := by
  induction hs using List.reverseRecOn with
  | nil =>
    refine ⟨⟨?_, ?_, ?_, ?_⟩, rfl, rfl, rfl⟩ <;> simp [h1, dictGet_nil]
  | append_singleton hs h ih =>
    obtain ⟨⟨i1, i2, i3, i4⟩, i5, i6, i7⟩ := ih
    rw [List.foldl_append]
    simp only [List.foldl_cons, List.foldl_nil]
    generalize hs.foldl fnStep s = t at *
    have hlt : ∀ a k, dictGet t.dict a = some k → k < t.objs.length := by
      intro a k hk
      obtain ⟨n, hn, _⟩ := i3 a k hk
      exact (List.getElem?_eq_some_iff.1 hn).1
    refine ⟨⟨?_, ?_, ?_, ?_⟩, i5, i6, i7⟩
    · exact keys_dictSet_nodup _ _ _ i1
    · intro a
      have : (fnStep t h).dict = dictSet t.dict h.1 t.objs.length := rfl
      rw [this, keys_dictSet]
      split
      · next hm =>
        rw [i2 a, List.map_append, List.mem_append]
        constructor
        · exact Or.inl
        · rintro (hx | hx)
          · exact hx
          · simp only [List.map_cons, List.map_nil, List.mem_singleton] at hx
            rw [hx]
            exact (i2 _).1 hm
      · rw [List.mem_append, List.map_append, List.mem_append, i2 a]
        simp
    · intro a k hk
      have : (fnStep t h).dict = dictSet t.dict h.1 t.objs.length := rfl
      rw [this, dictGet_dictSet] at hk
      rw [lastName_append]
      by_cases e : h.1 = a
      · rw [if_pos e] at hk ⊢
        cases hk
        exact ⟨h.2, by simp [fnStep], rfl⟩
      · rw [if_neg e] at hk ⊢
        obtain ⟨n, hn, hl⟩ := i3 a k hk
        refine ⟨n, ?_, hl⟩
        rw [← hn]
        exact List.getElem?_append_left (hlt a k hk)
    · intro a b k ha hb
      have : (fnStep t h).dict = dictSet t.dict h.1 t.objs.length := rfl
      rw [this, dictGet_dictSet] at ha hb
      by_cases e : h.1 = a <;> by_cases f : h.1 = b
      · rw [← e, ← f]
      · rw [if_pos e] at ha
        rw [if_neg f] at hb
        cases ha
        exact absurd (hlt _ _ hb) (by omega)
      · rw [if_neg e] at ha
        rw [if_pos f] at hb
        cases hb
        exact absurd (hlt _ _ ha) (by omega)
      · rw [if_neg e] at ha
        rw [if_neg f] at hb
        exact i4 a b k ha hb

theorem firsts_append (l : List Int) (a : Int) :
    Spec.firsts (l ++ [a]) = if a ∈ l then Spec.firsts l else Spec.firsts l ++ [a] := by
  induction l with
  | nil => simp [Spec.firsts]
  | cons b l ih =>
    rw [List.cons_append, Spec.firsts, ih, Spec.firsts]
    by_cases h1 : a ∈ l
    · rw [if_pos h1, if_pos (List.mem_cons_of_mem _ h1)]
    · rw [if_neg h1, List.filter_append]
      by_cases h2 : a = b
      · simp [h2]
      · rw [if_neg (by simp [h1, h2])]
        simp [h2]

theorem table_keys {α : Type} (hs : List (Int × List Char)) (s : RdSt α) (h1 : s.dict = []) :
    ((hs.foldl fnStep s).dict.map (·.1)) = Spec.firsts (hs.map (·.1)) ∧
      ∀ a, a ∈ (hs.foldl fnStep s).dict.map (·.1) ↔ a ∈ hs.map (·.1) := by
  induction hs using List.reverseRecOn with
  | nil => simp [h1, Spec.firsts]
  | append_singleton hs h ih =>
    obtain ⟨i1, i2⟩ := ih
    have e : ((hs ++ [h]).foldl fnStep s).dict.map (·.1) = Spec.firsts ((hs ++ [h]).map (·.1)) := by
      rw [List.foldl_append]
      simp only [List.foldl_cons, List.foldl_nil, List.map_append, List.map_cons, List.map_nil]
      rw [firsts_append, ← i1]
      have : (fnStep (hs.foldl fnStep s) h).dict
          = dictSet (hs.foldl fnStep s).dict h.1 (hs.foldl fnStep s).objs.length := rfl
      rw [this, keys_dictSet]
      simp only [i2]
    refine ⟨e, ?_⟩
    intro a
    rw [e, List.map_append, List.map_singleton, firsts_append]
    split
    · next hm =>
      rw [← i1, i2, List.mem_append, List.mem_singleton]
      constructor
      · exact Or.inl
      · rintro (h | h)
        · exact h
        · rw [h]; exact hm
    · rw [List.mem_append, List.mem_append, ← i1, i2]

/-! ### The code -/

/-- The state after an instruction. -/
def instStep {α : Type} (build : Int → Int → α) (s : RdSt α) (x : Int × Int) : RdSt α :=
  let cur := match dictGet s.dict x.2 with
    | some k => some k
    | none => s.cur
  let objs := match cur with
    | some k => s.objs.modify k fun f => (f.1, f.2 ++ [build x.1 x.2])
    | none => s.objs
  { s with objs := objs, cur := cur, insts := s.insts ++ [build x.1 x.2] }

theorem rdApply_inst {α : Type} (mk : Int → Int → Py α) (build : Int → Int → α) (s : RdSt α) (e a : Int)
    (h : mk e a = .ok (build e a)) : rdApply mk s (.inst e a) = .ok (instStep build s (e, a)) := by
  rw [rdApply, h]
  rfl

theorem instStep_sect {α : Type} (build : Int → Int → α) (s : RdSt α) (x : Int × Int) (n : Option (List Char)) :
    instStep build { s with sect := n } x = { instStep build s x with sect := n } := rfl

theorem read_code {α : Type} (mk : Int → Int → Py α) (build : Int → Int → α) (n : List Char)
    (ls : List Spec.CodeLine) (hok : ∀ l ∈ ls, l.Ok)
    (hb : ∀ p ∈ (Spec.Sec.code n ls).insts, mk p.1 p.2 = .ok (build p.1 p.2)) (m : List Char)
    (hm : "function".toList.isPrefixOf m = false) (hc : isCode m = true) (s : RdSt α) (hs : s.sect = some m) :
    (ls.map Spec.CodeLine.text).foldlM (rdLine mk) s
      = .ok ((Spec.Sec.code n ls).insts.foldl (instStep build) s) := by
  induction ls generalizing s with
  | nil => rfl
  | cons f ls ih =>
    rw [List.map_cons, List.foldlM_cons]
    have hf := hok f (by simp)
    have ih' := ih fun g hg => hok g (List.mem_cons_of_mem _ hg)
    cases f with
    | junk t =>
      rw [rdLine, hs, show (Spec.CodeLine.junk t).text = t from rfl, classify_junk m t hm hc hf]
      exact ih' hb s hs
    | entry at_ a et e r =>
      have hx := hb ((e : Int), (a : Int)) (by simp [Spec.Sec.insts])
      rw [rdLine, hs, classify_inst m at_ a et e r hm hc hf]
      have := rdApply_inst mk build s e a hx
      simp only [Except.bind, bind]
      rw [this]
      exact ih' (fun p hp => hb p (by
        simp only [Spec.Sec.insts, List.filterMap_cons] at hp ⊢
        exact List.mem_cons_of_mem _ hp)) _ hs

theorem read_other {α : Type} (mk : Int → Int → Py α) (n : List Char) (ls : List (List Char))
    (h : (Spec.Sec.other n ls).Ok) (s : RdSt α) (hs : s.sect = some (n ++ ['\n'])) :
    ls.foldlM (rdLine mk) s = .ok s := by
  obtain ⟨_, h2, h3⟩ := h
  induction ls with
  | nil => rfl
  | cons l ls ih =>
    rw [List.foldlM_cons, rdLine, hs, classify_other n l h2 (h3 l (by simp))]
    exact ih fun g hg => h3 g (List.mem_cons_of_mem _ hg)

/-- The section does not matter for what instructions do. -/
theorem foldl_instStep_sect {α : Type} (build : Int → Int → α) (I : List (Int × Int)) (s : RdSt α)
    (n : Option (List Char)) :
    I.foldl (instStep build) { s with sect := n } = { I.foldl (instStep build) s with sect := n } := by
  induction I generalizing s with
  | nil => rfl
  | cons x I ih =>
    rw [List.foldl_cons, List.foldl_cons, instStep_sect, ih]

theorem read_sections {α : Type} (mk : Int → Int → Py α) (build : Int → Int → α) (ss : List Spec.Sec)
    (hok : ∀ x ∈ ss, x.Ok) (hb : ∀ p ∈ ss.flatMap Spec.Sec.insts, mk p.1 p.2 = .ok (build p.1 p.2))
    (s : RdSt α) :
    ∃ m, (ss.flatMap Spec.Sec.text).foldlM (rdLine mk) s
      = .ok { (ss.flatMap Spec.Sec.insts).foldl (instStep build) s with sect := m } := by
  induction ss generalizing s with
  | nil => exact ⟨s.sect, rfl⟩
  | cons x ss ih =>
    have hx := hok x (by simp)
    have ih' := ih (fun g hg => hok g (List.mem_cons_of_mem _ hg)) (fun p hp => hb p (by
      rw [List.flatMap_cons]
      exact List.mem_append_right _ hp))
    rw [List.flatMap_cons, List.flatMap_cons, List.foldlM_append, List.foldl_append]
    cases x with
    | code n ls =>
      obtain ⟨h1, h2, h3⟩ := hx
      obtain ⟨g1, g2⟩ := code_not_function n h2
      have hr := read_code mk build n ls h3 (fun p hp => hb p (by
        rw [List.flatMap_cons]; exact List.mem_append_left _ hp)) (n ++ ['\n']) g1 g2
        { s with sect := some (n ++ ['\n']) } rfl
      obtain ⟨m, hm⟩ := ih' ((Spec.Sec.code n ls).insts.foldl (instStep build)
        { s with sect := some (n ++ ['\n']) })
      refine ⟨m, ?_⟩
      rw [Spec.Sec.text, List.foldlM_cons, rdLine, classify_dot _ n h1]
      simp only [bind, Except.bind, rdApply]
      rw [hr]
      simp only
      rw [hm, foldl_instStep_sect build (Spec.Sec.code n ls).insts s (some (n ++ ['\n'])),
        foldl_instStep_sect build (ss.flatMap Spec.Sec.insts)
          ((Spec.Sec.code n ls).insts.foldl (instStep build) s) (some (n ++ ['\n']))]
    | other n ls =>
      have hr := read_other mk n ls hx { s with sect := some (n ++ ['\n']) } rfl
      obtain ⟨m, hm⟩ := ih' { s with sect := some (n ++ ['\n']) }
      refine ⟨m, ?_⟩
      rw [Spec.Sec.text, List.foldlM_cons, rdLine, classify_dot _ n hx.1]
      simp only [bind, Except.bind, rdApply]
      rw [hr]
      simp only
      rw [hm, foldl_instStep_sect]
      rfl

theorem owner_append (starts : List Int) (I : List (Int × Int)) (x : Int × Int) :
    Spec.owner starts (I ++ [x]) I.length
      = if starts.contains x.2 then some x.2
        else if I = [] then none else Spec.owner starts I (I.length - 1) := by
  unfold Spec.owner
  rw [List.take_of_length_le (by simp), List.map_append, List.reverse_append]
  simp only [List.map_cons, List.map_nil, List.reverse_singleton, List.singleton_append, List.find?_cons]
  cases hc : starts.contains x.2 with
  | true => simp
  | false =>
    simp only [Bool.false_eq_true, if_false]
    by_cases hI : I = []
    · simp [hI]
    · rw [if_neg hI, List.take_of_length_le (by have := List.length_pos_iff.2 hI; omega)]

theorem owned_append (starts : List Int) (I : List (Int × Int)) (x : Int × Int) (a : Int) :
    Spec.owned starts (I ++ [x]) a
      = Spec.owned starts I a ++ if Spec.owner starts (I ++ [x]) I.length = some a then [x] else [] := by
  unfold Spec.owned
  rw [List.zipIdx_append, List.filter_append, List.map_append]
  congr 1
  · congr 1
    apply List.filter_congr
    intro p hp
    have : p.2 < I.length := by
      have := List.mem_zipIdx hp
      omega
    unfold Spec.owner
    rw [List.take_append_of_le_length (by omega)]
  · simp only [List.zipIdx_cons, List.zipIdx_nil, List.filter_cons, List.filter_nil, Nat.zero_add]
    by_cases h : Spec.owner starts (I ++ [x]) I.length = some a
    · simp [h]
    · simp [h]

/-- What the instructions read so far do to the functions. -/
theorem insts_ok {α : Type} (build : Int → Int → α) (hs : List (Int × List Char)) (s : RdSt α)
    (ht : TableOk hs s) (hc : s.cur = none) (I : List (Int × Int)) :
    let starts := hs.map (·.1)
    let t := I.foldl (instStep build) s
    t.dict = s.dict ∧ t.insts = s.insts ++ I.map (fun x => build x.1 x.2) ∧
    t.cur = (if I = [] then none else Spec.owner starts I (I.length - 1)).bind (dictGet s.dict) ∧
    ∀ a k, dictGet s.dict a = some k → ∃ n, Spec.lastName hs a = some n ∧
      t.objs[k]? = some (n, (Spec.owned starts I a).map fun x => build x.1 x.2) := by
  intro starts
  induction I using List.reverseRecOn with
  | nil =>
    refine ⟨rfl, by simp, by simpa using hc, ?_⟩
    intro a k hk
    obtain ⟨n, h1, h2⟩ := ht.objs a k hk
    exact ⟨n, h2, h1⟩
  | append_singleton I x ih =>
    obtain ⟨i1, i2, i3, i4⟩ := ih
    simp only [List.foldl_append, List.foldl_cons, List.foldl_nil]
    generalize I.foldl (instStep build) s = t at *
    have hcur : (instStep build t x).cur = (Spec.owner starts (I ++ [x]) I.length).bind (dictGet s.dict) := by
      simp only [instStep]
      rw [owner_append, i1]
      have hk : starts.contains x.2 = true ↔ (dictGet s.dict x.2).isSome := by
        rw [dictGet_isSome, ht.keys]
        simp [starts]
      cases hd : dictGet s.dict x.2 with
      | some k =>
        rw [if_pos (hk.2 (by rw [hd]; rfl))]
        simp [hd]
      | none =>
        rw [if_neg (fun h => by have := hk.1 h; rw [hd] at this; cases this)]
        exact i3
    refine ⟨i1, ?_, ?_, ?_⟩
    · simp only [instStep]
      rw [i2, List.append_assoc, List.map_append]
      rfl
    · rw [hcur]
      simp
    · intro a k hk
      obtain ⟨n, h1, h2⟩ := i4 a k hk
      refine ⟨n, h1, ?_⟩
      rw [owned_append]
      have hobjs : (instStep build t x).objs = match (instStep build t x).cur with
          | some k => t.objs.modify k fun f => (f.1, f.2 ++ [build x.1 x.2])
          | none => t.objs := rfl
      rw [hobjs, hcur]
      cases ho : Spec.owner starts (I ++ [x]) I.length with
      | none => simpa using h2
      | some b =>
        simp only [Option.bind_some]
        have hbm : b ∈ starts := by
          have := List.find?_some ho
          simpa using this
        obtain ⟨j, hj⟩ := Option.isSome_iff_exists.1 ((dictGet_isSome _ _).2 ((ht.keys b).2 hbm))
        rw [hj]
        simp only
        rw [List.getElem?_modify]
        by_cases hab : b = a
        · subst hab
          rw [hj] at hk
          cases hk
          rw [h2]
          simp
        · have : j ≠ k := fun e => hab (ht.inj b a k (e ▸ hj) hk)
          rw [h2]
          simp [this, hab]

/-! ### The text reader -/

theorem flatMap_modify_last {α β : Type} (l : List (β × List α)) (h : l ≠ []) (i : α) :
    (l.modify (l.length - 1) fun f => (f.1, f.2 ++ [i])).flatMap (·.2) = l.flatMap (·.2) ++ [i] := by
  induction l using List.reverseRecOn with
  | nil => exact absurd rfl h
  | append_singleton l x _ =>
    have : (l ++ [x]).length - 1 = l.length := by simp
    have e : ∀ l : List (β × List α),
        (l ++ [x]).modify l.length (fun f => (f.1, f.2 ++ [i])) = l ++ [(x.1, x.2 ++ [i])] := by
      intro l
      induction l with
      | nil => rfl
      | cons y l ih => simp [ih]
    rw [this, e]
    simp

theorem rstripNl_head (c : Char) (t : List Char) (hc : c ≠ '\n') : (rstripNl (c :: t)).head? = some c := by
  unfold rstripNl
  rw [List.reverse_cons]
  have : ∃ u, (t.reverse ++ [c]).dropWhile (· = '\n') = u ++ [c] := by
    induction t.reverse with
    | nil => exact ⟨[], by simp [List.dropWhile, hc]⟩
    | cons y u ih =>
      by_cases hy : y = '\n'
      · rw [List.cons_append, List.dropWhile_cons_of_pos (by simpa using hy)]
        exact ih
      · rw [List.cons_append, List.dropWhile_cons_of_neg (by simpa using hy)]
        exact ⟨y :: u, rfl⟩
  obtain ⟨u, hu⟩ := this
  rw [hu]
  simp

theorem rstripNl_nl (t : List Char) : rstripNl ('\n' :: t) = [] ∨ (rstripNl ('\n' :: t)).head? = some '\n' := by
  unfold rstripNl
  rw [List.reverse_cons]
  have : ∀ r : List Char, (r ++ ['\n']).dropWhile (· = '\n') = [] ∨
      ∃ u, (r ++ ['\n']).dropWhile (· = '\n') = u ++ ['\n'] := by
    intro r
    induction r with
    | nil => exact Or.inl (by simp [List.dropWhile])
    | cons y u ih =>
      by_cases hy : y = '\n'
      · rw [List.cons_append, List.dropWhile_cons_of_pos (by simpa using hy)]
        exact ih
      · rw [List.cons_append, List.dropWhile_cons_of_neg (by simpa using hy)]
        exact Or.inr ⟨y :: u, rfl⟩
  rcases this t.reverse with h | ⟨u, h⟩
  · left; rw [h]; rfl
  · right; rw [h]; simp

theorem isHeader_head (l : List Char) (h : isHeader l = true) : l.head? = some '.' := by
  unfold isHeader at h
  split at h
  · rfl
  · cases h

/-- One line, both ways. -/
theorem text_step {α : Type} (mk : Int → Int → Py α) (s : List (List Char × List α)) (hs : s ≠ [])
    (line : List Char) (hl : line ≠ []) :
    (textFnLine mk s line).map (fun r => r.flatMap (·.2)) = textInstLine mk (s.flatMap (·.2)) line ∧
      ∀ r, textFnLine mk s line = .ok r → r ≠ [] := by
  cases line with
  | nil => exact absurd rfl hl
  | cons c t =>
    unfold textFnLine
    simp only
    by_cases hsp : c = ' '
    · subst hsp
      have hh := rstripNl_head ' ' t (by decide)
      rw [if_neg (fun h => by have := isHeader_head _ h; rw [hh] at this; cases this), if_pos hh]
      simp only [textInstLine]
      cases hi : rdTextInst mk (rstripNl (' ' :: t)) with
      | error e =>
        refine ⟨rfl, ?_⟩
        intro r hr
        cases hr
      | ok i =>
        simp only [bind, Except.bind, pure, Except.pure, Except.map]
        rw [flatMap_modify_last s hs i]
        refine ⟨rfl, ?_⟩
        intro r hr
        cases hr
        intro h0
        have := congrArg List.length h0
        rw [List.length_modify] at this
        exact hs (List.length_eq_zero_iff.1 this)
    · have e : textInstLine mk (s.flatMap (·.2)) (c :: t) = .ok (s.flatMap (·.2)) := by
        unfold textInstLine
        split
        · next h => cases h
        · next h => cases h; exact absurd rfl hsp
        · rfl
      rw [e]
      split
      · refine ⟨by simp [Except.map], ?_⟩
        intro r hr
        cases hr
        simp
      · have : (rstripNl (c :: t)).head? ≠ some ' ' := by
          by_cases hnl : c = '\n'
          · subst hnl
            rcases rstripNl_nl t with h | h <;> rw [h] <;> decide
          · rw [rstripNl_head c t hnl]
            intro h
            exact hsp (Option.some.inj h)
        rw [if_neg this]
        refine ⟨rfl, ?_⟩
        intro r hr
        cases hr
        exact hs

theorem text_fold {α : Type} (mk : Int → Int → Py α) (lines : List (List Char)) (hl : ∀ l ∈ lines, l ≠ [])
    (s : List (List Char × List α)) (hs : s ≠ []) :
    (lines.foldlM (textFnLine mk) s).map (fun r => r.flatMap (·.2))
      = lines.foldlM (textInstLine mk) (s.flatMap (·.2)) := by
  induction lines generalizing s with
  | nil => rfl
  | cons l lines ih =>
    obtain ⟨h1, h2⟩ := text_step mk s hs l (hl l (by simp))
    rw [List.foldlM_cons, List.foldlM_cons, ← h1]
    cases hr : textFnLine mk s l with
    | error e => rfl
    | ok r =>
      simp only [bind, Except.bind, Except.map]
      exact ih (fun x hx => hl x (List.mem_cons_of_mem _ hx)) r (h2 r hr)

theorem takeWhile_mem {α : Type} {p : α → Bool} {l : List α} {x : α} (h : x ∈ l.takeWhile p) : p x = true := by
  induction l with
  | nil => cases h
  | cons a l ih =>
    rw [List.takeWhile_cons] at h
    split at h
    · rcases List.mem_cons.1 h with rfl | h
      · assumption
      · exact ih h
    · cases h

theorem modify_last {α : Type} (pre : List α) (x : α) (f : α → α) :
    (pre ++ [x]).modify pre.length f = pre ++ [f x] := by
  induction pre with
  | nil => rfl
  | cons a pre ih => simpa using ih

theorem rstripNl_mid (h : List Char) (c : Char) (rest : List Char) (hc : c ≠ '\n') :
    rstripNl (h ++ c :: rest) = h ++ c :: rstripNl rest := by
  unfold rstripNl
  rw [List.reverse_append, List.reverse_cons, List.append_assoc, List.dropWhile_append]
  split
  · rename_i he
    have : rest.reverse.dropWhile (· = '\n') = [] := by simpa using he
    rw [this]
    simp [hc]
  · simp

theorem rstripNl_split (l : List Char) :
    ∃ nls : List Char, l = rstripNl l ++ nls ∧ (∀ c ∈ nls, c = '\n') ∧ (rstripNl l).getLast? ≠ some '\n' := by
  refine ⟨(l.reverse.takeWhile (· = '\n')).reverse, ?_, ?_, ?_⟩
  · unfold rstripNl
    rw [← List.reverse_append, List.takeWhile_append_dropWhile, List.reverse_reverse]
  · intro c hc
    have := takeWhile_mem (List.mem_reverse.1 hc)
    simpa using this
  · unfold rstripNl
    rw [List.getLast?_reverse]
    intro h
    have := List.head?_dropWhile_not (fun c : Char => decide (c = '\n')) l.reverse
    rw [h] at this
    simp at this

theorem isWord_iff (c : Char) : isWord c = true ↔ Spec.Word c := by
  simp [isWord, Spec.Word]

theorem isLowHex_iff (c : Char) : isLowHex c = true ↔ c ∈ "0123456789abcdef".toList := by
  constructor
  · intro h
    have h2 : ∀ n : Nat, n < 128 → isLowHex (Char.ofNat n) = true → Char.ofNat n ∈ "0123456789abcdef".toList := by
      decide +kernel
    have h3 : c.toNat < 128 := by
      simp only [isLowHex, Bool.or_eq_true, Bool.and_eq_true, decide_eq_true_eq] at h
      have e1 : '9'.toNat = 57 := rfl
      have e2 : 'f'.toNat = 102 := rfl
      omega
    have h4 := h2 c.toNat h3
    rw [Char.ofNat_toNat] at h4
    exact h4 h
  · intro h
    have : ∀ d ∈ "0123456789abcdef".toList, isLowHex d = true := by decide
    exact this c h

theorem whites_not : ∀ c, isBlank c = true → c ≠ '<' := by
  intro c h e
  subst e
  revert h
  decide

theorem isHeader_iff (l : List Char) : isHeader l = true ↔ Spec.Header l := by
  constructor
  · intro h
    unfold isHeader at h
    split at h
    · rename_i t
      simp only [Bool.and_eq_true, Bool.not_eq_true', List.isEmpty_eq_false_iff] at h
      obtain ⟨h1, h2⟩ := h
      split at h2
      · rename_i t1 e1
        simp only [Bool.and_eq_true, Bool.not_eq_true', List.isEmpty_eq_false_iff] at h2
        obtain ⟨h3, h4⟩ := h2
        split at h4
        · rename_i c rest e2
          refine ⟨t.takeWhile isWord, t1.takeWhile isLowHex, (t1.dropWhile isLowHex).takeWhile isBlank, c, rest,
            ?_, h1, ?_, h3, ?_, ?_, ?_⟩
          · rw [← e2, List.takeWhile_append_dropWhile, List.takeWhile_append_dropWhile, ← e1,
              List.takeWhile_append_dropWhile]
          · exact fun x hx => (isWord_iff x).1 (takeWhile_mem hx)
          · exact fun x hx => (isLowHex_iff x).1 (takeWhile_mem hx)
          · exact fun x hx => isBlank_whites x (takeWhile_mem hx)
          · simp only [Bool.or_eq_true, decide_eq_true_eq, isWord_iff] at h4
            rcases h4 with ((h | h) | h) | h
            · subst h; exact Or.inl (by decide)
            · subst h; exact Or.inl (by decide)
            · subst h; exact Or.inl (by decide)
            · exact Or.inr h
        · cases h4
      · cases h2
    · cases h
  · rintro ⟨name, addr, ws, c, rest, rfl, h1, h2, h3, h4, h5, h6⟩
    have tk : ∀ (p : Char → Bool) (a : List Char) (d : Char) (b : List Char), (∀ x ∈ a, p x = true) → p d = false →
        (a ++ d :: b).takeWhile p = a ∧ (a ++ d :: b).dropWhile p = d :: b := by
      intro p a d b ha hd
      rw [List.takeWhile_append_of_pos ha, List.dropWhile_append_of_pos ha]
      simp [hd]
    obtain ⟨e1, e2⟩ := tk isWord name ':' (addr ++ (ws ++ '<' :: c :: rest))
      (fun x hx => (isWord_iff x).2 (h2 x hx)) (by decide)
    unfold isHeader
    simp only [e1, e2]
    have hn : addr ++ (ws ++ '<' :: c :: rest) = addr ++ ((ws ++ ['<']).headD ' ' :: (ws ++ ['<']).tail ++ c :: rest) := by
      cases ws <;> simp
    have hb : isLowHex ((ws ++ ['<']).headD ' ') = false := by
      cases ws with
      | nil => decide
      | cons x _ =>
        have : ∀ y ∈ Spec.whites, isLowHex y = false := by decide
        exact this x (h5 x (by simp))
    obtain ⟨e3, e4⟩ := tk isLowHex addr ((ws ++ ['<']).headD ' ') ((ws ++ ['<']).tail ++ c :: rest)
      (fun x hx => (isLowHex_iff x).2 (h4 x hx)) hb
    rw [List.cons_append] at hn
    rw [hn, e3, e4]
    have hn2 : (ws ++ ['<']).headD ' ' :: ((ws ++ ['<']).tail ++ c :: rest) = ws ++ '<' :: c :: rest := by
      cases ws <;> simp
    rw [hn2, (tk isBlank ws '<' (c :: rest) (fun x hx => whites_blank x (h5 x hx)) (by decide)).2]
    have hc : (c = '$' ∨ c = '|') ∨ c = '+' ∨ isWord c = true := by
      rcases h6 with h | h
      · simp only [show "$|+".toList = ['$', '|', '+'] from rfl, List.mem_cons,
          List.not_mem_nil, or_false] at h
        tauto
      · exact Or.inr (Or.inr ((isWord_iff c).2 h))
    simp only [List.isEmpty_eq_false_iff.2 h1, List.isEmpty_eq_false_iff.2 h3, Bool.not_false, Bool.true_and,
      Bool.or_eq_true, decide_eq_true_eq]
    tauto

theorem header_strip (l : List Char) : isHeader (rstripNl l) = true ↔ Spec.Header l := by
  rw [isHeader_iff]
  constructor
  · rintro ⟨name, addr, ws, c, rest, e, h⟩
    obtain ⟨nls, h1, _⟩ := rstripNl_split l
    refine ⟨name, addr, ws, c, rest ++ nls, ?_, h⟩
    rw [h1, e]
    simp
  · rintro ⟨name, addr, ws, c, rest, e, h⟩
    refine ⟨name, addr, ws, c, rstripNl rest, ?_, h⟩
    have hc : c ≠ '\n' := by
      rintro rfl
      rcases h.2.2.2.2.2 with h | h
      · revert h; decide
      · rcases h with h | h <;> revert h <;> decide
    have := rstripNl_mid ('.' :: (name ++ ':' :: (addr ++ (ws ++ ['<'])))) c rest hc
    rw [e]
    simpa using this

/-- Reading the functions from some state with a last function. -/
theorem text_groups {α : Type} (mk : Int → Int → Py α) (lines : List (List Char)) (hl : ∀ l ∈ lines, l ≠ [])
    (pre : List (List Char × List α)) (n : List Char) (acc : List α) (fs : List (List Char × List α))
    (h : lines.foldlM (textFnLine mk) (pre ++ [(n, acc)]) = .ok fs) :
    ∃ (first : List (List Char)) (groups : List (List Char × List (List Char))) (i0 : List α)
      (tail : List (List Char × List α)),
      lines = first ++ groups.flatMap (fun g => g.1 :: g.2) ∧ (∀ l ∈ first, ¬ Spec.Header l) ∧
      (∀ g ∈ groups, Spec.Header g.1 ∧ ∀ l ∈ g.2, ¬ Spec.Header l) ∧
      first.foldlM (textInstLine mk) acc = .ok i0 ∧ fs = pre ++ (n, i0) :: tail ∧
      List.Forall₂ (fun g f => f.1 = rstripNl g.1 ∧ textReadInstructions mk g.2 = .ok f.2) groups tail := by
  induction lines generalizing pre n acc with
  | nil =>
    cases h
    exact ⟨[], [], acc, [], rfl, by simp, by simp, rfl, rfl, .nil⟩
  | cons l lines ih =>
    rw [List.foldlM_cons] at h
    have hl' := fun x hx => hl x (List.mem_cons_of_mem _ hx)
    by_cases hh : isHeader (rstripNl l) = true
    · have e : textFnLine mk (pre ++ [(n, acc)]) l = .ok ((pre ++ [(n, acc)]) ++ [(rstripNl l, [])]) := by
        unfold textFnLine
        simp only [if_pos hh]
      rw [e] at h
      obtain ⟨first, groups, i0, tail, g1, g2, g3, g4, g5, g6⟩ := ih hl' _ _ _ h
      refine ⟨[], (l, first) :: groups, acc, (rstripNl l, i0) :: tail, by simp [g1], by simp, ?_, rfl, by simp [g5],
        .cons ⟨rfl, g4⟩ g6⟩
      intro g hg
      rcases List.mem_cons.1 hg with rfl | hg
      · exact ⟨(header_strip _).1 hh, g2⟩
      · exact g3 g hg
    · have hs : ∀ r, textFnLine mk (pre ++ [(n, acc)]) l = .ok r →
          ∃ acc', r = pre ++ [(n, acc')] ∧ textInstLine mk acc l = .ok acc' := by
        intro r hr
        have hstep := (text_step mk [(n, acc)] (by simp) l (hl l (by simp))).1
        unfold textFnLine at hr hstep
        simp only [if_neg hh] at hr hstep
        split at hr
        · rename_i hsp
          rw [if_pos hsp] at hstep
          cases hi : rdTextInst mk (rstripNl l) with
          | error e => rw [hi] at hr; cases hr
          | ok i =>
            rw [hi] at hr hstep
            cases hr
            refine ⟨acc ++ [i], ?_, ?_⟩
            · rw [List.length_append, List.length_singleton, Nat.add_sub_cancel, modify_last]
            · have : textInstLine mk acc l = textInstLine mk ([(n, acc)].flatMap (·.2)) l := by simp
              rw [this, ← hstep]
              simp [bind, Except.bind, pure, Except.pure, Except.map]
        · rename_i hsp
          rw [if_neg hsp] at hstep
          cases hr
          refine ⟨acc, rfl, ?_⟩
          have : textInstLine mk acc l = textInstLine mk ([(n, acc)].flatMap (·.2)) l := by simp
          rw [this, ← hstep]
          simp [Except.map]
      cases hr : textFnLine mk (pre ++ [(n, acc)]) l with
      | error e => rw [hr] at h; cases h
      | ok r =>
        rw [hr] at h
        obtain ⟨acc', rfl, ha⟩ := hs r hr
        obtain ⟨first, groups, i0, tail, g1, g2, g3, g4, g5, g6⟩ := ih hl' _ _ _ h
        refine ⟨l :: first, groups, i0, tail, by simp [g1], ?_, g3, ?_, g5, g6⟩
        · intro x hx
          rcases List.mem_cons.1 hx with rfl | hx
          · exact fun hd => hh ((header_strip _).2 hd)
          · exact g2 x hx
        · rw [List.foldlM_cons, ha]
          exact g4

theorem beforeDouble_no (a : List Char) (t : List Char) (ha : ∀ c ∈ a, c ≠ ' ') :
    beforeDouble (a ++ t) = a ++ beforeDouble t := by
  induction a with
  | nil => rfl
  | cons c a ih =>
    rw [List.cons_append, beforeDouble, ih fun x hx => ha x (List.mem_cons_of_mem _ hx)]
    · rfl
    · intro _ h
      exact absurd h (ha c (by simp))

theorem beforeDouble_space (c : Char) (t : List Char) (hc : c ≠ ' ') :
    beforeDouble (' ' :: c :: t) = ' ' :: beforeDouble (c :: t) := by
  rw [beforeDouble]
  intro x _ h
  injection h with h
  exact absurd h hc

theorem beforeDouble_char (c : Char) (t : List Char) (hc : c ≠ ' ') :
    beforeDouble (c :: t) = c :: beforeDouble t := by
  rw [beforeDouble]
  intro x h _
  exact absurd h hc

theorem hexTable_white : ∀ d ∈ Spec.hexTable, d.1 ≠ ' ' ∧ d.1 ≠ '\t' ∧ d.1 ≠ '\n' ∧ d.1 ≠ '\r' := by decide

/-- The instruction of a well-formed line. -/
theorem rdTextInst_ok {α : Type} (mk : Int → Int → Py α) (s a : List Char) (v : Nat) (b0 b1 b2 b3 : Spec.Digits)
    (r : List Char) (h : (Spec.TextLine.inst s a v b0 b1 b2 b3 r).Ok) :
    rdTextInst mk (rstripNl (Spec.TextLine.inst s a v b0 b1 b2 b3 r).text)
      = mk ((b0.value + 256 * b1.value + 65536 * b2.value + 16777216 * b3.value : Nat) : Int) (v : Int) := by
  obtain ⟨h1, h2, ⟨p0, q0⟩, ⟨p1, q1⟩, ⟨p2, q2⟩, ⟨p3, q3⟩, h3⟩ := h
  have w := hexTable_white
  obtain ⟨w0, w0a, w0b, w0c⟩ := w _ p0
  obtain ⟨x0, x0a, x0b, x0c⟩ := w _ q0
  obtain ⟨w1, w1a, w1b, w1c⟩ := w _ p1
  obtain ⟨x1, x1a, x1b, x1c⟩ := w _ q1
  obtain ⟨w2, w2a, w2b, w2c⟩ := w _ p2
  obtain ⟨x2, x2a, x2b, x2c⟩ := w _ q2
  obtain ⟨w3, w3a, w3b, w3c⟩ := w _ p3
  obtain ⟨x3, x3a, x3b, x3c⟩ := w _ q3
  have ha := numeral_chars h2
  have hsp : ∀ c ∈ a, c ≠ ' ' := by
    intro c hc e
    subst e
    exact absurd (ha.2 _ hc).1 (by decide)
  have hstrip : ∃ r', rstripNl (Spec.TextLine.inst s a v b0 b1 b2 b3 r).text
      = (Spec.TextLine.inst s a v b0 b1 b2 b3 r').text ∧ beforeDouble r' = [] := by
    have key : rstripNl (Spec.TextLine.inst s a v b0 b1 b2 b3 r).text
        = (Spec.TextLine.inst s a v b0 b1 b2 b3 (rstripNl r)).text := by
      have := rstripNl_mid (' ' :: (s ++ ':' :: (a ++ [' ', b0.1.1, b0.2.1, ' ', b1.1.1, b1.2.1, ' ', b2.1.1, b2.2.1,
        ' ', b3.1.1]))) b3.2.1 r x3b
      simpa [Spec.TextLine.text] using this
    refine ⟨rstripNl r, key, ?_⟩
    rcases h3 with h3 | ⟨t, rfl⟩
    · have : rstripNl r = [] := by
        unfold rstripNl
        rw [dropWhile_all _ _ (by simpa using h3)]
        rfl
      rw [this]
      rfl
    · have := rstripNl_mid [' '] ' ' t (by decide)
      simp only [List.cons_append, List.nil_append] at this
      rw [this]
      rfl
  obtain ⟨r', hr, hd⟩ := hstrip
  rw [hr]
  have e1 : afterFirst ':' (Spec.TextLine.inst s a v b0 b1 b2 b3 r').text
      = .ok (a ++ ' ' :: b0.1.1 :: b0.2.1 :: ' ' :: b1.1.1 :: b1.2.1 :: ' ' :: b2.1.1 :: b2.2.1 ::
        ' ' :: b3.1.1 :: b3.2.1 :: r') := by
    unfold afterFirst Spec.TextLine.text
    have : (' ' :: (s ++ ':' :: (a ++ ' ' :: b0.1.1 :: b0.2.1 :: ' ' :: b1.1.1 :: b1.2.1 :: ' ' :: b2.1.1 :: b2.2.1 ::
        ' ' :: b3.1.1 :: b3.2.1 :: r'))).dropWhile (· ≠ ':') = ':' :: (a ++ ' ' :: b0.1.1 :: b0.2.1 :: ' ' :: b1.1.1 ::
        b1.2.1 :: ' ' :: b2.1.1 :: b2.2.1 :: ' ' :: b3.1.1 :: b3.2.1 :: r') := by
      rw [← List.cons_append, List.dropWhile_append_of_pos]
      · simp
      · intro c hc
        rcases List.mem_cons.1 hc with rfl | hc
        · decide
        · have : c ≠ ':' := fun e => h1 (e ▸ hc)
          simpa using this
    rw [this]
  have e2 : beforeDouble (a ++ ' ' :: b0.1.1 :: b0.2.1 :: ' ' :: b1.1.1 :: b1.2.1 :: ' ' :: b2.1.1 :: b2.2.1 ::
        ' ' :: b3.1.1 :: b3.2.1 :: r')
      = a ++ ' ' :: [b0.1.1, b0.2.1, ' ', b1.1.1, b1.2.1, ' ', b2.1.1, b2.2.1, ' ', b3.1.1, b3.2.1] := by
    rw [beforeDouble_no _ _ hsp, beforeDouble_space _ _ w0, beforeDouble_char _ _ w0, beforeDouble_char _ _ x0,
      beforeDouble_space _ _ w1, beforeDouble_char _ _ w1, beforeDouble_char _ _ x1,
      beforeDouble_space _ _ w2, beforeDouble_char _ _ w2, beforeDouble_char _ _ x2,
      beforeDouble_space _ _ w3, beforeDouble_char _ _ w3, beforeDouble_char _ _ x3, hd]
  have hsp' : ∀ c ∈ a, decide (c ≠ ' ') = true := fun c hc => by simpa using hsp c hc
  have e3 : (a ++ ' ' :: [b0.1.1, b0.2.1, ' ', b1.1.1, b1.2.1, ' ', b2.1.1, b2.2.1, ' ', b3.1.1, b3.2.1]).takeWhile
      (· ≠ ' ') = a := by
    rw [List.takeWhile_append_of_pos hsp']
    simp
  have e4 : afterFirst ' ' (a ++ ' ' :: [b0.1.1, b0.2.1, ' ', b1.1.1, b1.2.1, ' ', b2.1.1, b2.2.1, ' ', b3.1.1,
      b3.2.1]) = .ok [b0.1.1, b0.2.1, ' ', b1.1.1, b1.2.1, ' ', b2.1.1, b2.2.1, ' ', b3.1.1, b3.2.1] := by
    unfold afterFirst
    rw [List.dropWhile_append_of_pos hsp']
    simp
  have e5 : reverseText [b0.1.1, b0.2.1, ' ', b1.1.1, b1.2.1, ' ', b2.1.1, b2.2.1, ' ', b3.1.1, b3.2.1]
      = [b3.1.1, b3.2.1, b2.1.1, b2.2.1, b1.1.1, b1.2.1, b0.1.1, b0.2.1] := by
    unfold reverseText
    simp [*, pySlice]
  have e6 := pyInt16_numeral (t := [b3.1.1, b3.2.1, b2.1.1, b2.2.1, b1.1.1, b1.2.1, b0.1.1, b0.2.1])
    (n := b0.value + 256 * b1.value + 65536 * b2.value + 16777216 * b3.value)
    ⟨[b3.1, b3.2, b2.1, b2.2, b1.1, b1.2, b0.1, b0.2], by simp, by
      intro d hd
      simp only [List.mem_cons, List.not_mem_nil, or_false] at hd
      rcases hd with rfl | rfl | rfl | rfl | rfl | rfl | rfl | rfl <;> assumption, Or.inl rfl, by
      simp only [List.foldl_cons, List.foldl_nil, Spec.Digits.value]
      omega⟩ [] (by intro c hc; cases hc)
  have e7 := pyInt16_numeral h2 [] (by intro c hc; cases hc)
  rw [List.append_nil] at e6 e7
  unfold rdTextInst
  simp only [e1, e2, e3, e4, e5, e6, e7, bind, Except.bind]

end Verif
