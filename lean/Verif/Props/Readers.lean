import Verif.Proof.Readers

/-!
# C67, C82: reading disassembled listings

The model is in `Verif/Model/Readers.lean`, the specification in
`Verif/Spec/Readers.lean`.
-/

namespace Verif

/-- **C67** For every well-formed listing — a function table, then sections of code
and others, in any number and order — the reader returns every instruction of the
code sections in the order of the file, and one function per address of the table,
in the order in which addresses first appear: its name is the last one listed for
the address, its instructions are exactly those that belong to it. -/
theorem C67_listing {α : Type} (mk : Int → Int → Py α) (build : Int → Int → α) (L : Spec.Listing)
    (hok : L.Ok) (hb : ∀ p ∈ L.insts, mk p.1 p.2 = .ok (build p.1 p.2)) :
    ∃ table : List (Int × List Char),
      elfioRead mk L.text = .ok
        (table.map fun f => (f.2, (Spec.owned (L.headers.map (·.1)) L.insts f.1).map fun x => build x.1 x.2),
         L.insts.map fun x => build x.1 x.2) ∧
      table.map (·.1) = Spec.firsts (L.headers.map (·.1)) ∧
      ∀ a n, (a, n) ∈ table → Spec.lastName L.headers a = some n := by
  obtain ⟨fs, ss⟩ := L
  obtain ⟨hf, hs⟩ := hok
  have hhead : Spec.Listing.headers ⟨fs, ss⟩ = Spec.Listing.headers ⟨fs, []⟩ := rfl
  have hin : Spec.Listing.insts ⟨fs, ss⟩ = ss.flatMap Spec.Sec.insts := rfl
  rw [hin] at hb ⊢
  rw [hhead]
  generalize hH : Spec.Listing.headers ⟨fs, []⟩ = H at *
  let s0 : RdSt α := { sect := some "functions\n".toList }
  have h1 : (".functions\n".toList :: fs.map Spec.FnLine.text).foldlM (rdLine mk) {}
      = .ok (H.foldl fnStep s0) := by
    rw [List.foldlM_cons, rdLine,
      show ".functions\n".toList = '.' :: "functions".toList ++ ['\n'] by decide,
      classify_dot _ "functions".toList (by decide)]
    simp only [bind, Except.bind, rdApply]
    rw [← hH]
    exact read_table mk fs hf ("functions".toList ++ ['\n']) (by decide) s0 (by simp only [s0]; decide)
  obtain ⟨t1, t2, t3, _⟩ := table_ok H s0 rfl rfl
  obtain ⟨k1, _⟩ := table_keys H s0 rfl
  obtain ⟨m, h2⟩ := read_sections mk build ss hs hb (H.foldl fnStep s0)
  obtain ⟨i1, i2, _, i4⟩ := insts_ok build H (H.foldl fnStep s0) t1 t2 (ss.flatMap Spec.Sec.insts)
  refine ⟨(H.foldl fnStep s0).dict.filterMap fun p =>
    ((H.foldl fnStep s0).objs[p.2]?).map fun o => (p.1, o.1), ?_, ?_, ?_⟩
  · unfold elfioRead
    rw [Spec.Listing.text, List.foldlM_append, h1]
    simp only [bind, Except.bind]
    rw [h2]
    simp only [pure, Except.pure]
    congr 2
    · rw [List.map_filterMap, i1]
      apply List.filterMap_congr
      intro p hp
      have hg := dictGet_of_mem t1.nodup hp
      obtain ⟨n, g1, g2⟩ := i4 p.1 p.2 hg
      obtain ⟨n', g3, g4⟩ := t1.objs p.1 p.2 hg
      rw [g4] at g1
      cases g1
      rw [g2, g3]
      rfl
    · rw [i2, t3]
      rfl
  · rw [← k1]
    generalize hd : (H.foldl fnStep s0).dict = d
    have hall : ∀ p ∈ d, ∃ o, (H.foldl fnStep s0).objs[p.2]? = some o := by
      intro p hp
      rw [← hd] at hp
      obtain ⟨n', g3, _⟩ := t1.objs p.1 p.2 (dictGet_of_mem t1.nodup hp)
      exact ⟨_, g3⟩
    clear hd
    induction d with
    | nil => rfl
    | cons p d ih =>
      obtain ⟨o, ho⟩ := hall p (by simp)
      rw [List.filterMap_cons, ho]
      simp only [Option.map_some, List.map_cons]
      rw [ih fun q hq => hall q (List.mem_cons_of_mem _ hq)]
  · intro a n h
    obtain ⟨p, hp, hq⟩ := List.mem_filterMap.1 h
    obtain ⟨n', g3, g4⟩ := t1.objs p.1 p.2 (dictGet_of_mem t1.nodup hp)
    rw [g3] at hq
    simp only [Option.map_some, Option.some.injEq, Prod.mk.injEq] at hq
    rw [← hq.1, ← hq.2]
    exact g4

/-- **C67** A file whose first line that is not blank does not open a section is
rejected. -/
theorem C67_no_section {α : Type} (mk : Int → Int → Py α) (blanks : List (List Char)) (line : List Char)
    (rest : List (List Char)) (hw : ∀ b ∈ blanks, Spec.White b)
    (hl : ∃ c ∈ line, c ∉ Spec.whites) (hd : line.head? ≠ some '.') :
    elfioRead mk (blanks ++ line :: rest) = .error .attribute := by
  obtain ⟨c, hc, hcw⟩ := hl
  have hb : blanks.foldlM (rdLine mk) {} = .ok ({} : RdSt α) := by
    induction blanks with
    | nil => rfl
    | cons b bs ih =>
      rw [List.foldlM_cons, rdLine, classify_blank _ b (hw b (by simp))]
      exact ih fun x hx => hw x (List.mem_cons_of_mem _ hx)
  have hne := strip_ne_nil line c hc (by
    rw [Bool.eq_false_iff]
    exact fun h => hcw (isBlank_whites c h))
  unfold elfioRead
  rw [List.foldlM_append, hb]
  simp only [bind, Except.bind, List.foldlM_cons]
  rw [rdLine, show ({} : RdSt α).sect = none from rfl, classify, if_neg hne, if_neg hd]
  rfl

/-- A listing with two functions, one of them listed twice, code before the first
function, junk, and a section that is not code. -/
def exListing : Spec.Listing where
  functions := [.entry "10".toList 16 "old".toList "\n".toList, .blank "\n".toList,
    .entry "0x18".toList 24 "g".toList " \n".toList, .entry "10".toList 16 "f".toList "\n".toList]
  sections := [.code "init".toList [.entry "8".toList 8 "e1a00000".toList 0xe1a00000 "\n".toList],
    .other "data".toList ["10;ff\n".toList],
    .code "text".toList [.entry "10".toList 16 "1".toList 1 ";mov\n".toList, .junk "xx\n".toList,
      .entry "14".toList 20 "2".toList 2 "\n".toList, .entry "18".toList 24 "0x3".toList 3 "\n".toList]]

/-- It is well-formed. -/
example : exListing.Ok := by
  have num : ∀ (ds : List (Char × Nat)), ds ≠ [] → (∀ d ∈ ds, d ∈ Spec.hexTable) →
      Spec.Numeral (ds.map (·.1)) (ds.foldl (fun a d => 16 * a + d.2) 0) :=
    fun ds h1 h2 => ⟨ds, h1, h2, Or.inl rfl, rfl⟩
  have num' : ∀ (ds : List (Char × Nat)), ds ≠ [] → (∀ d ∈ ds, d ∈ Spec.hexTable) →
      Spec.Numeral ('0' :: 'x' :: ds.map (·.1)) (ds.foldl (fun a d => 16 * a + d.2) 0) :=
    fun ds h1 h2 => ⟨ds, h1, h2, Or.inr rfl, rfl⟩
  have n10 := num [('1', 1), ('0', 0)] (by decide) (by decide)
  have n14 := num [('1', 1), ('4', 4)] (by decide) (by decide)
  have n18 := num [('1', 1), ('8', 8)] (by decide) (by decide)
  have x18 := num' [('1', 1), ('8', 8)] (by decide) (by decide)
  have n8 := num [('8', 8)] (by decide) (by decide)
  have n1 := num [('1', 1)] (by decide) (by decide)
  have n2 := num [('2', 2)] (by decide) (by decide)
  have x3 := num' [('3', 3)] (by decide) (by decide)
  have ne := num [('e', 14), ('1', 1), ('a', 10), ('0', 0), ('0', 0), ('0', 0), ('0', 0), ('0', 0)]
    (by decide) (by decide)
  have w : Spec.White "\n".toList := by intro c hc; revert c; decide
  constructor
  · intro f hf
    simp only [exListing, List.mem_cons, List.not_mem_nil, or_false] at hf
    rcases hf with rfl | rfl | rfl | rfl
    · exact ⟨n10, by decide, by decide, w⟩
    · exact w
    · exact ⟨x18, by decide, by decide, by intro c hc; revert c; decide⟩
    · exact ⟨n10, by decide, by decide, w⟩
  · intro f hf
    simp only [exListing, List.mem_cons, List.not_mem_nil, or_false] at hf
    rcases hf with rfl | rfl | rfl
    · refine ⟨by decide, by decide, ?_⟩
      intro l hl
      simp only [List.mem_cons, List.not_mem_nil, or_false] at hl
      subst hl
      exact ⟨n8, ne, Or.inl w⟩
    · exact ⟨by decide, by decide, by decide⟩
    · refine ⟨by decide, by decide, ?_⟩
      intro l hl
      simp only [List.mem_cons, List.not_mem_nil, or_false] at hl
      rcases hl with rfl | rfl | rfl | rfl
      · exact ⟨n10, n1, Or.inr ⟨_, rfl⟩⟩
      · exact ⟨by decide, by decide⟩
      · exact ⟨n14, n2, Or.inl w⟩
      · exact ⟨n18, x3, Or.inl w⟩

example : elfioRead (fun e a => .ok (e, a)) exListing.text
    = .ok ([("f".toList, [(1, 16), (2, 20)]), ("g".toList, [(3, 24)])],
        [(0xe1a00000, 8), (1, 16), (2, 20), (3, 24)]) := by decide +kernel

/-- **C82** For every file, the instructions of the functions, one function after
the other, are the instructions of the file; if reading one fails, so does reading
the other, in the same way. -/
theorem C82_functions_partition {α : Type} (mk : Int → Int → Py α) (lines : List (List Char))
    (hl : ∀ l ∈ lines, l ≠ []) :
    (textReadFunctions mk lines).map (fun fs => fs.flatMap (·.2)) = textReadInstructions mk lines :=
  text_fold mk lines hl _ (by simp)

/-- **C82** The header lines cut every file into groups of lines. There is a first
function, for the lines before any header, and then one per header line, in order,
named by that line without its end; each has the instructions read from the lines
up to the next header. -/
theorem C82_groups {α : Type} (mk : Int → Int → Py α) (lines : List (List Char)) (hl : ∀ l ∈ lines, l ≠ [])
    (fs : List (List Char × List α)) (h : textReadFunctions mk lines = .ok fs) :
    ∃ (first : List (List Char)) (groups : List (List Char × List (List Char))) (i0 : List α)
      (tail : List (List Char × List α)),
      lines = first ++ groups.flatMap (fun g => g.1 :: g.2) ∧ (∀ l ∈ first, ¬ Spec.Header l) ∧
      (∀ g ∈ groups, Spec.Header g.1 ∧ ∀ l ∈ g.2, ¬ Spec.Header l) ∧
      textReadInstructions mk first = .ok i0 ∧ fs = ("no_method".toList, i0) :: tail ∧
      List.Forall₂ (fun g f => (∃ nls, g.1 = f.1 ++ nls ∧ (∀ c ∈ nls, c = '\n') ∧ f.1.getLast? ≠ some '\n') ∧
        textReadInstructions mk g.2 = .ok f.2) groups tail := by
  obtain ⟨first, groups, i0, tail, h1, h2, h3, h4, h5, h6⟩ := text_groups mk lines hl [] _ _ fs h
  refine ⟨first, groups, i0, tail, h1, h2, h3, h4, h5, h6.imp ?_⟩
  rintro g f ⟨e, h⟩
  exact ⟨e ▸ rstripNl_split g.1, h⟩

/-- **C82** Of well-formed lines, those that start with a space give an instruction
each, in order: the address after the colon, the encoding from its four bytes,
lowest first. -/
theorem C82_instructions {α : Type} (mk : Int → Int → Py α) (build : Int → Int → α) (lines : List Spec.TextLine)
    (hok : ∀ l ∈ lines, l.Ok) (hb : ∀ p ∈ lines.filterMap Spec.TextLine.content, mk p.1 p.2 = .ok (build p.1 p.2)) :
    textReadInstructions mk (lines.map Spec.TextLine.text)
      = .ok ((lines.filterMap Spec.TextLine.content).map fun p => build p.1 p.2) := by
  have key : ∀ acc : List α, (lines.map Spec.TextLine.text).foldlM (textInstLine mk) acc
      = .ok (acc ++ (lines.filterMap Spec.TextLine.content).map fun p => build p.1 p.2) := by
    induction lines with
    | nil => intro acc; simp; rfl
    | cons l lines ih =>
      intro acc
      have hok' := fun x hx => hok x (List.mem_cons_of_mem _ hx)
      rw [List.map_cons, List.foldlM_cons]
      cases l with
      | other t =>
        obtain ⟨h1, h2⟩ := hok (.other t) (by simp)
        have e : textInstLine mk acc (Spec.TextLine.other t).text = .ok acc := by
          unfold textInstLine Spec.TextLine.text
          split
          · exact absurd (by assumption) h1
          · rename_i e; dsimp only at e; rw [e] at h2; exact absurd rfl h2
          · rfl
        rw [e]
        simp only [bind, Except.bind]
        rw [ih hok' (fun p hp => hb p (by simpa [List.filterMap_cons, Spec.TextLine.content] using hp))]
        simp [List.filterMap_cons, Spec.TextLine.content]
      | inst s a v b0 b1 b2 b3 r =>
        have e := rdTextInst_ok mk s a v b0 b1 b2 b3 r (hok _ (by simp))
        rw [hb (_, _) (by rw [List.filterMap_cons]; exact List.mem_cons_self)] at e
        have e2 : textInstLine mk acc (Spec.TextLine.inst s a v b0 b1 b2 b3 r).text
            = (do
              let i ← rdTextInst mk (rstripNl (Spec.TextLine.inst s a v b0 b1 b2 b3 r).text)
              pure (acc ++ [i])) := rfl
        rw [e2, e]
        simp only [bind, Except.bind, pure, Except.pure]
        rw [ih hok' (fun p hp => hb p (by
          rw [List.filterMap_cons]; exact List.mem_cons_of_mem _ hp))]
        simp [Spec.TextLine.content]
  exact key []

/-- Three lines: a header, an instruction, an instruction with nothing after it. -/
example : textReadInstructions (fun e a => .ok (e, a)) ([Spec.TextLine.other ".text:00000014  <f>:\n".toList,
    .inst ".text".toList "14".toList 20 (('0', 0), ('4', 4)) (('0', 0), ('3', 3)) (('a', 10), ('0', 0))
      (('e', 14), ('1', 1)) "  mov\n".toList,
    .inst ".text".toList "18".toList 24 (('0', 0), ('0', 0)) (('0', 0), ('0', 0)) (('a', 10), ('0', 0))
      (('e', 14), ('1', 1)) "\n".toList].map Spec.TextLine.text)
    = .ok [(0xe1a00304, 20), (0xe1a00000, 24)] := by decide +kernel

/-- A file with an instruction before the header. -/
example : textReadFunctions (fun e a => .ok (e, a))
    [" .text:00000010 01 00 a0 e1  mov\n".toList, ".text:00000014  <f>:\n".toList, "\n".toList,
      " .text:00000014 00 00 a0 e1  nop\n".toList]
    = .ok [("no_method".toList, [(0xe1a00001, 16)]), (".text:00000014  <f>:".toList, [(0xe1a00000, 20)])] := by
  decide +kernel

end Verif
