import Verif.Proof.ReaderFunctions
import Verif.Props.Readers

/-!
# C116: malformed listings

The model is in `Verif/Model/Readers.lean`, the specification in
`Verif/Spec/ReaderErrors.lean`.
-/

namespace Verif

/-- **C116** Which texts are read as numbers in base 16, and as which; of every other text
the conversion raises a value error. -/
theorem C116_number (s : List Char) :
    (∀ n, pyInt16 s = .ok n ↔ Spec.HexText s n) ∧ (∀ e, pyInt16 s = .error e ↔ e = .value ∧ ¬ ∃ n, Spec.HexText s n) :=
  ⟨fun _ => pyInt16_iff, fun _ => pyInt16_error⟩

example : pyInt16 " -0x_1_F\n".toList = .ok (-31) := by decide +kernel
example : pyInt16 "0x".toList = .error .value := by decide +kernel
example : pyInt16 "1__2".toList = .error .value := by decide +kernel
example : pyInt16 "- 1".toList = .error .value := by decide +kernel

/-- **C116** For every file with sections, reading fails exactly when there is a malformed
line for the section it is in, and the exception is that of the first such line. -/
theorem C116_sections {α : Type} (mk : Int → Int → Py α) (lines : List (List Char)) (e : Err) : elfioRead mk lines = .error e ↔
    ∃ p line q, lines = p ++ line :: q ∧ Spec.BadLine mk (Spec.sectAfter p) line e ∧
      ∀ p' line' q', p = p' ++ line' :: q' → ∀ e', ¬ Spec.BadLine mk (Spec.sectAfter p') line' e' :=
  elfio_error

/-- **C116** Of every file that is read, each line of code with two numbers gives one
instruction, made from the two numbers, and no other line gives one; the instructions are
in the order of the lines. -/
theorem C116_instructions {α : Type} (mk : Int → Int → Py α) (lines : List (List Char)) (fs : List (List Char × List α)) (is : List α)
    (h : elfioRead mk lines = .ok (fs, is)) :
    ∃ pieces : List (List α), is = pieces.flatten ∧ pieces.length = lines.length ∧
      ∀ p line q, lines = p ++ line :: q → ∃ piece, pieces[p.length]? = some piece ∧
        ((∃ v w i, Spec.CodeAt (Spec.sectAfter p) line v w ∧ mk w v = .ok i ∧ piece = [i]) ∨
         ((¬ ∃ v w, Spec.CodeAt (Spec.sectAfter p) line v w) ∧ piece = [])) :=
  elfio_insts h

/-- **C116** The functions of every file that is read, wherever its tables are: there is
one function for every address of a table, in the order in which the addresses first
appear, with the name last given to it; its instructions are, in order, those of the code
that belongs to the last entry for the address. Code belongs to the entry that was last
referred to by the address of code, there or before. -/
theorem C116_functions {α : Type} (mk : Int → Int → Py α) (lines : List (List Char)) (fs : List (List Char × List α)) (is : List α)
    (h : elfioRead mk lines = .ok (fs, is)) : ∃ items, Spec.Reads lines items ∧
      List.Forall₂ (Spec.MadeFrom mk items) (Spec.codes items) is ∧
      List.Forall₂ (fun a f => ∃ j, Spec.lastEntry (Spec.entries items) a = some j ∧ (Spec.entries items)[j]? = some (a, f.1) ∧
        List.Forall₂ (Spec.MadeFrom mk items) (Spec.placesOf items j) f.2) (Spec.firsts ((Spec.entries items).map (·.1))) fs :=
  elfio_functions h

/-- Code before any function, a table between code, and a function listed again after its
code has begun: it has what comes after its address only. -/
def lateTable : List (List Char) :=
  [".text\n".toList, "8;1\n".toList, ".functions\n".toList, "10;f \n".toList, "18;g\n".toList, ".text\n".toList,
   "10;2\n".toList, "14;3\n".toList, ".functions\n".toList, "10;h\n".toList, ".text\n".toList, "18;4\n".toList,
   "10;5\n".toList, "1c;6\n".toList]

/-- What its lines hold. -/
def lateItems : List Spec.Item :=
  [.code 8 1, .entry 16 "f".toList, .entry 24 "g".toList, .code 16 2, .code 20 3, .entry 16 "h".toList, .code 24 4, .code 16 5,
   .code 28 6]

theorem C116_functions_case : elfioRead (fun e a => .ok (e, a)) lateTable =
      .ok ([("h".toList, [(5, 16), (6, 28)]), ("g".toList, [(4, 24)])], [(1, 8), (2, 16), (3, 20), (4, 24), (5, 16), (6, 28)]) ∧
    Spec.codes lateItems = [0, 3, 4, 6, 7, 8] ∧ Spec.placesOf lateItems 0 = [3, 4] ∧ Spec.placesOf lateItems 1 = [6] ∧
    Spec.placesOf lateItems 2 = [7, 8] :=
  ⟨by decide +kernel, by decide +kernel, by decide +kernel, by decide +kernel, by decide +kernel⟩

/-- A line before any section. -/
example : elfioRead (fun e a => .ok (e, a)) ["\n".toList, "10;f\n".toList] = .error .attribute := by decide +kernel

/-- A function without a name, one with two, and one whose address is not a number. -/
example : elfioRead (fun e a => .ok (e, a)) [".functions\n".toList, "10\n".toList] = .error .value ∧
    elfioRead (fun e a => .ok (e, a)) [".functions\n".toList, "10;f;g\n".toList] = .error .value ∧
    elfioRead (fun e a => .ok (e, a)) [".functions\n".toList, "1g;f\n".toList] = .error .value :=
  ⟨by decide +kernel, by decide +kernel, by decide +kernel⟩

/-- A line of code without a semicolon is left out, one whose encoding is not a number is not. -/
example : elfioRead (fun e a => .ok (e, a)) [".text\n".toList, "10 1\n".toList, "14;2;x\n".toList] = .ok ([], [(2, 20)]) ∧
    elfioRead (fun e a => .ok (e, a)) [".text\n".toList, "10 1\n".toList, "14;x;2\n".toList] = .error .value :=
  ⟨by decide +kernel, by decide +kernel⟩

/-- What the reader of sections says of the second of these lines. -/
theorem C116_case : Spec.BadLine (fun e a => (.ok (e, a) : Py (Int × Int))) (Spec.sectAfter [".text\n".toList]) "14;x;2\n".toList .value := by
  refine ⟨fun h => absurd (h '1' (by decide)) (by decide), by decide, .inr ⟨by decide, ⟨"text".toList, by decide, by decide⟩,
    "14".toList, "x".toList, ";2\n".toList, by decide, by decide, by decide, .inr (by decide), .inl ⟨rfl, ?_⟩⟩⟩
  rintro ⟨v, w, _, h⟩
  have := pyInt16_iff.2 h
  rw [show pyInt16 "x".toList = .error .value by decide +kernel] at this
  cases this

/-- **C116** For every text listing, reading the instructions fails exactly when a line
that starts with a space is malformed, and the exception is that of the first such line;
reading the functions fails exactly then too, with the same exception. -/
theorem C116_text {α : Type} (mk : Int → Int → Py α) (lines : List (List Char)) (e : Err) (hl : ∀ l ∈ lines, l ≠ []) :
    (textReadInstructions mk lines = .error e ↔
      ∃ p line q, lines = p ++ line :: q ∧ Spec.BadText mk line e ∧ ∀ line' ∈ p, ∀ e', ¬ Spec.BadText mk line' e') ∧
    (textReadFunctions mk lines = .error e ↔
      ∃ p line q, lines = p ++ line :: q ∧ Spec.BadText mk line e ∧ ∀ line' ∈ p, ∀ e', ¬ Spec.BadText mk line' e') := by
  refine ⟨text_error hl, ?_⟩
  rw [← text_error hl, ← C82_functions_partition mk lines hl]
  cases textReadFunctions mk lines with
  | error x => exact ⟨fun h => (by cases h; rfl), fun h => (by cases h; rfl)⟩
  | ok x => exact ⟨fun h => (by cases h), fun h => (by cases h)⟩

/-- No colon, no space after the address, and bytes that are not numbers. -/
example : textReadInstructions (fun e a => .ok (e, a)) ["x\n".toList, "  text\n".toList] = .error .index ∧
    textReadInstructions (fun e a => .ok (e, a)) [" .text:10\n".toList] = .error .index ∧
    textReadInstructions (fun e a => .ok (e, a)) [" .text:10  01 00 a0 e1\n".toList] = .error .index ∧
    textReadInstructions (fun e a => .ok (e, a)) [" .text:10 01 00 a0 g1\n".toList] = .error .value ∧
    textReadInstructions (fun e a => .ok (e, a)) [" .text: 01 00 a0 e1\n".toList] = .error .value :=
  ⟨by decide +kernel, by decide +kernel, by decide +kernel, by decide +kernel, by decide +kernel⟩

/-- A blank line that starts with a space is malformed. -/
theorem C116_text_case : Spec.BadText (fun e a => (.ok (e, a) : Py (Int × Int))) " \n".toList .index :=
  ⟨[' '], ['\n'], by decide, by decide, by decide, by decide, .inl ⟨rfl, by decide⟩⟩

end Verif
