import Verif.Model.CompareScript
import Verif.Proof.Readers
import Verif.Proof.Basic
import Verif.Spec.Scripts

/-!
# C110: what comparing disassembled files prints
-/

namespace Verif
open Spec

/-- The printed line for line `k`. -/
def diffRow (name : List Char) (original lines : List (List Char)) (k : Nat) : DiffRow :=
  (name, k, strip (original[k]?.getD []), strip (lines[k]?.getD []))

theorem compareFrom_eq (name : List Char) (original : List (List Char)) :
    ∀ (rest pre : List (List Char)) (diff : Nat), pre.length ≤ original.length →
    compareFrom name original rest pre.length diff =
      ((((List.range' pre.length (min original.length (pre ++ rest).length - pre.length)).filter
          fun k => decide (original[k]? ≠ (pre ++ rest)[k]?)).drop (1 - diff)).map
            (diffRow name original (pre ++ rest)),
        if original.length < (pre ++ rest).length then some .index else none) := by
  intro rest
  induction rest with
  | nil =>
    intro pre diff hp
    have : min original.length (pre ++ []).length - pre.length = 0 := by simp
    rw [this, compareFrom]
    simp [hp]
  | cons line rest ih =>
    intro pre diff hp
    rw [compareFrom]
    by_cases hk : pre.length = original.length
    · have hn : original[pre.length]? = none := by simp [hk]
      rw [hn]
      have : min original.length (pre ++ line :: rest).length - pre.length = 0 := by simp; omega
      rw [this, if_pos (by simp; omega)]
      simp
    · have hlt : pre.length < original.length := by omega
      obtain ⟨o, ho⟩ : ∃ o, original[pre.length]? = some o := ⟨_, List.getElem?_eq_getElem hlt⟩
      rw [ho]
      dsimp only
      have hl : (pre ++ line :: rest)[pre.length]? = some line := by simp
      have hr : List.range' pre.length (min original.length (pre ++ line :: rest).length - pre.length) =
          pre.length :: List.range' (pre.length + 1)
            (min original.length (pre ++ line :: rest).length - (pre.length + 1)) := by
        have : min original.length (pre ++ line :: rest).length - pre.length =
            (min original.length (pre ++ line :: rest).length - (pre.length + 1)) + 1 := by
          simp only [List.length_append, List.length_cons]; omega
        rw [this, List.range'_succ]
      have ihs := fun diff => ih (pre ++ [line]) diff (by simp; omega)
      simp only [List.append_assoc, List.singleton_append] at ihs
      simp only [show (pre ++ [line]).length = pre.length + 1 by simp] at ihs
      have hbool : decide (original[pre.length]? ≠ (pre ++ line :: rest)[pre.length]?) = decide (o ≠ line) := by
        rw [ho, hl]; simp
      rw [hr, List.filter_cons, hbool]
      by_cases hd : o = line
      · have hb : decide (o ≠ line) = false := by simpa using hd
        rw [hb, if_neg (fun h => h hd), ihs]
        simp only [Bool.false_eq_true, if_false]
      · have hb : decide (o ≠ line) = true := by simpa using hd
        rw [hb, if_pos hd, ihs]
        simp only [if_true]
        cases diff with
        | zero => simp
        | succ diff =>
          rw [if_pos (by omega)]
          have h1 : 1 - (diff + 1 + 1) = 0 := by omega
          have h2 : 1 - (diff + 1) = 0 := by omega
          rw [h1, h2]
          simp only [List.drop_zero, List.map_cons]
          have : diffRow name original (pre ++ line :: rest) pre.length = (name, pre.length, strip o, strip line) := by
            unfold diffRow; rw [ho, hl]; rfl
          rw [this]

/-- For one file: a printed line for every line that differs except the first of them,
and an `IndexError` at the end of the original if the file is longer. -/
theorem compareFrom_start (name : List Char) (original lines : List (List Char)) :
    compareFrom name original lines 0 0 =
      ((differing original lines).tail.map (diffRow name original lines),
        if original.length < lines.length then some .index else none) := by
  have := compareFrom_eq name original lines [] 0 (by simp)
  simpa [differing, List.range_eq_range', List.drop_one] using this

/-- The files before `f` are known, and those that are marked are not longer than the
original. -/
def Comparable (equals : List (List Char × Bool)) (original : List (List Char))
    (files : List (List Char × List (List Char))) : Prop :=
  ∀ f ∈ files, ∃ b, dictGet equals f.1 = some b ∧ (b = true → f.2.length ≤ original.length)

/-- What the marked ones among some files contribute. -/
def rowsOf (equals : List (List Char × Bool)) (original : List (List Char))
    (files : List (List Char × List (List Char))) : List DiffRow :=
  (files.filter fun f => decide (dictGet equals f.1 = some true)).flatMap fun f =>
    (differing original f.2).tail.map (diffRow f.1 original f.2)

theorem compareEach_append (equals : List (List Char × Bool)) (original : List (List Char)) :
    ∀ pre rest : List (List Char × List (List Char)), Comparable equals original pre →
    compareEach equals original (pre ++ rest) =
      (rowsOf equals original pre ++ (compareEach equals original rest).1, (compareEach equals original rest).2) := by
  intro pre rest
  induction pre with
  | nil => intro _; simp [rowsOf]
  | cons f pre ih =>
    intro h
    obtain ⟨b, hb, hle⟩ := h f (by simp)
    have ih := ih fun g hg => h g (by simp [hg])
    rw [List.cons_append, compareEach, hb]
    cases b with
    | false =>
      dsimp only
      rw [ih]
      simp [rowsOf, hb]
    | true =>
      dsimp only
      rw [compareFrom_start, if_neg (by have := hle rfl; omega), ih]
      simp [rowsOf, hb, List.append_assoc]

/-- **C110.**  With results that can be read, a known result for every file, and no marked
file longer than the first file, the script prints, for every file marked as equal, the
lines that differ from the line of the same number in the first file, all but the first of
them, with the number of the line and both lines, and ends without an exception. -/
theorem C110_listed {results : List (List Char)} {equals : List (List Char × Bool)}
    (he : readEquals results = .ok equals) (f : List Char × List (List Char))
    (files : List (List Char × List (List Char))) (h : Comparable equals f.2 (f :: files)) :
    compareScript results (f :: files) = (rowsOf equals f.2 (f :: files), none) := by
  unfold compareScript
  rw [he]
  dsimp only
  have := compareEach_append equals f.2 (f :: files) [] h
  rw [List.append_nil] at this
  rw [this]
  simp [compareEach]

/-- **C110.**  The script stops at the first file without a result, with a `KeyError`, and
at the first marked file that is longer than the first file, with an `IndexError` after its
common lines have been compared. -/
theorem C110_stops {results : List (List Char)} {equals : List (List Char × Bool)}
    (he : readEquals results = .ok equals) (f : List Char × List (List Char))
    (files pre post : List (List Char × List (List Char))) (g : List Char × List (List Char))
    (hsplit : f :: files = pre ++ g :: post) (h : Comparable equals f.2 pre) :
    (dictGet equals g.1 = none → compareScript results (f :: files) = (rowsOf equals f.2 pre, some .key)) ∧
    (dictGet equals g.1 = some true → f.2.length < g.2.length →
      compareScript results (f :: files) = (rowsOf equals f.2 (pre ++ [g]), some .index)) := by
  have hs : compareScript results (f :: files) = compareEach equals f.2 (f :: files) := by
    unfold compareScript; rw [he]
  rw [hs, hsplit, compareEach_append equals f.2 pre (g :: post) h]
  constructor
  · intro hg
    rw [compareEach, hg]
    simp
  · intro hg hlt
    rw [compareEach, hg]
    dsimp only
    rw [compareFrom_start, if_pos hlt]
    simp [rowsOf, hg]

/-! ### Which files are marked -/

/-- What a line of the results is about: the stripped text before the colon, up to its
first dot. -/
def Spec.baseOf (line : List Char) : List Char :=
  (strip (line.takeWhile (· ≠ ':'))).takeWhile (· ≠ '.')

/-- Whether the stripped text after the colon is `True`. -/
def Spec.saysTrue (line : List Char) : Bool :=
  decide (strip ((line.dropWhile (· ≠ ':')).drop 1) = "True".toList)

theorem splitAtChar_head (c : Char) (s : List Char) : (splitAtChar c s).head? = some (s.takeWhile (· ≠ c)) := by
  induction s with
  | nil => rfl
  | cons x s ih =>
    rw [splitAtChar]
    by_cases hx : x = c
    · simp [hx]
    · rw [if_neg hx]
      obtain ⟨p, ps, hp⟩ := List.exists_cons_of_ne_nil (splitAtChar_ne_nil c s)
      rw [hp] at ih ⊢
      simp only [List.head?_cons, Option.some.injEq] at ih
      simp [hx, ih]

theorem splitAtChar_two (c : Char) (s : List Char) (h : s.count c = 1) :
    splitAtChar c s = [s.takeWhile (· ≠ c), (s.dropWhile (· ≠ c)).drop 1] := by
  induction s with
  | nil => simp at h
  | cons x s ih =>
    rw [splitAtChar]
    by_cases hx : x = c
    · subst hx
      have h0 : x ∉ s := List.count_eq_zero.1 (by simpa using h)
      rw [if_pos rfl, splitAtChar_none x s h0]
      simp
    · rw [List.count_cons_of_ne hx] at h
      rw [if_neg hx, ih h]
      simp [hx]

theorem splitAtChar_length (c : Char) (s : List Char) : (splitAtChar c s).length = s.count c + 1 := by
  induction s with
  | nil => rfl
  | cons x s ih =>
    rw [splitAtChar]
    by_cases hx : x = c
    · rw [if_pos hx]; simp [ih, hx]
    · rw [if_neg hx]
      obtain ⟨p, ps, hp⟩ := List.exists_cons_of_ne_nil (splitAtChar_ne_nil c s)
      rw [hp] at ih ⊢
      simp only [List.length_cons] at ih ⊢
      rw [List.count_cons_of_ne hx]
      exact ih

theorem equalsLine_eq (d : List (List Char × Bool)) (line : List Char) :
    equalsLine d line = if line.count ':' = 1 then .ok (dictSet d (baseOf line ++ ".disam".toList) (saysTrue line))
      else .error .value := by
  unfold equalsLine
  split
  · rename_i key value hk
    have hlen : line.count ':' = 1 := by
      have := splitAtChar_length ':' line
      rw [hk] at this
      simp at this
      omega
    rw [if_pos hlen]
    rw [splitAtChar_two ':' line hlen] at hk
    obtain ⟨rfl, hk'⟩ := List.cons.inj hk
    obtain ⟨rfl, -⟩ := List.cons.inj hk'
    rw [splitAtChar_head]
    rfl
  · rename_i hk
    rw [if_neg]
    intro h
    exact hk _ _ (splitAtChar_two ':' line h)

/-- **C110.**  Reading the results raises a `ValueError` unless every line has exactly one
colon.  Otherwise a file has the result of the last line about it: the line whose text
before the colon, up to its first dot, is the name of the file without `.disam`. -/
theorem C110_results (lines : List (List Char)) :
    ((∃ line ∈ lines, line.count ':' ≠ 1) → readEquals lines = .error .value) ∧
    ((∀ line ∈ lines, line.count ':' = 1) → ∃ equals, readEquals lines = .ok equals ∧
      ∀ base, dictGet equals (base ++ ".disam".toList) =
        (lines.reverse.find? fun line => decide (baseOf line = base)).map saysTrue) := by
  have key : ∀ (lines : List (List Char)) (d : List (List Char × Bool)),
      ((∃ line ∈ lines, line.count ':' ≠ 1) → lines.foldlM equalsLine d = .error .value) ∧
      ((∀ line ∈ lines, line.count ':' = 1) → ∃ equals, lines.foldlM equalsLine d = .ok equals ∧
        ∀ base, dictGet equals (base ++ ".disam".toList) =
          ((lines.reverse.find? fun line => decide (baseOf line = base)).map saysTrue).or
            (dictGet d (base ++ ".disam".toList))) := by
    intro lines
    induction lines with
    | nil => intro d; exact ⟨by simp, fun _ => ⟨d, rfl, fun base => rfl⟩⟩
    | cons line lines ih =>
      intro d
      rw [List.foldlM_cons, equalsLine_eq]
      by_cases hc : line.count ':' = 1
      · rw [if_pos hc]
        obtain ⟨h1, h2⟩ := ih (dictSet d (baseOf line ++ ".disam".toList) (saysTrue line))
        constructor
        · rintro ⟨l, hl, hn⟩
          refine h1 ⟨l, ?_, hn⟩
          rcases List.mem_cons.1 hl with rfl | hl
          · exact absurd hc hn
          · exact hl
        · intro hall
          obtain ⟨equals, e1, e2⟩ := h2 fun l hl => hall l (by simp [hl])
          refine ⟨equals, e1, fun base => ?_⟩
          rw [e2, dictGet_dictSet, List.reverse_cons, List.find?_append]
          cases hf : lines.reverse.find? fun line => decide (baseOf line = base) with
          | some x => simp
          | none =>
            by_cases hb : baseOf line = base
            · simp [hb]
            · have : baseOf line ++ ".disam".toList ≠ base ++ ".disam".toList := fun h =>
                hb (List.append_cancel_right h)
              simp [hb]
      · rw [if_neg hc]
        exact ⟨fun _ => rfl, fun h => absurd (h line (by simp)) hc⟩
  obtain ⟨h1, h2⟩ := key lines []
  refine ⟨h1, fun h => ?_⟩
  obtain ⟨equals, e1, e2⟩ := h2 h
  refine ⟨equals, e1, fun base => ?_⟩
  rw [e2]
  simp [dictGet_nil]

/-! ### A concrete case

Three files marked as equal, one marked as different.  The second differs from the first
in lines 0, 1 and 3: lines 1 and 3 are printed.  The third one differs in line 2 only:
nothing is printed. -/

private def cResults : List (List Char) :=
  ["orig.bin: True\n".toList, "a.bin: True\n".toList, "b.bin : True\n".toList, "c.bin: False\n".toList]
private def cOrig : List Char × List (List Char) :=
  ("orig.disam".toList, ["w\n".toList, " x\n".toList, "y\n".toList, "z\n".toList])
private def cA : List Char × List (List Char) :=
  ("a.disam".toList, ["1\n".toList, " 2\n".toList, "y\n".toList, "3".toList])
private def cB : List Char × List (List Char) := ("b.disam".toList, ["w\n".toList, " x\n".toList, "!\n".toList])
private def cC : List Char × List (List Char) := ("c.disam".toList, ["?".toList, "?".toList])

theorem C110_case : compareScript cResults [cOrig, cA, cB, cC] =
    ([("a.disam".toList, 1, "x".toList, "2".toList), ("a.disam".toList, 3, "z".toList, "3".toList)], none) := by
  decide +kernel

/-- A longer file ends the script, and so does one without a result. -/
theorem C110_case_stops :
    compareScript cResults [cB, cA, cOrig] =
      ([("a.disam".toList, 1, "x".toList, "2".toList), ("a.disam".toList, 2, "!".toList, "y".toList)], some .index) ∧
    compareScript cResults [cOrig, ("d.disam".toList, []), cA] = ([], some .key) ∧
    compareScript ["orig: a: True".toList] [cOrig] = ([], some .value) ∧
    compareScript [] [] = ([], some .index) := by
  refine ⟨?_, ?_, ?_, ?_⟩ <;> decide +kernel

end Verif
