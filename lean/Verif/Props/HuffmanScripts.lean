import Verif.Model.HuffmanScripts
import Verif.Props.Huffman
import Verif.Props.FreqChange
import Mathlib.Algebra.BigOperators.Group.Finset.Basic
import Mathlib.Data.List.Dedup

/-!
# C108 and C109: the printed Huffman tables and sizes
-/

namespace Verif
open Spec

/-- The table counts the symbols of a message. -/
def Counts (tbl : List (Int × Nat)) (msg : List Int) : Prop :=
  (tbl.map (·.1)).Nodup ∧ ∀ k, dictGet tbl k = if msg.count k = 0 then none else some (msg.count k)

theorem counts_counter (l : List Int) : Counts (counterItems l) l := ⟨counter_nodup l, counter_get l⟩

theorem Counts.mem {tbl : List (Int × Nat)} {msg : List Int} (h : Counts tbl msg) (k : Int) :
    k ∈ tbl.map (·.1) ↔ k ∈ msg := by
  have := h.2 k
  rw [← not_iff_not, ← dictGet_eq_none, this, ← List.count_eq_zero]
  split <;> simp_all

theorem Counts.freqOf {tbl : List (Int × Nat)} {msg : List Int} (h : Counts tbl msg) (k : Int) :
    freqOf tbl k = msg.count k := by
  unfold Verif.freqOf
  rw [h.2 k]
  split <;> simp_all

theorem Counts.keys_perm {tbl : List (Int × Nat)} {msg : List Int} (h : Counts tbl msg) :
    (tbl.map (·.1)).Perm msg.dedup :=
  (List.perm_ext_iff_of_nodup h.1 (List.nodup_dedup _)).2 fun k => by rw [h.mem, List.mem_dedup]

/-- The size of a table of counts under a code is the number of bits of the message. -/
theorem Counts.totalSize {tbl : List (Int × Nat)} {msg : List Int} (h : Counts tbl msg) (code : Int → List Bool) :
    Spec.totalSize tbl code = (encodeMessage code msg).length := by
  have h1 : Spec.totalSize tbl code = ((tbl.map (·.1)).map fun k => msg.count k * (code k).length).sum := by
    unfold Spec.totalSize
    rw [List.map_map]
    congr 1
    apply List.map_congr_left
    intro p hp
    simp only [Function.comp_apply]
    rw [← h.freqOf, freqOf_mem h.1 hp]
  have h2 : (encodeMessage code msg).length = (msg.map fun k => (code k).length).sum := by
    simp [encodeMessage, List.length_flatMap]
  rw [h1, h2, Finset.sum_list_map_count msg, (h.keys_perm.map _).sum_eq,
    ← List.sum_toFinset _ (List.nodup_dedup _), show msg.dedup.toFinset = msg.toFinset by ext; simp]
  simp

theorem huffRows_eq (tbl : List (Int × Nat)) : ∀ (r : List (Int × List Bool)) (rows : List HuffRow) (n : Nat),
    huffRows tbl r (rows, n) =
      (rows ++ r.map (fun p => (p.1, freqOf tbl p.1, p.2)), n + pairCost (freqOf tbl) r) := by
  intro r
  induction r with
  | nil => intro rows n; simp [huffRows, pairCost]
  | cons p r ih =>
    intro rows n
    rw [huffRows, ih]
    simp [pairCost, freqOf, Nat.add_assoc]

theorem counterItems_ne {txt : List Int} (h : txt ≠ []) : counterItems txt ≠ [] := by
  obtain ⟨a, t, rfl⟩ := List.exists_cons_of_ne_nil h
  intro h0
  have := ((counts_counter (a :: t)).mem a).2 (by simp)
  rw [h0] at this
  simp at this

theorem Counts.length_le {tbl : List (Int × Nat)} {msg : List Int} (h : Counts tbl msg) : tbl.length ≤ msg.length := by
  have h1 := h.keys_perm.length_eq
  have h2 := (List.dedup_sublist msg).length_le
  simp only [List.length_map] at h1
  omega

/-- **C108.**  The report on a text that is not empty has one row for every symbol of the
text, with the number of its occurrences and its code, the shorter codes first and among
them the smaller symbols first.  The codes are prefix free.  The printed size is the
number of bits of the text in this code, and no prefix-free code needs fewer.  When the
text has two different symbols the text can be read back from its bits. -/
theorem C108_report (txt : List Int) (hne : txt ≠ []) (fuel : Nat) (hf : txt.length ≤ fuel) :
    ∃ (rows : List HuffRow) (size : Nat) (code : Int → List Bool),
      huffmanTest fuel txt = some (.ok (rows, size)) ∧
      (rows.map (·.1)).Perm txt.dedup ∧
      (∀ row ∈ rows, row.2.1 = txt.count row.1 ∧ row.2.2 = code row.1) ∧
      rows.Pairwise (fun p q => p.2.2.length < q.2.2.length ∨ p.2.2.length = q.2.2.length ∧ p.1 ≤ q.1) ∧
      PrefixFree txt code ∧
      size = (encodeMessage code txt).length ∧
      (∀ code' : Int → List Bool, PrefixFree txt code' → size ≤ (encodeMessage code' txt).length) ∧
      ((∃ a ∈ txt, ∃ b ∈ txt, a ≠ b) → ∀ m : List Int, (∀ s ∈ m, s ∈ txt) →
        encodeMessage code m = encodeMessage code txt → m = txt) := by
  have hc := counts_counter txt
  have hlen := hc.length_le
  obtain ⟨r, c, h1, h2, h3, h4, h5, h6⟩ := encode_run (counterItems txt) hc.1 (counterItems_ne hne) fuel (by omega)
  have hrn := h2.nodup_iff.2 hc.1
  have hsub : ∀ s ∈ txt, s ∈ (counterItems txt).map (·.1) := fun s hs => (hc.mem s).2 hs
  have hpf := prefixFree_perm h2 (free_codeOf hrn h3)
  have hpf' : PrefixFree txt (codeOf r) := fun a ha b hb => hpf a (hsub a ha) b (hsub b hb)
  refine ⟨r.map (fun p => (p.1, freqOf (counterItems txt) p.1, p.2)), c, codeOf r, ?_, ?_, ?_, ?_, hpf', ?_, ?_, ?_⟩
  · unfold huffmanTest
    rw [h1]
    simp only [Option.map_some, bind, Except.bind, pure, Except.pure]
    rw [huffRows_eq, h6]
    simp
  · rw [List.map_map]
    exact (h2.trans hc.keys_perm)
  · intro row hrow
    obtain ⟨p, hp, rfl⟩ := List.mem_map.1 hrow
    exact ⟨hc.freqOf _, (codeOf_mem hrn hp).symm⟩
  · exact List.pairwise_map.2 h4
  · rw [← hc.totalSize, ← pairCost_totalSize hc.1 h2, h6]
  · intro code' hcode'
    rw [← hc.totalSize]
    exact huff_le_code h5 _ hc.1 (List.Perm.refl _) code' fun a ha b hb =>
      hcode' a ((hc.mem a).1 ha) b ((hc.mem b).1 hb)
  · rintro ⟨a, ha, b, hb, hab⟩ m hm heq
    refine decode_unique hpf' ?_ m txt hm (fun _ h => h) heq
    intro s _
    by_cases hs : a = s
    · exact ⟨b, hb, fun h => hab (hs.trans h.symm)⟩
    · exact ⟨a, ha, hs⟩

theorem counterItems_replicate (s : Int) (n : Nat) : counterItems (List.replicate (n + 1) s) = [(s, n + 1)] := by
  induction n with
  | zero => rfl
  | succ n ih =>
    rw [List.replicate_succ', counterItems, List.foldl_append, ← counterItems, ih]
    simp [dictSet, dictGet]

/-- **C108.**  A text of one symbol is said to need no bits at all, however long it is. -/
theorem C108_single (s : Int) (n fuel : Nat) (hf : 0 < fuel) :
    huffmanTest fuel (List.replicate (n + 1) s) = some (.ok ([(s, n + 1, [])], 0)) := by
  unfold huffmanTest
  rw [counterItems_replicate, C31_single s (n + 1) fuel hf]
  simp [huffRows, dictGet, bind, Except.bind, pure, Except.pure]

/-- **C108.**  The empty text is rejected before anything is printed. -/
theorem C108_empty (fuel : Nat) (hf : 0 < fuel) : huffmanTest fuel [] = some (.error .index) := by
  unfold huffmanTest
  have : counterItems [] = [] := rfl
  rw [this, C31_empty fuel hf]
  rfl

/-- `huffman_test` of the text 1 2 1 3 1 3. -/
theorem C108_case : huffmanTest 6 [1, 2, 1, 3, 1, 3] =
    some (.ok ([(1, 3, [false]), (2, 1, [true, false]), (3, 2, [true, true])], 9)) := rfl

/-! ## The script -/

theorem freqInner_keys (p : Nat) : ∀ (items : List (Int × Nat)) (s : List (Int × Nat) × List (Int × List Nat)),
    (s.1.map (·.1)).Nodup ∧ (s.2.map (·.1)).Nodup ∧ s.1.map (·.1) = s.2.map (·.1) →
    ((items.foldl (freqInner p) s).1.map (·.1)).Nodup ∧ ((items.foldl (freqInner p) s).2.map (·.1)).Nodup ∧
      (items.foldl (freqInner p) s).1.map (·.1) = (items.foldl (freqInner p) s).2.map (·.1) := by
  intro items
  induction items with
  | nil => intro s h; exact h
  | cons kr items ih =>
    intro s ⟨h1, h2, h3⟩
    apply ih
    have hw : ∀ w : List (Int × List Nat), w = (match dictGet s.2 kr.1 with
        | none => dictSet s.2 kr.1 [p]
        | some l => if p ∈ l then s.2 else dictSet s.2 kr.1 (l ++ [p])) →
        w.map (·.1) = if kr.1 ∈ s.2.map (·.1) then s.2.map (·.1) else s.2.map (·.1) ++ [kr.1] := by
      intro w hw
      cases hg : dictGet s.2 kr.1 with
      | none =>
        rw [hg] at hw
        rw [hw]
        exact keys_dictSet _ _ _
      | some l =>
        rw [hg] at hw
        have hm : kr.1 ∈ s.2.map (·.1) := List.mem_map.2 ⟨_, dictGet_mem hg, rfl⟩
        dsimp only at hw
        split at hw
        · rw [hw, if_pos hm]
        · rw [hw]; exact keys_dictSet _ _ _
    have hf : ∀ v : Nat, (dictSet (if (dictGet s.1 kr.1).isNone then dictSet s.1 kr.1 0 else s.1) kr.1 v).map (·.1) =
        if kr.1 ∈ s.1.map (·.1) then s.1.map (·.1) else s.1.map (·.1) ++ [kr.1] := by
      intro v
      rw [keys_dictSet]
      by_cases hm : kr.1 ∈ s.1.map (·.1)
      · have : dictGet s.1 kr.1 ≠ none := fun h => (dictGet_eq_none _ _).1 h hm
        have : (dictGet s.1 kr.1).isNone = false := by
          cases h : dictGet s.1 kr.1 with
          | none => exact absurd h this
          | some => rfl
        rw [this]
        simp only [Bool.false_eq_true, if_false]
      · have : dictGet s.1 kr.1 = none := (dictGet_eq_none _ _).2 hm
        rw [this]
        simp only [Option.isNone_none, if_true]
        rw [keys_dictSet, if_neg hm, if_pos (by simp)]
    have hfst : (freqInner p s kr).1.map (·.1) =
        if kr.1 ∈ s.1.map (·.1) then s.1.map (·.1) else s.1.map (·.1) ++ [kr.1] := hf _
    have hsnd : (freqInner p s kr).2.map (·.1) =
        if kr.1 ∈ s.2.map (·.1) then s.2.map (·.1) else s.2.map (·.1) ++ [kr.1] := hw _ rfl
    have hn : ((freqInner p s kr).1.map (·.1)).Nodup := by
      rw [hfst]
      split
      · exact h1
      · rename_i hm
        exact List.nodup_append.2 ⟨h1, by simp, by
          intro a ha b hb; simp only [List.mem_singleton] at hb; subst hb; exact fun h => hm (h ▸ ha)⟩
    have he : (freqInner p s kr).1.map (·.1) = (freqInner p s kr).2.map (·.1) := by rw [hfst, hsnd, h3]
    exact ⟨hn, he ▸ hn, he⟩

theorem freqInfo_keys (x : Nat → List Int) (program : List Nat) :
    ((freqInfo x program).1.map (·.1)).Nodup ∧ ((freqInfo x program).2.map (·.1)).Nodup ∧
      (freqInfo x program).1.map (·.1) = (freqInfo x program).2.map (·.1) := by
  unfold freqInfo
  induction program using List.reverseRecOn with
  | nil => simp
  | append_singleton program p ih =>
    rw [List.foldl_append, List.foldl_cons, List.foldl_nil]
    exact freqInner_keys p _ _ ih

/-- The frequencies of a program count all the parts of its instructions. -/
theorem counts_freqInfo (x : Nat → List Int) (program : List Nat) :
    Counts (freqInfo x program).1 (program.flatMap x) := by
  refine ⟨(freqInfo_keys x program).1, fun k => ?_⟩
  rw [(C34_frequencies x program k).1, List.count_flatMap]
  rfl

theorem Counts.ne_nil {tbl : List (Int × Nat)} {msg : List Int} (h : Counts tbl msg) (hm : msg ≠ []) : tbl ≠ [] := by
  obtain ⟨a, t, rfl⟩ := List.exists_cons_of_ne_nil hm
  intro h0
  have := (h.mem a).2 (by simp)
  rw [h0] at this
  simp at this

theorem Counts.size {tbl : List (Int × Nat)} {msg : List Int} (h : Counts tbl msg) (hm : msg ≠ []) (fuel : Nat)
    (hf : msg.length ≤ fuel) : ∃ n, Shortest msg n ∧ huffmanSize fuel tbl [] = some (.ok n) := by
  have hlen := h.length_le
  obtain ⟨r, n, -, h2, -, h4, h5, h6⟩ := C32_minimal tbl h.1 (h.ne_nil hm) fuel (by omega)
  have hs : ∀ code : Int → List Bool, PrefixFree (tbl.map (·.1)) code ↔ PrefixFree msg code := fun code =>
    ⟨fun hp a ha b hb => hp a ((h.mem a).2 ha) b ((h.mem b).2 hb),
      fun hp a ha b hb => hp a ((h.mem a).1 ha) b ((h.mem b).1 hb)⟩
  refine ⟨n, ⟨⟨codeOf r, (hs _).1 h4, ?_⟩, fun code hc => ?_⟩, h2⟩
  · rw [← h.totalSize, h5]
  · rw [← h.totalSize]; exact h6 code ((hs _).2 hc)

theorem printSize_ok {fuel : Nat} {tbl : List (Int × Nat)} {n : Nat} (h : huffmanSize fuel tbl [] = some (.ok n))
    (rest : Option Printed) : printSize fuel tbl rest = rest.map fun r => (n :: r.1, r.2) := by
  unfold printSize
  rw [h]

/-- Some register of the program is smaller than the number of its different registers
less one. -/
def Spec.SmallRegister (registers : List Int) : Prop :=
  ∃ k ∈ registers, k + 1 < (registers.dedup.length : Int)

/-- **C109.**  The script prints, for the registers, the opcodes and the conditions of the
program, the least size they can be coded in.  Then, if some register is smaller than the
number of different registers less one, it ends in an `AttributeError`; otherwise it prints
the first size again.  It never prints a better one. -/
theorem C109_improver_partial (regs : Nat → List Int) (opcode cond : Nat → Int) (inst : Nat → CInst) (program : List Nat)
    (hr : program.flatMap regs ≠ []) (h0 : ∀ k ∈ program.flatMap regs, 0 ≤ k) (fuel : Nat)
    (hf : program.length ≤ fuel) (hf' : (program.flatMap regs).length ≤ fuel) :
    ∃ a o c, Shortest (program.flatMap regs) a ∧ Shortest (program.map opcode) o ∧ Shortest (program.map cond) c ∧
      (SmallRegister (program.flatMap regs) →
        improver fuel regs opcode cond inst program = some ([a, o, c], some .attribute)) ∧
      (¬ SmallRegister (program.flatMap regs) →
        improver fuel regs opcode cond inst program = some ([a, o, c, a], none)) := by
  have hp : program ≠ [] := by rintro rfl; simp at hr
  have hpos : 0 < fuel := by
    have := List.length_pos_of_ne_nil hp
    omega
  have hcr := counts_freqInfo regs program
  obtain ⟨a, ha, ha'⟩ := hcr.size hr fuel hf'
  have hm1 : ∀ g : Nat → Int, program.flatMap (fun p => [g p]) = program.map g :=
    fun g => List.flatMap_pure_eq_map g program
  have hone : ∀ g : Nat → Int, ∃ n, Shortest (program.map g) n ∧
      huffmanSize fuel (freqInfo (fun p => [g p]) program).1 [] = some (.ok n) := by
    intro g
    have hc := counts_freqInfo (fun p => [g p]) program
    rw [hm1 g] at hc
    exact hc.size (by simpa using hp) fuel (by simpa using hf)
  obtain ⟨o, ho, ho'⟩ := hone opcode
  obtain ⟨c, hc, hc'⟩ := hone cond
  refine ⟨a, o, c, ha, ho, hc, ?_⟩
  have hkeys := freqInfo_keys regs program
  let freq : List (Int × Int) := (freqInfo regs program).1.map fun e => (e.1, (e.2 : Int))
  let withPart : List (Int × List CInst) := (freqInfo regs program).2.map fun e => (e.1, e.2.map inst)
  have hk1 : freq.map (·.1) = (freqInfo regs program).1.map (·.1) := by simp [freq, Function.comp_def]
  have hk2 : withPart.map (·.1) = (freqInfo regs program).2.map (·.1) := by simp [withPart, Function.comp_def]
  obtain ⟨hyes, hno⟩ := C97_registers_refuted mockQos withPart freq (by
    intro p hp
    refine ⟨h0 p ((hcr.mem p).1 (hk1 ▸ hp)), ?_⟩
    rw [hk2, ← hkeys.2.2, ← hk1]
    exact hp) fuel hpos
  have hlen : freq.length = (program.flatMap regs).dedup.length := by
    have := hcr.keys_perm.length_eq
    simpa [freq] using this
  have hiff : SomeTrial withPart freq ↔ SmallRegister (program.flatMap regs) := by
    unfold SomeTrial SmallRegister
    rw [hlen]
    constructor
    · rintro ⟨k, hk, hlt, -⟩
      exact ⟨k, (hcr.mem k).1 (hk1 ▸ hk), hlt⟩
    · rintro ⟨k, hk, hlt⟩
      refine ⟨k, hk1 ▸ (hcr.mem k).2 hk, hlt, ?_⟩
      have hget := (C34_frequencies regs program k).2
      obtain ⟨p, hp, hkp⟩ := List.mem_flatMap.1 hk
      have hpf : p ∈ program.filter (fun p => decide (k ∈ regs p)) := by simp [hp, hkp]
      rw [if_neg (List.ne_nil_of_mem hpf)] at hget
      have hmem := dictGet_mem hget
      have hw : (k, ((program.filter (fun p => decide (k ∈ regs p))).eraseDups).map inst) ∈ withPart :=
        List.mem_map.2 ⟨_, hmem, rfl⟩
      refine ⟨_, dictGet_of_mem (hk2 ▸ hkeys.2.1) hw, ?_⟩
      intro hnil
      have := List.mem_eraseDups.2 hpf
      rw [List.map_eq_nil_iff.1 hnil] at this
      simp at this
  have hback : (freq.map fun e => (e.1, e.2.toNat)) = (freqInfo regs program).1 := by
    simp [freq, Function.comp_def]
  have hstart : improver fuel regs opcode cond inst program =
      (match changeRegisters mockQos fuel withPart freq with
        | none => none
        | some (.error e) => some ([], some e)
        | some (.ok s) => printSize fuel (s.freq.map fun e : Int × Int => (e.1, e.2.toNat)) (some ([], none))).map
          fun r : Printed => (a :: o :: c :: r.1, r.2) := by
    unfold improver
    dsimp only
    rw [printSize_ok ha', printSize_ok ho', printSize_ok hc', Option.map_map, Option.map_map]
    rfl
  rw [hstart]
  constructor
  · intro h
    rw [hyes (hiff.2 h)]
    rfl
  · intro h
    rw [hno (fun h' => h (hiff.1 h'))]
    dsimp only
    rw [hback]
    unfold printSize
    rw [ha']
    rfl

/-- **C109.**  A program that uses no register at all is rejected before anything is
printed. -/
theorem C109_no_registers (regs : Nat → List Int) (opcode cond : Nat → Int) (inst : Nat → CInst) (program : List Nat)
    (hr : program.flatMap regs = []) (fuel : Nat) (hf : 0 < fuel) :
    improver fuel regs opcode cond inst program = some ([], some .index) := by
  have hc := (counts_freqInfo regs program).length_le
  rw [hr] at hc
  have hnil : (freqInfo regs program).1 = [] := by simpa using hc
  show printSize fuel _ _ = _
  unfold printSize huffmanSize
  rw [hnil, C31_empty fuel hf]
  rfl

/-- **C109 is false of the code.**  Making the registers more frequent would shorten their
code, and the script ends in an error instead: the two instructions use registers 0, 1, 2
and 2. -/
theorem C109_refuted :
    improver 10 (fun p => if p = 0 then [0, 1] else [2, 2]) (fun _ => 13) (fun _ => 14) (fun p => ⟨0, p⟩) [0, 1] =
      some ([6, 0, 0], some .attribute) := by
  decide +kernel

/-- When the script comes to its end nothing is better. -/
theorem C109_case_same :
    improver 10 (fun p => if p = 0 then [13, 14] else [15, 15]) (fun p => p) (fun _ => 14) (fun p => ⟨0, p⟩) [0, 1] =
      some ([6, 2, 0, 6], none) := by
  decide +kernel

end Verif
