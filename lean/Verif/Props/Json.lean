import Verif.Model.Json
import Verif.Proof.PacketCorruptor

/-! # Property C25: saved programs load back -/

namespace Verif
open Spec

theorem digitChar_toNat {d : Nat} (h : d < 10) : (digitChar d).toNat = 48 + d := by
  have : ∀ d : Fin 10, (digitChar d).toNat = 48 + d := by decide
  exact this ⟨d, h⟩

theorem decimal_ne_nil (n : Nat) : decimal n ≠ [] := by
  unfold decimal
  split <;> simp

theorem fold_decimal (n : Nat) : (decimal n).foldl readDigit (some 0) = some n := by
  induction n using Nat.strongRecOn with
  | _ n ih =>
    unfold decimal
    split
    · rename_i h
      simp only [List.foldl_cons, List.foldl_nil, readDigit, Option.bind_some, digitChar_toNat h]
      rw [if_pos (by omega)]
      congr 1; omega
    · rename_i h
      have hm := Nat.mod_lt n (show 10 > 0 by omega)
      rw [List.foldl_append, ih (n / 10) (by omega)]
      simp only [List.foldl_cons, List.foldl_nil, readDigit, Option.bind_some, digitChar_toNat hm]
      rw [if_pos (by omega)]
      congr 1; omega

theorem readInt_decimal (n : Nat) : readInt (decimal n) = .ok n := by
  unfold readInt
  split
  · rename_i h; exact absurd h (decimal_ne_nil n)
  · rw [fold_decimal]

theorem loadInto_save : ∀ (prog : Program) (acc : Program),
    (∀ q ∈ prog, ∀ i ∈ q.2, i.encoding < 2 ^ 32) →
    ((acc ++ prog).map (·.1)).Nodup →
    loadInto acc (saveJson prog) =
      .ok (acc ++ prog.map fun q => (q.1, q.2.map fun i => ⟨i.encoding, q.1⟩)) := by
  intro prog
  induction prog with
  | nil => intro acc _ _; simp [saveJson, loadInto]
  | cons q prog ih =>
    intro acc henc hn
    have hset : ∀ (l : List CInst), dictSet acc q.1 l = acc ++ [(q.1, l)] := by
      intro l
      have hq : q.1 ∉ acc.map (·.1) := by
        rw [List.map_append, List.map_cons] at hn
        have := (List.nodup_append.1 hn).2.2
        intro h
        exact this _ h _ (by simp) rfl
      clear ih henc hn
      induction acc with
      | nil => rfl
      | cons x acc ih =>
        simp only [List.map_cons, List.mem_cons, not_or] at hq
        rw [dictSet, if_neg (fun h => hq.1 h.symm), ih hq.2]
        rfl
    have hm : (q.2.map (·.encoding)).mapM (fun e => mkInst e q.1) =
        .ok (q.2.map fun i => ⟨i.encoding, q.1⟩) := by
      rw [mapM_mkInst]
      · simp [Function.comp_def]
      · intro c hc
        obtain ⟨i, hi, rfl⟩ := List.mem_map.1 hc
        exact henc q (by simp) i hi
    have : saveJson (q :: prog) = (decimal q.1, q.2.map (·.encoding)) :: saveJson prog := rfl
    rw [this, loadInto, readInt_decimal]
    simp only [bind, Except.bind, hm, hset]
    rw [ih _ (fun x hx => henc x (by simp [hx])) (by simpa using hn)]
    simp

/-- **C25.**  Loading what was saved gives the same addresses in the same order
with the same encodings in the same order, each at its address. -/
theorem C25_save_load (prog : Program) (hk : (prog.map (·.1)).Nodup)
    (henc : ∀ q ∈ prog, ∀ i ∈ q.2, i.encoding < 2 ^ 32) :
    ∃ prog', loadJson (saveJson prog) = .ok prog' ∧
      prog'.map (·.1) = prog.map (·.1) ∧
      prog'.map (fun q => q.2.map (·.encoding)) = prog.map (fun q => q.2.map (·.encoding)) ∧
      (∀ q ∈ prog', ∀ i ∈ q.2, i.address = q.1) ∧
      ((∀ q ∈ prog, ∀ i ∈ q.2, i.address = q.1) → prog' = prog) := by
  refine ⟨_, loadInto_save prog [] henc (by simpa using hk), ?_, ?_, ?_, ?_⟩
  · simp [Function.comp_def]
  · simp [Function.comp_def]
  · intro q hq i hi
    simp only [List.nil_append, List.mem_map] at hq
    obtain ⟨p, _, rfl⟩ := hq
    obtain ⟨j, _, rfl⟩ := List.mem_map.1 hi
    rfl
  · intro h
    rw [List.nil_append]
    conv_rhs => rw [← List.map_id prog]
    apply List.map_congr_left
    intro q hq
    have : (q.2.map fun i => (⟨i.encoding, q.1⟩ : CInst)) = q.2 := by
      conv_rhs => rw [← List.map_id q.2]
      apply List.map_congr_left
      intro i hi
      rw [← h q hq i hi]; rfl
    rw [this]; rfl

/-- The keys in the file are pairwise different, so that no address is lost in
the JSON object. -/
theorem C25_keys_distinct (prog : Program) (hk : (prog.map (·.1)).Nodup) :
    ((saveJson prog).map (·.1)).Nodup := by
  have : (saveJson prog).map (·.1) = (prog.map (·.1)).map decimal := by
    simp [saveJson, Function.comp_def]
  rw [this]
  refine hk.map ?_
  intro a b h
  have := congrArg readInt h
  rw [readInt_decimal, readInt_decimal, Except.ok.injEq] at this
  exact this

/-- C25, foreign files: a key that is not a number is rejected, and so is a
word that does not fit four bytes. -/
theorem C25_rejections (k : List Char) (v : List Nat) (rest : JObj) :
    (∀ c ∈ k.head?, ¬ (48 ≤ c.toNat ∧ c.toNat ≤ 57)) → loadJson ((k, v) :: rest) = .error .value := by
  intro h
  have : readInt k = .error .value := by
    cases k with
    | nil => rfl
    | cons c k =>
      have hc := h c (by simp)
      have hnone : ∀ k : List Char, k.foldl readDigit none = none := by
        intro k
        induction k with
        | nil => rfl
        | cons _ _ ih => exact ih
      simp only [readInt, List.foldl_cons, readDigit, Option.bind_some, if_neg hc, hnone]
  simp only [loadJson, loadInto, this, bind, Except.bind]

/-- C25, foreign files: entries before the last change nothing about the address the last one
names.  Its words are the candidates, whatever was read for the same number before. -/
theorem C25_last_counts (data : JObj) (k : List Char) (v : List Nat) (a : Nat) (prog : Program)
    (hk : readInt k = .ok a) (h : loadJson (data ++ [(k, v)]) = .ok prog) :
    dictGet prog a = some (v.map fun e => ⟨e, a⟩) := by
  unfold loadJson at h
  have key : ∀ (data : JObj) (acc : Program), loadInto acc (data ++ [(k, v)]) = .ok prog →
      dictGet prog a = some (v.map fun e => ⟨e, a⟩) := by
    clear h
    intro data
    induction data with
    | nil =>
      intro acc h
      simp only [List.nil_append, loadInto, hk, bind, Except.bind] at h
      split at h
      · cases h
      · rename_i is his
        cases h
        rw [dictGet_dictSet, if_pos rfl]
        congr 1
        clear hk
        induction v generalizing is with
        | nil => cases his; rfl
        | cons e v ih =>
          rw [List.mapM_cons] at his
          unfold mkInst at his
          split at his
          · cases hv : v.mapM (fun e => mkInst e a) with
            | error x => unfold mkInst at hv; rw [hv] at his; cases his
            | ok t =>
              have := ih t hv
              unfold mkInst at hv
              rw [hv] at his
              cases his
              rw [this]; rfl
          · cases his
    | cons q data ih =>
      intro acc h
      rw [List.cons_append, loadInto] at h
      simp only [bind, Except.bind] at h
      split at h
      · cases h
      · split at h
        · cases h
        · exact ih _ h
  exact key data [] h

/-- Two spellings of the number 4: the second one counts, and there is one entry only. -/
theorem C25_last_counts_case :
    loadJson [(['4'], [7]), (['0', '4'], [8, 9])] = .ok [(4, [⟨8, 4⟩, ⟨9, 4⟩])] := by
  decide +kernel

example : saveJson [(100, [⟨7, 100⟩, ⟨8, 100⟩]), (4, [])] =
      [(['1', '0', '0'], [7, 8]), (['4'], [])] ∧
    loadJson [(['1', '0', '0'], [7, 8]), (['4'], [])] =
      .ok [(100, [⟨7, 100⟩, ⟨8, 100⟩]), (4, [])] ∧
    loadJson [(['x'], [7])] = .error .value ∧
    loadJson [(['1'], [0x100000000])] = .error .overflow := by decide +kernel

end Verif
