import Verif.Props.Json

/-! # C130: saving a program that was loaded -/

namespace Verif
open Spec

theorem keys_set_nodup {β : Type} (d : List (Nat × β)) (k : Nat) (v : β) (h : (d.map (·.1)).Nodup) :
    ((dictSet d k v).map (·.1)).Nodup ∧ ∀ a, a ∈ (dictSet d k v).map (·.1) ↔ a ∈ d.map (·.1) ∨ a = k := by
  induction d with
  | nil => simp [dictSet]
  | cons p t ih =>
    simp only [List.map_cons, List.nodup_cons] at h
    unfold dictSet
    split
    · rename_i e
      subst e
      refine ⟨by simpa using h, fun a => ?_⟩
      simp only [List.map_cons, List.mem_cons]
      tauto
    · rename_i e
      obtain ⟨h1, h2⟩ := ih h.2
      refine ⟨?_, fun a => ?_⟩
      · simp only [List.map_cons, List.nodup_cons, h2]
        exact ⟨fun hh => hh.elim h.1 e, h1⟩
      · simp only [List.map_cons, List.mem_cons, h2]
        tauto

theorem mem_set {β : Type} {d : List (Nat × β)} {k : Nat} {v : β} {q : Nat × β} (h : q ∈ dictSet d k v) :
    q ∈ d ∨ q = (k, v) := by
  induction d with
  | nil => exact Or.inr (by simpa [dictSet] using h)
  | cons p t ih =>
    unfold dictSet at h
    split at h
    · rcases List.mem_cons.1 h with h | h
      · exact Or.inr h
      · exact Or.inl (List.mem_cons_of_mem _ h)
    · rcases List.mem_cons.1 h with h | h
      · exact Or.inl (h ▸ List.mem_cons_self)
      · exact (ih h).imp (List.mem_cons_of_mem _) id

/-- What loading leaves. -/
def Loaded (p : Program) : Prop :=
  (p.map (·.1)).Nodup ∧ ∀ q ∈ p, ∀ i ∈ q.2, i.address = q.1 ∧ i.encoding < 2 ^ 32

theorem mapM_words {a : Nat} : ∀ {v : List Nat} {l : List CInst}, v.mapM (fun e => mkInst e a) = .ok l →
    l = v.map (fun e => ⟨e, a⟩) ∧ ∀ e ∈ v, e < 2 ^ 32 := by
  intro v
  induction v with
  | nil => intro l h; cases h; simp
  | cons e v ih =>
    intro l h
    rw [List.mapM_cons] at h
    unfold mkInst at h
    by_cases he : e < 2 ^ 32
    · simp only [he, if_true, bind, Except.bind] at h
      split at h
      · cases h
      · rename_i l' hl'
        obtain ⟨rfl, h2⟩ := ih hl'
        cases h
        exact ⟨rfl, by simpa using ⟨he, h2⟩⟩
    · simp only [he, if_false, bind, Except.bind] at h
      cases h

theorem loaded_into : ∀ (data : JObj) (acc p : Program), Loaded acc → loadInto acc data = .ok p → Loaded p := by
  intro data
  induction data with
  | nil => intro acc p h hp; cases hp; exact h
  | cons d data ih =>
    intro acc p h hp
    obtain ⟨k, v⟩ := d
    simp only [loadInto, bind, Except.bind] at hp
    split at hp
    · cases hp
    · rename_i a ha
      split at hp
      · cases hp
      · rename_i is his
        refine ih _ p ⟨(keys_set_nodup acc a is h.1).1, fun q hq i hi => ?_⟩ hp
        rcases mem_set hq with hq | rfl
        · exact h.2 q hq i hi
        · obtain ⟨rfl, h2⟩ := mapM_words his
          obtain ⟨e, he, rfl⟩ := List.mem_map.1 hi
          exact ⟨rfl, h2 e he⟩

/-- **C130, loading again.**  Whatever file was loaded, saving the program and
loading it again gives the same program. -/
theorem C130_load_again (data : JObj) (prog : Program) (h : loadJson data = .ok prog) :
    loadJson (saveJson prog) = .ok prog := by
  have hl := loaded_into data [] prog ⟨by simp, by simp⟩ h
  obtain ⟨p', h1, -, -, -, h5⟩ := C25_save_load prog hl.1 fun q hq i hi => (hl.2 q hq i hi).2
  rw [h1, h5 fun q hq i hi => (hl.2 q hq i hi).1]

theorem digit_eq {c : Char} (h : 48 ≤ c.toNat ∧ c.toNat ≤ 57) : digitChar (c.toNat - 48) = c := by
  unfold digitChar
  rw [show 48 + (c.toNat - 48) = c.toNat by omega, Char.ofNat_toNat]

theorem fold_none (k : List Char) : k.foldl readDigit none = none := by
  induction k with
  | nil => rfl
  | cons _ _ ih => exact ih

theorem fold_ge (k : List Char) : ∀ m n, k.foldl readDigit (some m) = some n → m ≤ n := by
  induction k with
  | nil => intro m n h; simp at h; omega
  | cons c k ih =>
    intro m n h
    simp only [List.foldl_cons, readDigit, Option.bind_some] at h
    split at h
    · have := ih _ _ h; omega
    · rw [fold_none] at h; cases h

/-- A text of digits without a leading zero is the decimal text of its value. -/
theorem decimal_fold (k : List Char) : ∀ n, k ≠ [] → k.foldl readDigit (some 0) = some n →
    (k.head? = some '0' → k = ['0']) → decimal n = k := by
  induction k using List.reverseRecOn with
  | nil => intro n h; exact absurd rfl h
  | append_singleton t c ih =>
    intro n _ h hz
    rw [List.foldl_append] at h
    cases ht : t.foldl readDigit (some 0) with
    | none => rw [ht] at h; simp [readDigit] at h
    | some m =>
      rw [ht] at h
      simp only [List.foldl_cons, List.foldl_nil, readDigit, Option.bind_some] at h
      split at h
      · rename_i hc
        simp only [Option.some.injEq] at h
        subst h
        cases t with
        | nil =>
          have : m = 0 := by simpa using ht.symm
          subst this
          unfold decimal
          rw [if_pos (by omega), show 10 * 0 + (c.toNat - 48) = c.toNat - 48 by omega, digit_eq hc]
          rfl
        | cons x t =>
          have hx : x ≠ '0' := by
            rintro rfl
            have := hz rfl
            simp at this
          have hm : 0 < m := by
            simp only [List.foldl_cons, readDigit, Option.bind_some] at ht
            split at ht
            · rename_i hxd
              have := fold_ge t _ _ ht
              have : x.toNat ≠ 48 := fun e => hx (by
                have h1 := Char.ofNat_toNat x
                rw [e] at h1
                exact h1.symm)
              omega
            · rw [fold_none] at ht; cases ht
          have hd := ih m (by simp) ht fun h0 => absurd (by simpa using h0) hx
          unfold decimal
          rw [if_neg (by omega), show (10 * m + (c.toNat - 48)) / 10 = m by omega,
            show (10 * m + (c.toNat - 48)) % 10 = c.toNat - 48 by omega, hd, digit_eq hc]
      · cases h

theorem readInt_fold {k : List Char} {n : Nat} (h : readInt k = .ok n) : k ≠ [] ∧ k.foldl readDigit (some 0) = some n := by
  unfold readInt at h
  split at h
  · cases h
  · rename_i hk
    refine ⟨fun e => hk e, ?_⟩
    split at h
    · rename_i m hm; cases h; exact hm
    · cases h

theorem decimal_head (n : Nat) : (decimal n).head? = some '0' → decimal n = ['0'] := by
  induction n using Nat.strongRecOn with
  | _ n ih =>
    unfold decimal
    split
    · intro h; simpa using h
    · intro h
      have hd := ih (n / 10) (by omega)
      have hne := decimal_ne_nil (n / 10)
      rw [List.head?_append_of_ne_nil _ hne] at h
      have h0 := hd h
      have := readInt_decimal (n / 10)
      rw [h0] at this
      have h1 : readInt ['0'] = .ok 0 := by decide +kernel
      rw [h1, Except.ok.injEq] at this
      omega

theorem loadInto_fresh : ∀ (data : JObj) (acc p : Program), loadInto acc data = .ok p →
    (∀ d ∈ data, d.1.head? = some '0' → d.1 = ['0']) → (data.map (·.1)).Nodup →
    (∀ d ∈ data, ∀ q ∈ acc, decimal q.1 ≠ d.1) → saveJson p = saveJson acc ++ data := by
  intro data
  induction data with
  | nil => intro acc p h; cases h; simp
  | cons d data ih =>
    intro acc p hp hz hn hf
    obtain ⟨k, v⟩ := d
    simp only [loadInto, bind, Except.bind] at hp
    split at hp
    · cases hp
    · rename_i a ha
      split at hp
      · cases hp
      · rename_i is his
        obtain ⟨rfl, h2⟩ := mapM_words his
        have hk : decimal a = k := decimal_fold k a (readInt_fold ha).1 (readInt_fold ha).2 (hz (k, v) (by simp))
        have hset : ∀ l : List CInst, dictSet acc a l = acc ++ [(a, l)] := by
          intro l
          have : ∀ q ∈ acc, q.1 ≠ a := fun q hq e => hf (k, v) (by simp) q hq (by rw [e]; exact hk)
          clear ih hp hf
          induction acc with
          | nil => rfl
          | cons x acc ih =>
            rw [dictSet, if_neg (this x (by simp)), ih fun q hq => this q (by simp [hq])]
            rfl
        rw [hset] at hp
        simp only [List.map_cons, List.nodup_cons] at hn
        have := ih _ p hp (fun d hd => hz d (by simp [hd])) hn.2 (by
          intro d hd q hq
          rcases List.mem_append.1 hq with hq | hq
          · exact hf d (by simp [hd]) q hq
          · have : q = (a, v.map fun e => ⟨e, a⟩) := by simpa using hq
            subst this
            rw [hk]
            rintro rfl
            exact hn.1 (List.mem_map.2 ⟨d, hd, rfl⟩))
        rw [this]
        simp [saveJson, hk, Function.comp_def]

/-- **C130, the same file.**  Saving the loaded program gives the same object as
was loaded exactly when no address is written with leading zeros and no key is
there twice. -/
theorem C130_same_file (data : JObj) (prog : Program) (h : loadJson data = .ok prog) :
    saveJson prog = data ↔
      (∀ d ∈ data, d.1.head? = some '0' → d.1 = ['0']) ∧ (data.map (·.1)).Nodup := by
  constructor
  · intro e
    have hl := loaded_into data [] prog ⟨by simp, by simp⟩ h
    rw [← e]
    refine ⟨fun d hd => ?_, C25_keys_distinct prog hl.1⟩
    obtain ⟨q, -, rfl⟩ := List.mem_map.1 hd
    exact decimal_head q.1
  · intro ⟨h1, h2⟩
    have := loadInto_fresh data [] prog h h1 h2 (by simp)
    simpa [saveJson] using this

/-- A file that is reproduced, and one that is not but stays the same from then on. -/
theorem C130_case :
    loadJson [("100".toList, [7, 8]), ("4".toList, [])] = .ok [(100, [⟨7, 100⟩, ⟨8, 100⟩]), (4, [])] ∧
    saveJson [(100, [⟨7, 100⟩, ⟨8, 100⟩]), (4, [])] = [("100".toList, [7, 8]), ("4".toList, [])] ∧
    loadJson [("04".toList, [7]), ("4".toList, [8])] = .ok [(4, [⟨8, 4⟩])] ∧
    saveJson [(4, [⟨8, 4⟩])] = [("4".toList, [8])] := by decide +kernel

end Verif
