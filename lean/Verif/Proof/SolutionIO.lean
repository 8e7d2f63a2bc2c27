import Verif.Model.SolutionIO
import Verif.Spec.SolutionIO
import Verif.Proof.Basic

/-! Lemmas about solution files. -/

namespace Verif
open Spec

theorem leBytes_four (n : Nat) : leBytes 4 n = le32 n := by
  simp only [leBytes, le32, Nat.div_div_eq_div_mul]

theorem le32_length (n : Nat) : (le32 n).length = 4 := rfl

theorem leVal_le32 {n : Nat} (h : n < 2 ^ 32) : leVal (le32 n) = n := by
  simp only [le32, leVal, UInt8.toNat_ofNat']
  omega

theorem leVal_lt : ∀ bs : Bytes, leVal bs < 256 ^ bs.length := by
  intro bs
  induction bs with
  | nil => simp [leVal]
  | cons b bs ih =>
    have := b.toNat_lt
    simp only [leVal, List.length_cons, Nat.pow_succ]
    omega

theorem readLE_append {n : Nat} (h : n < 2 ^ 32) (rest : Bytes) :
    readLE 4 (le32 n ++ rest) = .ok (n, rest) := by
  unfold readLE
  rw [if_neg (by simp [le32_length])]
  rw [List.take_left' (le32_length n), List.drop_left' (le32_length n), leVal_le32 h]

theorem readLE_more {k : Nat} {bs : Bytes} {r : Nat × Bytes} (h : readLE k bs = .ok r) (u : Bytes) :
    readLE k (bs ++ u) = .ok (r.1, r.2 ++ u) := by
  unfold readLE at *
  split at h
  · simp at h
  · rename_i hl
    simp only [Except.ok.injEq] at h
    subst h
    rw [if_neg (by rw [List.length_append]; omega)]
    rw [List.take_append_of_le_length (by omega), List.drop_append_of_le_length (by omega)]

theorem readLE_four_lt {bs : Bytes} {r : Nat × Bytes} (h : readLE 4 bs = .ok r) : r.1 < 2 ^ 32 := by
  unfold readLE at h
  split at h
  · simp at h
  · rename_i hl
    simp only [Except.ok.injEq] at h
    subst h
    have := leVal_lt (bs.take 4)
    rw [List.length_take, Nat.min_eq_left (by omega)] at this
    exact this

theorem bind_ok {α β : Type} {m : Py α} {f : α → Py β} {b : β} :
    (m >>= f) = .ok b ↔ ∃ a, m = .ok a ∧ f a = .ok b := by
  cases m with
  | error e => simp [bind, Except.bind]
  | ok a => simp [bind, Except.bind]

theorem readInsts_more (addr : Nat) : ∀ (n : Nat) (bs : Bytes) (r : List CInst × Bytes),
    readInsts addr n bs = .ok r → ∀ u, readInsts addr n (bs ++ u) = .ok (r.1, r.2 ++ u) := by
  intro n
  induction n with
  | zero => intro bs r h u; simp only [readInsts, Except.ok.injEq] at h; subst h; rfl
  | succ n ih =>
    intro bs r h u
    rw [readInsts, bind_ok] at h
    obtain ⟨x, h1, h⟩ := h
    rw [bind_ok] at h
    obtain ⟨c, h2, h⟩ := h
    rw [bind_ok] at h
    obtain ⟨r', h3, h⟩ := h
    simp only [pure, Except.pure, Except.ok.injEq] at h
    subst h
    rw [readInsts, readLE_more h1 u]
    simp only [bind, Except.bind, h2, ih _ _ h3 u]
    rfl

theorem readEntries_more : ∀ (n : Nat) (bs : Bytes) (s : Program × Program)
    (r : (Program × Program) × Bytes), readEntries n bs s = .ok r →
    ∀ u, readEntries n (bs ++ u) s = .ok (r.1, r.2 ++ u) := by
  intro n
  induction n with
  | zero => intro bs s r h u; simp only [readEntries, Except.ok.injEq] at h; subst h; rfl
  | succ n ih =>
    intro bs s r h u
    rw [readEntries, bind_ok] at h
    obtain ⟨a, h1, h⟩ := h
    rw [bind_ok] at h
    obtain ⟨c, h2, h⟩ := h
    rw [readEntries, readLE_more h1 u]
    simp only [bind, Except.bind, readLE_more h2 u]
    split at h
    · rename_i hc
      rw [if_pos hc]
      rw [bind_ok] at h
      obtain ⟨r', h3, h⟩ := h
      rw [bind_ok] at h
      obtain ⟨l, h4, h⟩ := h
      rw [bind_ok] at h
      obtain ⟨o, h5, h⟩ := h
      rw [readInsts_more _ _ _ _ h3 u]
      simp only [h4, h5]
      exact ih _ _ _ h u
    · rename_i hc
      rw [if_neg hc]
      exact ih _ _ _ h u

/-- Reading more bytes does not change what was read. -/
theorem readFrom_more {bs : Bytes} {r : (Program × Program) × Bytes} (h : readFrom bs = .ok r)
    (u : Bytes) : readFrom (bs ++ u) = .ok (r.1, r.2 ++ u) := by
  unfold readFrom at *
  rw [bind_ok] at h
  obtain ⟨m, h1, h⟩ := h
  rw [readLE_more h1 u]
  simp only [bind, Except.bind]
  split at h
  · simp at h
  · rename_i hm
    rw [if_neg hm]
    have h' := (bind_ok (m := readLE 4 m.2)
      (f := fun n => readEntries n.1 n.2 ([], []))).1 h
    obtain ⟨n, h2, h3⟩ := h'
    rw [readLE_more h2 u]
    exact readEntries_more _ _ _ _ h3 u

theorem readInsts_words (addr : Nat) : ∀ (ws : List Nat) (rest : Bytes), (∀ w ∈ ws, w < 2 ^ 32) →
    readInsts addr ws.length (ws.flatMap le32 ++ rest) = .ok (ws.map fun w => ⟨w, addr⟩, rest) := by
  intro ws
  induction ws with
  | nil => intro rest _; rfl
  | cons w ws ih =>
    intro rest h
    rw [List.length_cons, readInsts, List.flatMap_cons, List.append_assoc,
      readLE_append (h w (by simp))]
    simp only [bind, Except.bind, mkInst, if_pos (h w (by simp)),
      ih rest fun x hx => h x (by simp [hx])]
    rfl

/-- The program that a list of entries stands for. -/
def entriesProgram (es : List (Nat × List Nat)) : Program :=
  es.map fun e => (e.1, e.2.map fun w => ⟨w, e.1⟩)

/-- The original program that a list of entries stands for: the last words. -/
def entriesOriginal (es : List (Nat × List Nat)) : Program :=
  es.map fun e => (e.1, [⟨e.2.getLast?.getD 0, e.1⟩])

theorem dictSet_new {β : Type} (d : List (Nat × β)) (k : Nat) (v : β) (h : k ∉ d.map (·.1)) :
    dictSet d k v = d ++ [(k, v)] := by
  induction d with
  | nil => rfl
  | cons x d ih =>
    simp only [List.map_cons, List.mem_cons, not_or] at h
    rw [dictSet, if_neg (fun e => h.1 e.symm), ih h.2]
    rfl

theorem readEntries_file : ∀ (es : List (Nat × List Nat)) (rest : Bytes) (o p : Program),
    (∀ e ∈ es, entryFits e) → ((p.map (·.1)) ++ es.map (·.1)).Nodup → o.map (·.1) = p.map (·.1) →
    readEntries es.length (es.flatMap entryBytes ++ rest) (o, p) =
      .ok ((o ++ entriesOriginal es, p ++ entriesProgram es), rest) := by
  intro es
  induction es with
  | nil => intro rest o p _ _ _; simp [readEntries, entriesOriginal, entriesProgram]
  | cons e es ih =>
    intro rest o p hf hn hop
    obtain ⟨h1, h2, h3, h4⟩ := hf e (by simp)
    rw [List.length_cons, readEntries, List.flatMap_cons]
    have : (entryBytes e ++ es.flatMap entryBytes) ++ rest =
        le32 e.1 ++ (le32 e.2.length ++ (e.2.flatMap le32 ++ (es.flatMap entryBytes ++ rest))) := by
      simp [entryBytes]
    rw [this, readLE_append h1]
    simp only [bind, Except.bind, readLE_append h3]
    rw [if_pos h2, readInsts_words _ _ _ h4]
    have hlast : pyGet (e.2.map fun w => (⟨w, e.1⟩ : CInst)) ((e.2.length : Int) - 1) =
        .ok ⟨e.2.getLast?.getD 0, e.1⟩ := by
      have hk : ((e.2.length : Int) - 1) = ((e.2.length - 1 : Nat) : Int) := by omega
      rw [hk, pyGet_nat _ _ (by simp; omega)]
      congr 1
      rw [List.getElem_map]
      congr 1
      rw [List.getLast?_eq_getElem?, List.getElem?_eq_getElem (by omega), Option.getD_some]
    have hlt : e.2.getLast?.getD 0 < 2 ^ 32 := by
      cases hl : e.2.getLast? with
      | none => simp
      | some w => exact h4 w (List.mem_of_getLast? hl)
    simp only [hlast, mkInst, if_pos hlt]
    have hnew : e.1 ∉ p.map (·.1) := by
      intro h
      exact (List.nodup_append.1 hn).2.2 _ h _ (by simp) rfl
    rw [dictSet_new _ _ _ hnew, dictSet_new _ _ _ (by rw [hop]; exact hnew)]
    rw [ih _ _ _ (fun x hx => hf x (by simp [hx])) (by simpa using hn) (by simp [hop])]
    simp [entriesOriginal, entriesProgram]

theorem header_eq : leBytes 8 magicWord = header := by decide

theorem readFrom_file (es : List (Nat × List Nat)) (hf : ∀ e ∈ es, entryFits e)
    (hn : (es.map (·.1)).Nodup) (hl : es.length < 2 ^ 32) (rest : Bytes) :
    readFrom (solutionFile es ++ rest) = .ok ((entriesOriginal es, entriesProgram es), rest) := by
  unfold readFrom solutionFile
  have h8 : readLE 8 (header ++ (le32 es.length ++ (es.flatMap entryBytes ++ rest))) =
      .ok (magicWord, le32 es.length ++ (es.flatMap entryBytes ++ rest)) := by
    unfold readLE
    rw [if_neg (by simp [header])]
    rw [List.take_left' (show header.length = 8 from rfl), List.drop_left' (show header.length = 8 from rfl)]
    congr 2
  rw [List.append_assoc, List.append_assoc, h8]
  simp only [bind, Except.bind]
  rw [if_neg (by simp), readLE_append hl]
  have := readEntries_file es rest [] [] hf (by simpa using hn) rfl
  simpa using this

/-! ### Without the requirement that addresses differ -/

theorem readEntries_length : ∀ (es : List (Nat × List Nat)) (rest : Bytes) (s : Program × Program),
    (∀ e ∈ es, entryFits e) →
    ∃ s', readEntries es.length (es.flatMap entryBytes ++ rest) s = .ok (s', rest) := by
  intro es
  induction es with
  | nil => intro rest s _; exact ⟨s, rfl⟩
  | cons e es ih =>
    intro rest s hf
    obtain ⟨h1, h2, h3, h4⟩ := hf e (by simp)
    rw [List.length_cons, readEntries, List.flatMap_cons]
    have : (entryBytes e ++ es.flatMap entryBytes) ++ rest =
        le32 e.1 ++ (le32 e.2.length ++ (e.2.flatMap le32 ++ (es.flatMap entryBytes ++ rest))) := by
      simp [entryBytes]
    rw [this, readLE_append h1]
    simp only [bind, Except.bind, readLE_append h3]
    rw [if_pos h2, readInsts_words _ _ _ h4]
    have hk : ((e.2.length : Int) - 1) = ((e.2.length - 1 : Nat) : Int) := by omega
    dsimp only
    rw [hk, pyGet_nat _ _ (by simp; omega)]
    dsimp only
    rw [List.getElem_map]
    have hlt : e.2[e.2.length - 1] < 2 ^ 32 := h4 _ (List.getElem_mem _)
    simp only [mkInst, if_pos hlt]
    exact ih _ _ fun x hx => hf x (by simp [hx])

theorem readFrom_all (es : List (Nat × List Nat)) (hf : ∀ e ∈ es, entryFits e)
    (hl : es.length < 2 ^ 32) : ∃ s, readFrom (solutionFile es) = .ok (s, []) := by
  obtain ⟨s, hs⟩ := readEntries_length es [] ([], []) hf
  refine ⟨s, ?_⟩
  unfold readFrom solutionFile
  have h8 : readLE 8 (header ++ (le32 es.length ++ (es.flatMap entryBytes ++ []))) =
      .ok (magicWord, le32 es.length ++ (es.flatMap entryBytes ++ [])) := by
    unfold readLE
    rw [if_neg (by simp [header])]
    rw [List.take_left' (show header.length = 8 from rfl), List.drop_left' (show header.length = 8 from rfl)]
    congr 2
  have happ : header ++ le32 es.length ++ es.flatMap entryBytes =
      header ++ (le32 es.length ++ (es.flatMap entryBytes ++ [])) := by simp
  rw [happ, h8]
  simp only [bind, Except.bind]
  rw [if_neg (by simp), readLE_append hl]
  exact hs

/-- A strict prefix of a file is rejected. -/
theorem prefix_rejected (es : List (Nat × List Nat)) (hf : ∀ e ∈ es, entryFits e)
    (hl : es.length < 2 ^ 32) (t u : Bytes) (h : solutionFile es = t ++ u) (hu : u ≠ []) :
    ∃ e, readSolution t = .error e := by
  unfold readSolution
  cases hr : readFrom t with
  | error e => exact ⟨e, rfl⟩
  | ok r =>
    exfalso
    have h1 := readFrom_more hr u
    obtain ⟨s, hs⟩ := readFrom_all es hf hl
    rw [← h, hs] at h1
    simp only [Except.ok.injEq, Prod.mk.injEq] at h1
    exact hu (List.append_eq_nil_iff.1 h1.2.symm).2

/-! ### Writing -/

theorem writeInt_ok {n : Nat} (h : n < 2 ^ 32) : writeInt n = (le32 n, .ok ()) := by
  unfold writeInt
  rw [if_pos h, leBytes_four]

theorem writeInt_bad {n : Nat} (h : ¬ n < 2 ^ 32) : writeInt n = ([], .error .struct) := by
  unfold writeInt
  rw [if_neg h]

theorem seq_ok {α β : Type} (b : Bytes) (a : α) (f : α → Wr β) :
    Wr.seq (b, .ok a) f = (b ++ (f a).1, (f a).2) := rfl

theorem seq_err {α β : Type} (b : Bytes) (e : Err) (f : α → Wr β) :
    Wr.seq (b, (.error e : Py α)) f = (b, .error e) := rfl

theorem writeAll_spec : ∀ ws : List Nat,
    ((∀ w ∈ ws, w < 2 ^ 32) → writeAll ws = (ws.flatMap le32, .ok ())) ∧
    ((∃ w ∈ ws, ¬ w < 2 ^ 32) → ∃ k, k < ws.length ∧
      writeAll ws = ((ws.take k).flatMap le32, .error .struct) ∧ ∀ w ∈ ws.take k, w < 2 ^ 32) := by
  intro ws
  induction ws with
  | nil => exact ⟨fun _ => rfl, fun ⟨w, h, _⟩ => by simp at h⟩
  | cons w ws ih =>
    constructor
    · intro h
      rw [writeAll, writeInt_ok (h w (by simp)), seq_ok, ih.1 fun x hx => h x (by simp [hx])]
      rfl
    · intro h
      by_cases hw : w < 2 ^ 32
      · obtain ⟨x, hx, hx'⟩ := h
        have : x ∈ ws := by
          rcases List.mem_cons.1 hx with rfl | h
          · exact absurd hw hx'
          · exact h
        obtain ⟨k, h1, h2, h3⟩ := ih.2 ⟨x, this, hx'⟩
        refine ⟨k + 1, by simp; omega, ?_, ?_⟩
        · rw [writeAll, writeInt_ok hw, seq_ok, h2]
          rfl
        · intro y hy
          rw [List.take_succ_cons] at hy
          rcases List.mem_cons.1 hy with rfl | hy
          · exact hw
          · exact h3 y hy
      · exact ⟨0, by simp, by rw [writeAll, writeInt_bad hw, seq_err]; rfl, by simp⟩

theorem findOri_ok {orig : Program} {k : Nat} {o : CInst} {os : List CInst}
    (ho : dictGet orig k = some (o :: os)) : ∀ (v : List CInst) (i : Nat),
    (o.encoding ∈ v.map (·.encoding) →
      ∃ j, findOri orig k v i = .ok (some (i + j)) ∧ j < v.length ∧
        (v.take (j + 1)).map (·.encoding) = upTo o.encoding (v.map (·.encoding))) ∧
    (o.encoding ∉ v.map (·.encoding) → findOri orig k v i = .ok none) := by
  intro v
  induction v with
  | nil => intro i; exact ⟨fun h => by simp at h, fun _ => rfl⟩
  | cons c cs ih =>
    intro i
    by_cases hc : c.encoding = o.encoding
    · refine ⟨fun _ => ⟨0, ?_, by simp, ?_⟩, fun h => ?_⟩
      · simp only [findOri, ho, if_pos hc, Nat.add_zero]
      · simp [upTo, hc]
      · exact absurd (by simp [hc]) h
    · constructor
      · intro h
        have h' : o.encoding ∈ cs.map (·.encoding) := by
          rw [List.map_cons] at h
          rcases List.mem_cons.1 h with h | h
          · exact absurd h.symm hc
          · exact h
        obtain ⟨j, h1, h2, h3⟩ := (ih (i + 1)).1 h'
        refine ⟨j + 1, ?_, by simp; omega, ?_⟩
        · simp only [findOri, ho, if_neg hc]
          rw [h1]
          congr 2; omega
        · rw [List.take_succ_cons, List.map_cons, h3, List.map_cons]
          simp only [upTo, if_neg hc]
      · intro h
        have h' : o.encoding ∉ cs.map (·.encoding) := by
          intro hm; exact h (by simp [hm])
        simp only [findOri, ho, if_neg hc]
        exact (ih (i + 1)).2 h'

theorem upTo_length_pos {e : Nat} {l : List Nat} (h : e ∈ l) : 0 < (upTo e l).length := by
  cases l with
  | nil => simp at h
  | cons x xs => unfold upTo; split <;> simp

theorem upTo_getLast {e : Nat} {l : List Nat} (h : e ∈ l) : (upTo e l).getLast? = some e := by
  induction l with
  | nil => simp at h
  | cons x xs ih =>
    unfold upTo
    split
    · rename_i hx; simp [hx]
    · rename_i hx
      have h' : e ∈ xs := by
        rcases List.mem_cons.1 h with h | h
        · exact absurd h.symm hx
        · exact h
      have := ih h'
      rw [List.getLast?_cons, this]
      rfl

/-- What an address needs for its entry to be written. -/
def entryOk (orig : Program) (q : Nat × List CInst) (ws : List Nat) : Prop :=
  ∃ o os, dictGet orig q.1 = some (o :: os) ∧ o.encoding ∈ q.2.map (·.encoding) ∧
    ws = upTo o.encoding (q.2.map (·.encoding)) ∧ entryFits (q.1, ws)

theorem writeEntry_ok {orig : Program} {q : Nat × List CInst} {ws : List Nat}
    (h : entryOk orig q ws) : writeEntry orig q.1 q.2 = (entryBytes (q.1, ws), .ok ()) := by
  obtain ⟨o, os, h1, h2, rfl, h3, h4, h5, h6⟩ := h
  obtain ⟨j, h7, h8, h9⟩ := (findOri_ok h1 q.2 0).1 h2
  rw [Nat.zero_add] at h7
  have hlen : (upTo o.encoding (q.2.map (·.encoding))).length = j + 1 := by
    rw [← h9]; simp; omega
  unfold writeEntry
  dsimp only at h3 h4 h5 h6
  rw [writeInt_ok h3, seq_ok]
  simp only [h7]
  rw [writeInt_ok (by omega), seq_ok, h9, (writeAll_spec _).1 h6]
  simp [entryBytes, hlen]

/-- When an entry cannot be written, what has been written of it is a strict
prefix of some entry that fits. -/
theorem writeEntry_err {orig : Program} {q : Nat × List CInst} (h : ¬ ∃ ws, entryOk orig q ws) :
    ∃ b e, writeEntry orig q.1 q.2 = (b, .error e) ∧
      ∃ x u, entryFits x ∧ entryBytes x = b ++ u ∧ u ≠ [] := by
  have hfit0 : ∀ k, k < 2 ^ 32 → entryFits (k, [0]) := by
    intro k hk
    refine ⟨hk, by simp, ?_, ?_⟩
    · simp
    · intro w hw
      rw [List.mem_singleton] at hw
      subst hw
      exact Nat.two_pow_pos 32
  unfold writeEntry
  by_cases hk : q.1 < 2 ^ 32
  swap
  · rw [writeInt_bad hk, seq_err]
    exact ⟨_, _, rfl, (0, [0]), _, hfit0 0 (by omega), rfl, by simp [entryBytes, le32]⟩
  rw [writeInt_ok hk, seq_ok]
  have short : ∃ u, entryBytes (q.1, [0]) = le32 q.1 ++ u ∧ u ≠ [] :=
    ⟨le32 1 ++ le32 0, by simp [entryBytes], by simp [le32]⟩
  obtain ⟨u, hu1, hu2⟩ := short
  rcases hf : findOri orig q.1 q.2 0 with e | (_ | ori)
  · refine ⟨_, _, rfl, (q.1, [0]), u, hfit0 _ hk, ?_, hu2⟩
    simpa using hu1
  · refine ⟨_, _, rfl, (q.1, [0]), u, hfit0 _ hk, ?_, hu2⟩
    simpa using hu1
  · -- the original exists and is found
    have hex : ∃ o os, dictGet orig q.1 = some (o :: os) ∧ o.encoding ∈ q.2.map (·.encoding) := by
      cases hq : q.2 with
      | nil => rw [hq] at hf; simp [findOri] at hf
      | cons c cs =>
        rw [hq] at hf
        rcases hd : dictGet orig q.1 with _ | (_ | ⟨o, os⟩)
        · simp [findOri, hd] at hf
        · simp [findOri, hd] at hf
        · refine ⟨o, os, rfl, ?_⟩
          by_contra hno
          rw [(findOri_ok hd (c :: cs) 0).2 hno] at hf
          simp at hf
    obtain ⟨o, os, h1, h2⟩ := hex
    obtain ⟨j, h7, h8, h9⟩ := (findOri_ok h1 q.2 0).1 h2
    rw [Nat.zero_add] at h7
    rw [h7] at hf
    simp only [Except.ok.injEq, Option.some.injEq] at hf
    subst hf
    have hlen : (upTo o.encoding (q.2.map (·.encoding))).length = j + 1 := by
      rw [← h9]; simp; omega
    dsimp only
    by_cases hj : j + 1 < 2 ^ 32
    swap
    · rw [writeInt_bad hj, seq_err]
      refine ⟨_, _, rfl, (q.1, [0]), u, hfit0 _ hk, ?_, hu2⟩
      simpa using hu1
    rw [writeInt_ok hj, seq_ok, h9]
    have hbad : ∃ w ∈ upTo o.encoding (q.2.map (·.encoding)), ¬ w < 2 ^ 32 := by
      by_contra hno
      apply h
      refine ⟨_, o, os, h1, h2, rfl, hk, by dsimp only; omega, by dsimp only; omega, ?_⟩
      intro w hw
      by_contra hb
      exact hno ⟨w, hw, hb⟩
    obtain ⟨k, k1, k2, k3⟩ := (writeAll_spec _).2 hbad
    rw [k2]
    -- pad with zeros to the promised length
    refine ⟨_, _, rfl, (q.1, (upTo o.encoding (q.2.map fun c => CInst.encoding c)).take k ++
      List.replicate (j + 1 - k) 0), (List.replicate (j + 1 - k) 0).flatMap le32, ?_, ?_, ?_⟩
    · have hl : ((upTo o.encoding (q.2.map fun c : CInst => c.encoding)).take k ++
          List.replicate (j + 1 - k) 0).length = j + 1 := by
        simp; omega
      refine ⟨hk, ?_, ?_, ?_⟩
      · dsimp only; omega
      · dsimp only; omega
      · intro w hw
        dsimp only at hw
        rcases List.mem_append.1 hw with hw | hw
        · exact k3 w hw
        · rw [(List.mem_replicate.1 hw).2]; exact Nat.two_pow_pos 32
    · have hl : ((upTo o.encoding (q.2.map fun c : CInst => c.encoding)).take k ++
          List.replicate (j + 1 - k) 0).length = j + 1 := by
        simp; omega
      simp only [entryBytes]
      rw [hl, List.flatMap_append]
      simp
    · have : j + 1 - k = (j - k) + 1 := by omega
      rw [this, List.replicate_succ]
      simp [le32]

theorem writeEntries_ok (orig : Program) : ∀ (prog : Program) (es : List (Nat × List Nat)),
    List.Forall₂ (fun q e => e.1 = q.1 ∧ entryOk orig q e.2) prog es →
    writeEntries orig prog = (es.flatMap entryBytes, .ok ()) := by
  intro prog es h
  induction h with
  | nil => rfl
  | cons hqe _ ih =>
    rename_i q e l1 l2 _
    obtain ⟨k, v⟩ := q
    obtain ⟨k', ws⟩ := e
    obtain ⟨h1, h2⟩ := hqe
    dsimp only at h1 h2
    subst h1
    rw [writeEntries]
    have := writeEntry_ok h2
    dsimp only at this
    rw [this, seq_ok, ih]
    rfl

theorem writeEntries_err (orig : Program) : ∀ (prog : Program),
    (∃ q ∈ prog, ¬ ∃ ws, entryOk orig q ws) →
    ∃ b e, writeEntries orig prog = (b, .error e) ∧
      ∃ (es : List (Nat × List Nat)) (u : Bytes), es.length = prog.length ∧ (∀ x ∈ es, entryFits x) ∧
        es.flatMap entryBytes = b ++ u ∧ u ≠ [] := by
  intro prog
  induction prog with
  | nil => rintro ⟨q, h, _⟩; simp at h
  | cons q prog ih =>
    intro h
    by_cases hq : ∃ ws, entryOk orig q ws
    · obtain ⟨q', hq', hbad⟩ := h
      have : q' ∈ prog := by
        rcases List.mem_cons.1 hq' with rfl | h
        · exact absurd hq hbad
        · exact h
      obtain ⟨b, e, h1, es, u, h2, h3, h4, h5⟩ := ih ⟨q', this, hbad⟩
      obtain ⟨ws, hws⟩ := hq
      have hfit : entryFits (q.1, ws) := by obtain ⟨_, _, _, _, _, h⟩ := hws; exact h
      refine ⟨entryBytes (q.1, ws) ++ b, e, ?_, (q.1, ws) :: es, u, by simp [h2], ?_, ?_, h5⟩
      · have := writeEntry_ok hws
        rw [writeEntries, this, seq_ok, h1]
      · intro x hx
        rcases List.mem_cons.1 hx with rfl | hx
        · exact hfit
        · exact h3 x hx
      · rw [List.flatMap_cons, h4, List.append_assoc]
    · obtain ⟨b, e, h1, x, u, h2, h3, h4⟩ := writeEntry_err hq
      refine ⟨b, e, ?_, x :: List.replicate prog.length x, u ++ (List.replicate prog.length x).flatMap entryBytes,
        by simp, ?_, ?_, ?_⟩
      · rw [writeEntries, h1, seq_err]
      · intro y hy
        rcases List.mem_cons.1 hy with rfl | hy
        · exact h2
        · rw [(List.mem_replicate.1 hy).2]; exact h2
      · rw [List.flatMap_cons, h3, List.append_assoc]
      · intro h; exact h4 (List.append_eq_nil_iff.1 h).1

end Verif
