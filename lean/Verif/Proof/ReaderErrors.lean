import Mathlib.Data.List.TakeWhile
import Verif.Proof.Readers
import Verif.Spec.ReaderErrors

/-!
# Helper lemmas: what is read from a line, exactly
-/

namespace Verif

open Spec (HexDigits HexText hexTable White)

theorem hexDigit_iff {c : Char} {v : Nat} : hexDigit c = some v ↔ (c, v) ∈ hexTable := by
  constructor
  · intro h
    have key : ∀ k : Nat, k < 128 → hexDigit (Char.ofNat k) = some v → (Char.ofNat k, v) ∈ hexTable := by
      intro k hk h
      have : ∀ k < 128, ∀ v, hexDigit (Char.ofNat k) = some v → (Char.ofNat k, v) ∈ hexTable := by
        intro k hk v h
        have : ∀ k < 128, (match hexDigit (Char.ofNat k) with | some v => decide ((Char.ofNat k, v) ∈ hexTable) | none => true) = true := by
          decide +kernel
        have := this k hk
        rw [h] at this
        simpa using this
      exact this k hk v h
    have hc : c.toNat < 128 := by
      by_contra hn
      unfold hexDigit at h
      have e1 : '9'.toNat = 57 := rfl
      have e2 : 'f'.toNat = 102 := rfl
      have e3 : 'F'.toNat = 70 := rfl
      rw [if_neg (by omega), if_neg (by omega), if_neg (by omega)] at h
      cases h
    have := key c.toNat hc (by rw [Char.ofNat_toNat]; exact h)
    rwa [Char.ofNat_toNat] at this
  · exact fun h => (hexTable_facts _ h).1

theorem hexLoop_complete {t : List Char} {n : Nat} (h : HexDigits t n) : ∀ r, hexLoop (t ++ r) 0 false = hexLoop r n true := by
  induction h with
  | @one c v h =>
    intro r
    have f := hexTable_facts _ h
    show hexLoop (c :: r) 0 false = _
    rw [hexLoop, if_neg f.2.2.1, f.1]
    simp
  | @more t n c v _ h ih =>
    intro r
    have f := hexTable_facts _ h
    rw [List.append_assoc, ih]
    show hexLoop (c :: r) n true = _
    rw [hexLoop, if_neg f.2.2.1, f.1]
    simp [Nat.mul_comm]
  | @under t n c v _ h ih =>
    intro r
    have f := hexTable_facts _ h
    rw [List.append_assoc, ih]
    show hexLoop ('_' :: c :: r) n true = _
    rw [hexLoop, if_pos rfl, if_pos rfl, hexLoop, if_neg f.2.2.1, f.1]
    simp [Nat.mul_comm]

theorem hexLoop_sound (t : List Char) : ∀ (t0 : List Char) (a n : Nat),
    (HexDigits t0 a → hexLoop t a true = some n → HexDigits (t0 ++ t) n) ∧
    (HexDigits t0 a → hexLoop t a false = some n → HexDigits (t0 ++ '_' :: t) n) := by
  induction t with
  | nil =>
    intro t0 a n
    refine ⟨fun h e => ?_, fun h e => ?_⟩
    · rw [hexLoop, if_pos rfl] at e
      cases e
      rw [List.append_nil]
      exact h
    · rw [hexLoop] at e
      cases e
  | cons c t ih =>
    intro t0 a n
    refine ⟨fun h e => ?_, fun h e => ?_⟩
    · rw [hexLoop] at e
      split at e
      · rename_i hc
        rw [if_pos rfl] at e
        rw [hc]
        exact (ih t0 a n).2 h e
      · split at e
        · cases e
        · rename_i d hd
          have := (ih (t0 ++ [c]) (a * 16 + d) n).1 (by rw [Nat.mul_comm]; exact .more h (hexDigit_iff.1 hd)) e
          rwa [List.append_assoc] at this
    · rw [hexLoop] at e
      split at e
      · cases e
      · split at e
        · cases e
        · rename_i d hd
          have := (ih (t0 ++ ['_', c]) (a * 16 + d) n).1 (by rw [Nat.mul_comm]; exact .under h (hexDigit_iff.1 hd)) e
          rwa [List.append_assoc] at this

theorem hexLoop_iff {t : List Char} {n : Nat} : hexLoop t 0 false = some n ↔ HexDigits t n := by
  constructor
  · intro h
    cases t with
    | nil => rw [hexLoop] at h; cases h
    | cons c t =>
      rw [hexLoop] at h
      split at h
      · cases h
      · split at h
        · cases h
        · rename_i d hd
          exact (hexLoop_sound t [c] (0 * 16 + d) n).1 (by rw [Nat.zero_mul, Nat.zero_add]; exact .one (hexDigit_iff.1 hd)) h
  · intro h
    have := hexLoop_complete h []
    rw [List.append_nil] at this
    rw [this, hexLoop, if_pos rfl]

theorem hexDigits_chars {t : List Char} {n : Nat} (h : HexDigits t n) :
    (∀ c ∈ t, c = '_' ∨ ∃ v, (c, v) ∈ hexTable) ∧ ∃ c r v, t = c :: r ∧ (c, v) ∈ hexTable := by
  induction h with
  | @one c v h =>
    refine ⟨fun x hx => .inr ⟨v, by rw [List.mem_singleton.1 hx]; exact h⟩, c, [], v, rfl, h⟩
  | @more t n c v _ h ih =>
    obtain ⟨h1, c0, r, v0, h2, h3⟩ := ih
    refine ⟨fun x hx => ?_, c0, r ++ [c], v0, by rw [h2]; rfl, h3⟩
    rcases List.mem_append.1 hx with hx | hx
    · exact h1 x hx
    · exact .inr ⟨v, by rw [List.mem_singleton.1 hx]; exact h⟩
  | @under t n c v _ h ih =>
    obtain ⟨h1, c0, r, v0, h2, h3⟩ := ih
    refine ⟨fun x hx => ?_, c0, r ++ ['_', c], v0, by rw [h2]; rfl, h3⟩
    rcases List.mem_append.1 hx with hx | hx
    · exact h1 x hx
    · rcases List.mem_cons.1 hx with hx | hx
      · exact .inl hx
      · exact .inr ⟨v, by rw [List.mem_singleton.1 hx]; exact h⟩

theorem hexBody_iff {s : List Char} {n : Nat} :
    hexBody s = some n ↔ ∃ pre body, s = pre ++ body ∧ pre ∈ Spec.hexPrefixes ∧ HexDigits body n := by
  constructor
  · intro h
    unfold hexBody at h
    split at h
    · exact ⟨['0', 'x', '_'], _, rfl, by decide, hexLoop_iff.1 h⟩
    · exact ⟨['0', 'X', '_'], _, rfl, by decide, hexLoop_iff.1 h⟩
    · exact ⟨['0', 'x'], _, rfl, by decide, hexLoop_iff.1 h⟩
    · exact ⟨['0', 'X'], _, rfl, by decide, hexLoop_iff.1 h⟩
    · exact ⟨[], _, rfl, by decide, hexLoop_iff.1 h⟩
  · rintro ⟨pre, body, rfl, hp, hb⟩
    have hl := hexLoop_iff.2 hb
    obtain ⟨h1, c, r, v, h2, h3⟩ := hexDigits_chars hb
    have f := hexTable_facts _ h3
    have hp : pre = [] ∨ pre = ['0', 'x'] ∨ pre = ['0', 'X'] ∨ pre = ['0', 'x', '_'] ∨ pre = ['0', 'X', '_'] := by
      simpa [Spec.hexPrefixes] using hp
    have hx : 'x' ∉ body ∧ 'X' ∉ body := by
      constructor <;> intro hm <;> rcases h1 _ hm with h | ⟨v, h⟩
      · exact absurd h (by decide)
      · exact (hexTable_facts _ h).2.2.2.1 rfl
      · exact absurd h (by decide)
      · exact (hexTable_facts _ h).2.2.2.2.1 rfl
    rcases hp with rfl | rfl | rfl | rfl | rfl
    · rw [List.nil_append]
      unfold hexBody
      split
      · exact absurd (by simp) hx.1
      · exact absurd (by simp) hx.2
      · exact absurd (by simp) hx.1
      · exact absurd (by simp) hx.2
      · exact hl
    · show hexBody ('0' :: 'x' :: body) = some n
      subst h2
      unfold hexBody
      split
      · rename_i e
        injection e with _ e
        injection e with _ e
        injection e with e _
        exact absurd e f.2.2.1
      · rename_i e
        injection e with _ e
        injection e with e _
        exact absurd e (by decide)
      · rename_i e
        injection e with _ e
        injection e with _ e
        rw [← e]
        exact hl
      · rename_i e
        injection e with _ e
        injection e with e _
        exact absurd e (by decide)
      · rename_i h _
        exact absurd rfl (h _)
    · show hexBody ('0' :: 'X' :: body) = some n
      subst h2
      unfold hexBody
      split
      · rename_i e
        injection e with _ e
        injection e with e _
        exact absurd e (by decide)
      · rename_i e
        injection e with _ e
        injection e with _ e
        injection e with e _
        exact absurd e f.2.2.1
      · rename_i e
        injection e with _ e
        injection e with e _
        exact absurd e (by decide)
      · rename_i e
        injection e with _ e
        injection e with _ e
        rw [← e]
        exact hl
      · rename_i h
        exact absurd rfl (h _)
    · exact hl
    · exact hl

theorem hexPrefix_head {pre body : List Char} {n : Nat} (hp : pre ∈ Spec.hexPrefixes) (hb : HexDigits body n) :
    ∃ c t, pre ++ body = c :: t ∧ c ≠ '-' ∧ c ≠ '+' := by
  obtain ⟨_, c, r, v, h2, h3⟩ := hexDigits_chars hb
  have f := hexTable_facts _ h3
  have hp : pre = [] ∨ pre = ['0', 'x'] ∨ pre = ['0', 'X'] ∨ pre = ['0', 'x', '_'] ∨ pre = ['0', 'X', '_'] := by
    simpa [Spec.hexPrefixes] using hp
  rcases hp with rfl | rfl | rfl | rfl | rfl
  · exact ⟨c, r, h2, f.2.2.2.2.2.1, f.2.2.2.2.2.2.1⟩
  all_goals exact ⟨'0', _, rfl, by decide, by decide⟩

theorem signedHex_iff {s : List Char} {n : Int} : signedHex s = some n ↔
    ∃ (sign pre body : List Char) (m : Nat), s = sign ++ pre ++ body ∧ pre ∈ Spec.hexPrefixes ∧ HexDigits body m ∧
      ((sign = [] ∧ n = m) ∨ (sign = ['+'] ∧ n = m) ∨ (sign = ['-'] ∧ n = -(m : Int))) := by
  constructor
  · intro h
    cases s with
    | nil => cases h
    | cons c t =>
      rw [signedHex] at h
      split at h
      · rename_i hc
        obtain ⟨m, h1, h2⟩ := Option.map_eq_some_iff.1 h
        obtain ⟨pre, body, rfl, hp, hb⟩ := hexBody_iff.1 h1
        exact ⟨['-'], pre, body, m, by rw [hc]; rfl, hp, hb, .inr (.inr ⟨rfl, h2.symm⟩)⟩
      · split at h
        · rename_i hc
          obtain ⟨m, h1, h2⟩ := Option.map_eq_some_iff.1 h
          obtain ⟨pre, body, rfl, hp, hb⟩ := hexBody_iff.1 h1
          exact ⟨['+'], pre, body, m, by rw [hc]; rfl, hp, hb, .inr (.inl ⟨rfl, h2.symm⟩)⟩
        · obtain ⟨m, h1, h2⟩ := Option.map_eq_some_iff.1 h
          obtain ⟨pre, body, e, hp, hb⟩ := hexBody_iff.1 h1
          exact ⟨[], pre, body, m, e, hp, hb, .inl ⟨rfl, h2.symm⟩⟩
  · rintro ⟨sign, pre, body, m, rfl, hp, hb, h⟩
    have hB := hexBody_iff.2 ⟨pre, body, rfl, hp, hb⟩
    rcases h with ⟨rfl, rfl⟩ | ⟨rfl, rfl⟩ | ⟨rfl, rfl⟩
    · obtain ⟨c, t, e, h1, h2⟩ := hexPrefix_head hp hb
      rw [List.nil_append]
      rw [e] at hB ⊢
      rw [signedHex, if_neg h1, if_neg h2, hB]
      rfl
    · show signedHex ('+' :: (pre ++ body)) = _
      rw [signedHex, if_neg (by decide), if_pos rfl, hB]
      rfl
    · show signedHex ('-' :: (pre ++ body)) = _
      rw [signedHex, if_pos rfl, hB]
      rfl

theorem dropWhile_split (s : List Char) : ∃ w, s = w ++ s.dropWhile isBlank ∧ White w := by
  refine ⟨s.takeWhile isBlank, List.takeWhile_append_dropWhile.symm, fun c hc => ?_⟩
  exact isBlank_whites c (List.mem_takeWhile_imp hc)

theorem rstrip_split (s : List Char) : ∃ w, s = rstrip s ++ w ∧ White w := by
  obtain ⟨w, h1, h2⟩ := dropWhile_split s.reverse
  refine ⟨w.reverse, ?_, fun c hc => h2 c (List.mem_reverse.1 hc)⟩
  have := congrArg List.reverse h1
  rw [List.reverse_reverse, List.reverse_append] at this
  exact this

theorem strip_split (s : List Char) : ∃ w1 w2, s = w1 ++ strip s ++ w2 ∧ White w1 ∧ White w2 := by
  obtain ⟨w1, h1, h2⟩ := dropWhile_split s
  obtain ⟨w2, h3, h4⟩ := rstrip_split (s.dropWhile isBlank)
  refine ⟨w1, w2, ?_, h2, h4⟩
  rw [List.append_assoc]
  show s = w1 ++ (rstrip (s.dropWhile isBlank) ++ w2)
  rw [← h3]
  exact h1

theorem strip_around {w1 s w2 : List Char} (h1 : White w1) (h2 : White w2) (hs : ∀ c ∈ s, isBlank c = false) :
    strip (w1 ++ s ++ w2) = s := by
  have : strip (w1 ++ (s ++ w2)) = strip (s ++ w2) := by
    unfold strip
    rw [dropWhile_append_all _ _ _ fun c hc => whites_blank c (h1 c hc)]
  rw [List.append_assoc, this]
  exact strip_text s w2 hs fun c hc => whites_blank c (h2 c hc)

theorem hex_notBlank {sign pre body : List Char} {m : Nat} (hs : sign = [] ∨ sign = ['+'] ∨ sign = ['-']) (hp : pre ∈ Spec.hexPrefixes)
    (hb : HexDigits body m) : ∀ c ∈ sign ++ pre ++ body, isBlank c = false ∧ c ≠ ';' := by
  intro c hc
  rcases List.mem_append.1 hc with hc | hc
  · rcases List.mem_append.1 hc with hc | hc
    · rcases hs with rfl | rfl | rfl
      · cases hc
      · rw [List.mem_singleton.1 hc]; decide
      · rw [List.mem_singleton.1 hc]; decide
    · have : ∀ p ∈ Spec.hexPrefixes, ∀ c ∈ p, isBlank c = false ∧ c ≠ ';' := by decide
      exact this pre hp c hc
  · rcases (hexDigits_chars hb).1 c hc with rfl | ⟨v, h⟩
    · decide
    · exact ⟨(hexTable_facts _ h).2.1, (hexTable_facts _ h).2.2.2.2.2.2.2.1⟩

/-- `int(s, 16)`, exactly. -/
theorem pyInt16_iff {s : List Char} {n : Int} : pyInt16 s = .ok n ↔ HexText s n := by
  have e : pyInt16 s = .ok n ↔ signedHex (strip s) = some n := by
    unfold pyInt16
    cases signedHex (strip s) with
    | none => exact ⟨fun h => (by cases h), fun h => (by cases h)⟩
    | some k =>
      constructor
      · intro h; cases h; rfl
      · intro h; cases h; rfl
  rw [e, signedHex_iff]
  constructor
  · rintro ⟨sign, pre, body, m, h1, h2, h3, h4⟩
    obtain ⟨w1, w2, h5, h6, h7⟩ := strip_split s
    refine ⟨w1, sign, pre, body, w2, m, ?_, h6, h7, h2, h3, h4⟩
    rw [h1] at h5
    rw [h5]
    simp only [List.append_assoc]
  · rintro ⟨w1, sign, pre, body, w2, m, rfl, h6, h7, h2, h3, h4⟩
    refine ⟨sign, pre, body, m, ?_, h2, h3, h4⟩
    have hs : sign = [] ∨ sign = ['+'] ∨ sign = ['-'] := by
      rcases h4 with h | h | h
      · exact .inl h.1
      · exact .inr (.inl h.1)
      · exact .inr (.inr h.1)
    have := strip_around h6 h7 fun c hc => (hex_notBlank hs h2 h3 c hc).1
    rw [← this]
    simp only [List.append_assoc]

theorem pyInt16_error {s : List Char} {e : Err} : pyInt16 s = .error e ↔ e = .value ∧ ¬ ∃ n, HexText s n := by
  constructor
  · intro h
    refine ⟨?_, ?_⟩
    · unfold pyInt16 at h
      split at h
      · cases h
      · cases h; rfl
    · rintro ⟨n, hn⟩
      rw [pyInt16_iff.2 hn] at h
      cases h
  · rintro ⟨rfl, h⟩
    unfold pyInt16
    split
    · rename_i n hn
      exact absurd ⟨n, pyInt16_iff.1 (by unfold pyInt16; rw [hn])⟩ h
    · rfl

theorem hexText_unique {s : List Char} {n m : Int} (h1 : HexText s n) (h2 : HexText s m) : n = m := by
  have a := pyInt16_iff.2 h1
  rw [pyInt16_iff.2 h2] at a
  cases a
  rfl

/-! ### Fields -/

theorem split_first (c : Char) (s : List Char) : c ∉ s ∨ ∃ a t, s = a ++ c :: t ∧ c ∉ a := by
  induction s with
  | nil => exact .inl (by simp)
  | cons x s ih =>
    by_cases hx : x = c
    · exact .inr ⟨[], s, by rw [hx]; rfl, by simp⟩
    · rcases ih with h | ⟨a, t, rfl, h⟩
      · exact .inl (by simp [h, Ne.symm hx])
      · exact .inr ⟨x :: a, t, rfl, by simp [h, Ne.symm hx]⟩

theorem split_first_unique {c : Char} {a b s t : List Char} (h : a ++ c :: s = b ++ c :: t) (ha : c ∉ a) (hb : c ∉ b) : a = b ∧ s = t := by
  induction a generalizing b with
  | nil =>
    cases b with
    | nil => exact ⟨rfl, (List.cons.inj h).2⟩
    | cons x b =>
      have := (List.cons.inj h).1
      exact absurd (by simp [this]) hb
  | cons y a ih =>
    cases b with
    | nil =>
      have := (List.cons.inj h).1
      exact absurd (by simp [← this]) ha
    | cons x b =>
      obtain ⟨h1, h2⟩ := List.cons.inj h
      obtain ⟨h3, h4⟩ := ih h2 (fun h => ha (List.mem_cons_of_mem _ h)) (fun h => hb (List.mem_cons_of_mem _ h))
      exact ⟨by rw [h1, h3], h4⟩

/-- The first field, if there are more. -/
theorem split_field (c : Char) (s : List Char) : ∃ f r, s = f ++ r ∧ c ∉ f ∧ (r = [] ∨ r.head? = some c) := by
  rcases split_first c s with h | ⟨a, t, rfl, h⟩
  · exact ⟨s, [], by simp, h, .inl rfl⟩
  · exact ⟨a, c :: t, rfl, h, .inr rfl⟩

theorem split_field_unique {c : Char} {f g r q : List Char} (h : f ++ r = g ++ q) (hf : c ∉ f) (hg : c ∉ g)
    (hr : r = [] ∨ r.head? = some c) (hq : q = [] ∨ q.head? = some c) : f = g := by
  rcases hr with rfl | hr
  · rcases hq with rfl | hq
    · simpa using h
    · exfalso
      rw [List.append_nil] at h
      apply hf
      rw [h]
      exact List.mem_append_right _ (List.mem_of_head? hq)
  · rcases hq with rfl | hq
    · exfalso
      rw [List.append_nil] at h
      apply hg
      rw [← h]
      exact List.mem_append_right _ (List.mem_of_head? hr)
    · cases r with
      | nil => cases hr
      | cons x r =>
        cases q with
        | nil => cases hq
        | cons y q =>
          cases hr
          cases hq
          exact (split_first_unique h hf hg).1

theorem splitAt_field {c : Char} {f r : List Char} (hf : c ∉ f) (hr : r = [] ∨ r.head? = some c) :
    ∃ l, splitAtChar c (f ++ r) = f :: l ∧ (l = [] ↔ r = []) := by
  rcases hr with rfl | hr
  · exact ⟨[], by rw [List.append_nil, splitAtChar_none c f hf], by simp⟩
  · cases r with
    | nil => cases hr
    | cons x r =>
      cases hr
      exact ⟨_, splitAtChar_cons c f r hf, by simp [splitAtChar_ne_nil]⟩

theorem strip_nil_iff {line : List Char} : strip line = [] ↔ White line := by
  constructor
  · intro h
    by_contra hw
    have : ∃ c ∈ line, c ∉ Spec.whites := by
      by_contra hn
      exact hw fun c hc => by_contra fun h' => hn ⟨c, hc, h'⟩
    obtain ⟨c, hc, h'⟩ := this
    refine strip_ne_nil line c hc ?_ h
    rw [Bool.eq_false_iff]
    exact fun hb => h' (isBlank_whites c hb)
  · exact strip_white line

theorem opens_white {line : List Char} (h : White line) : Spec.opens line = none := by
  unfold Spec.opens
  split
  · exact absurd (h '.' (by simp)) (by decide)
  · rfl

theorem opens_none {line : List Char} : Spec.opens line = none ↔ line.head? ≠ some '.' := by
  unfold Spec.opens
  split
  · simp
  · rename_i h
    refine ⟨fun _ e => ?_, fun _ => rfl⟩
    cases line with
    | nil => cases e
    | cons x t =>
      cases e
      exact h t rfl

theorem splitAt_takeWhile (c : Char) (t : List Char) : ∃ l, splitAtChar c t = t.takeWhile (· ≠ c) :: l := by
  induction t with
  | nil => exact ⟨[], rfl⟩
  | cons x t ih =>
    obtain ⟨l, h⟩ := ih
    rw [splitAtChar]
    by_cases hx : x = c
    · rw [if_pos hx]
      exact ⟨splitAtChar c t, by simp [hx]⟩
    · rw [if_neg hx, h]
      exact ⟨l, by simp [hx]⟩

/-- A line that opens a section. -/
theorem classify_opens {sect : Option (List Char)} {line n : List Char} (h : Spec.opens line = some n) :
    classify sect line = .ok (.sect n) := by
  unfold Spec.opens at h
  split at h
  · rename_i t
    cases h
    have h0 : strip ('.' :: t) ≠ [] := by
      intro h
      exact absurd (strip_nil_iff.1 h '.' (by simp)) (by decide)
    obtain ⟨l, hl⟩ := splitAt_takeWhile '.' t
    unfold classify
    rw [if_neg h0, if_pos List.head?_cons, splitAtChar, if_pos rfl, hl]
  · cases h

theorem isCode_iff {s : List Char} : isCode s = true ↔ ∃ k ∈ Spec.codeNames, k <+: s := by
  unfold isCode Spec.codeNames
  simp only [Bool.or_eq_true, List.isPrefixOf_iff_prefix, List.mem_cons, List.not_mem_nil, or_false, exists_eq_or_imp, exists_eq_left]
  tauto

/-- A line of the function table, exactly. -/
theorem classify_table {s line : List Char} (h0 : ¬ White line) (h1 : Spec.opens line = none) (hs : "function".toList <+: s) :
    (∀ a n v, line = a ++ ';' :: n → ';' ∉ a → ';' ∉ n → HexText a v → classify (some s) line = .ok (.func v (rstrip n))) ∧
    ((¬ ∃ a n v, line = a ++ ';' :: n ∧ ';' ∉ a ∧ ';' ∉ n ∧ HexText a v) → classify (some s) line = .error .value) := by
  have e : classify (some s) line = (match splitAtChar ';' line with
          | [a, name] => do
              let a ← pyInt16 a
              pure (.func a (rstrip name))
          | _ => .error .value) := by
    unfold classify
    rw [if_neg (fun h => h0 (strip_nil_iff.1 h)), if_neg (opens_none.1 h1)]
    simp only
    rw [if_pos (List.isPrefixOf_iff_prefix.2 hs)]
    rfl
  rw [e]
  constructor
  · rintro a n v rfl ha hn hv
    rw [splitAtChar_cons _ _ _ ha, splitAtChar_none _ _ hn]
    simp only
    rw [pyInt16_iff.2 hv]
    rfl
  · intro h
    rcases split_first ';' line with h2 | ⟨a, t, rfl, ha⟩
    · rw [splitAtChar_none _ _ h2]
    · obtain ⟨f, r, rfl, hf, hr⟩ := split_field ';' t
      obtain ⟨l, hl, hl'⟩ := splitAt_field hf hr
      rw [splitAtChar_cons _ _ _ ha, hl]
      cases l with
      | nil =>
        have := hl'.1 rfl
        subst this
        simp only
        have : ¬ ∃ v, HexText a v := by
          rintro ⟨v, hv⟩
          exact h ⟨a, f, v, by simp, ha, hf, hv⟩
        rw [pyInt16_error.2 ⟨rfl, this⟩]
        rfl
      | cons x l => rfl

/-- A line of code, exactly. -/
theorem classify_code {s line : List Char} (h0 : ¬ White line) (h1 : Spec.opens line = none) (hs : ¬ "function".toList <+: s)
    (hc : ∃ k ∈ Spec.codeNames, k <+: s) :
    (';' ∉ line → classify (some s) line = .ok .skip) ∧
    (∀ a f r, line = a ++ ';' :: (f ++ r) → ';' ∉ a → ';' ∉ f → (r = [] ∨ r.head? = some ';') →
      (∀ v w, HexText a v → HexText f w → classify (some s) line = .ok (.inst w v)) ∧
      ((¬ ∃ v w, HexText a v ∧ HexText f w) → classify (some s) line = .error .value)) := by
  have e : classify (some s) line = (match splitAtChar ';' line with
          | a :: e :: _ => do
              let e ← pyInt16 e
              let a ← pyInt16 a
              pure (.inst e a)
          | _ => .ok .skip) := by
    unfold classify
    rw [if_neg (fun h => h0 (strip_nil_iff.1 h)), if_neg (opens_none.1 h1)]
    simp only
    rw [if_neg (fun h => hs (List.isPrefixOf_iff_prefix.1 h)), if_pos (isCode_iff.2 hc)]
    rfl
  rw [e]
  constructor
  · intro h
    rw [splitAtChar_none _ _ h]
  · rintro a f r rfl ha hf hr
    obtain ⟨l, hl, _⟩ := splitAt_field hf hr
    rw [splitAtChar_cons _ _ _ ha, hl]
    constructor
    · intro v w hv hw
      simp only
      rw [pyInt16_iff.2 hv, pyInt16_iff.2 hw]
      rfl
    · intro h
      simp only
      cases he : pyInt16 f with
      | error x => rw [(pyInt16_error.1 he).1]; rfl
      | ok w =>
        have : ¬ ∃ v, HexText a v := by
          rintro ⟨v, hv⟩
          exact h ⟨v, w, hv, pyInt16_iff.1 he⟩
        rw [pyInt16_error.2 ⟨rfl, this⟩]
        rfl

theorem rdLine_error {α : Type} {mk : Int → Int → Py α} {s : RdSt α} {line : List Char} {e : Err} :
    rdLine mk s line = .error e ↔ Spec.BadLine mk s.sect line e := by
  have hok : ∀ ev, classify s.sect line = .ok ev → (∀ e a, ev ≠ .inst e a) → ∃ s', rdLine mk s line = .ok s' := by
    intro ev h hi
    unfold rdLine
    rw [h]
    cases ev with
    | skip => exact ⟨_, rfl⟩
    | sect n => exact ⟨_, rfl⟩
    | func a n => exact ⟨_, rfl⟩
    | inst e a => exact absurd rfl (hi e a)
  have herr : ∀ x, classify s.sect line = .error x → rdLine mk s line = .error x := by
    intro x h
    unfold rdLine
    rw [h]
    rfl
  have hinst : ∀ w v, classify s.sect line = .ok (.inst w v) → (rdLine mk s line = .error e ↔ mk w v = .error e) := by
    intro w v h
    unfold rdLine
    rw [h]
    show (mk w v >>= _) = _ ↔ _
    cases mk w v with
    | error x =>
      constructor
      · intro h; cases h; rfl
      · intro h; cases h; rfl
    | ok i => exact ⟨fun h => (by cases h), fun h => (by cases h)⟩
  have hno : (∃ s', rdLine mk s line = .ok s') → ¬ rdLine mk s line = .error e := by
    rintro ⟨s', h⟩ h'
    rw [h] at h'
    cases h'
  unfold Spec.BadLine
  by_cases h0 : White line
  · refine ⟨fun h => absurd h (hno (hok .skip ?_ (by simp))), fun h => absurd h0 h.1⟩
    unfold classify
    rw [if_pos (strip_nil_iff.2 h0)]
  cases h1 : Spec.opens line with
  | some n =>
    refine ⟨fun h => absurd h (hno (hok _ (classify_opens h1) (by simp))), fun h => by cases h.2.1⟩
  | none =>
    simp only [h0, not_false_eq_true, true_and]
    cases hs : s.sect with
    | none =>
      have : classify s.sect line = .error .attribute := by
        unfold classify
        rw [if_neg (fun h => h0 (strip_nil_iff.1 h)), if_neg (opens_none.1 h1), hs]
      rw [herr _ this]
      constructor
      · intro h; cases h; rfl
      · intro h; rw [h]
    | some n =>
      simp only
      by_cases hf : "function".toList <+: n
      · obtain ⟨t1, t2⟩ := classify_table h0 h1 hf
        rw [← hs] at t1 t2
        by_cases hg : ∃ a n v, line = a ++ ';' :: n ∧ ';' ∉ a ∧ ';' ∉ n ∧ HexText a v
        · obtain ⟨a, m, v, g1, g2, g3, g4⟩ := hg
          refine ⟨fun h => absurd h (hno (hok _ (t1 a m v g1 g2 g3 g4) (by simp))), ?_⟩
          rintro (⟨_, _, h⟩ | ⟨h, _⟩)
          · exact absurd ⟨a, m, v, g1, g2, g3, g4⟩ h
          · exact absurd hf h
        · rw [herr _ (t2 hg)]
          constructor
          · intro h; cases h; exact .inl ⟨hf, rfl, hg⟩
          · rintro (⟨_, rfl, _⟩ | ⟨h, _⟩)
            · rfl
            · exact absurd hf h
      · by_cases hc : ∃ k ∈ Spec.codeNames, k <+: n
        · obtain ⟨t1, t2⟩ := classify_code h0 h1 hf hc
          rw [← hs] at t1 t2
          rcases split_first ';' line with h2 | ⟨a, t, h2, ha⟩
          · refine ⟨fun h => absurd h (hno (hok _ (t1 h2) (by simp))), ?_⟩
            rintro (⟨h, _⟩ | ⟨_, _, a, f, r, rfl, _⟩)
            · exact absurd h hf
            · exact absurd (by simp) h2
          · obtain ⟨f, r, h3, hf', hr⟩ := split_field ';' t
            rw [h3] at h2
            obtain ⟨u1, u2⟩ := t2 a f r h2 ha hf' hr
            have huniq : ∀ a' f' r', line = a' ++ ';' :: (f' ++ r') → ';' ∉ a' → ';' ∉ f' → (r' = [] ∨ r'.head? = some ';') →
                a' = a ∧ f' = f := by
              intro a' f' r' e1 e2 e3 e4
              rw [h2] at e1
              obtain ⟨e5, e6⟩ := split_first_unique e1 ha e2
              exact ⟨e5.symm, (split_field_unique e6 hf' e3 hr e4).symm⟩
            by_cases hg : ∃ v w, HexText a v ∧ HexText f w
            · obtain ⟨v, w, hv, hw⟩ := hg
              rw [hinst w v (u1 v w hv hw)]
              constructor
              · intro h
                exact .inr ⟨hf, hc, a, f, r, h2, ha, hf', hr, .inr ⟨v, w, hv, hw, h⟩⟩
              · rintro (⟨h, _⟩ | ⟨_, _, a', f', r', e1, e2, e3, e4, e5⟩)
                · exact absurd h hf
                · obtain ⟨rfl, rfl⟩ := huniq a' f' r' e1 e2 e3 e4
                  rcases e5 with ⟨_, e5⟩ | ⟨v', w', e5, e6, e7⟩
                  · exact absurd ⟨v, w, hv, hw⟩ e5
                  · rw [hexText_unique hv e5, hexText_unique hw e6]
                    exact e7
            · rw [herr _ (u2 hg)]
              constructor
              · intro h
                cases h
                exact .inr ⟨hf, hc, a, f, r, h2, ha, hf', hr, .inl ⟨rfl, hg⟩⟩
              · rintro (⟨h, _⟩ | ⟨_, _, a', f', r', e1, e2, e3, e4, e5⟩)
                · exact absurd h hf
                · obtain ⟨rfl, rfl⟩ := huniq a' f' r' e1 e2 e3 e4
                  rcases e5 with ⟨rfl, _⟩ | ⟨v', w', e5, e6, _⟩
                  · rfl
                  · exact absurd ⟨v', w', e5, e6⟩ hg
        · have : classify s.sect line = .ok .skip := by
            unfold classify
            rw [if_neg (fun h => h0 (strip_nil_iff.1 h)), if_neg (opens_none.1 h1), hs]
            simp only
            rw [if_neg (fun h => hf (List.isPrefixOf_iff_prefix.1 h)), if_neg (fun h => hc (isCode_iff.1 h))]
          refine ⟨fun h => absurd h (hno (hok _ this (by simp))), ?_⟩
          rintro (⟨h, _⟩ | ⟨_, h, _⟩)
          · exact absurd h hf
          · exact absurd h hc

theorem func_ne (x : Py Int) (m n : List Char) : (x >>= fun a => (pure (RdEvent.func a m) : Py RdEvent)) ≠ .ok (.sect n) := by
  cases x with
  | error e => intro h; cases h
  | ok a => intro h; cases h

theorem inst_ne (x y : Py Int) (n : List Char) : (x >>= fun e => y >>= fun a => (pure (RdEvent.inst e a) : Py RdEvent)) ≠ .ok (.sect n) := by
  cases x with
  | error e => intro h; cases h
  | ok a =>
    cases y with
    | error e => intro h; cases h
    | ok b => intro h; cases h

theorem rdLine_sect {α : Type} {mk : Int → Int → Py α} {s s' : RdSt α} {line : List Char} (h : rdLine mk s line = .ok s') :
    s'.sect = (Spec.opens line).or s.sect := by
  cases h1 : Spec.opens line with
  | some n =>
    unfold rdLine at h
    rw [classify_opens h1] at h
    have := Except.ok.inj h
    rw [← this]
    rfl
  | none =>
    have hn : ∀ n, classify s.sect line ≠ .ok (.sect n) := by
      intro n hn
      unfold classify at hn
      rw [if_neg (opens_none.1 h1)] at hn
      split at hn
      · cases hn
      · split at hn
        · cases hn
        · split at hn
          · split at hn
            · exact func_ne _ _ _ hn
            · cases hn
          · split at hn
            · split at hn
              · exact inst_ne _ _ _ hn
              · cases hn
            · cases hn
    unfold rdLine at h
    cases hc : classify s.sect line with
    | error e => rw [hc] at h; cases h
    | ok ev =>
      rw [hc] at h
      cases ev with
      | skip => have := Except.ok.inj h; rw [← this]; rfl
      | sect n => exact absurd hc (hn n)
      | func a n => have := Except.ok.inj h; rw [← this]; rfl
      | inst e a =>
        have h : (mk e a >>= _) = .ok s' := h
        cases hm : mk e a with
        | error x => rw [hm] at h; cases h
        | ok i =>
          rw [hm] at h
          have := Except.ok.inj h
          rw [← this]
          rfl

/-- A fold that stops at the first step that fails. -/
theorem foldlM_error_iff {σ β : Type} {f : σ → β → Py σ} {I : List β → σ → Prop} {B : List β → β → Err → Prop} {s0 : σ} (h0 : I [] s0)
    (hstep : ∀ p s x s', I p s → f s x = .ok s' → I (p ++ [x]) s') (herr : ∀ p s x e, I p s → (f s x = .error e ↔ B p x e)) (l : List β)
    (e : Err) : l.foldlM f s0 = .error e ↔
      ∃ p x q, l = p ++ x :: q ∧ B p x e ∧ ∀ p' y q', p = p' ++ y :: q' → ∀ e', ¬ B p' y e' := by
  have key : ∀ (l pre : List β) (s : σ), I pre s → (l.foldlM f s = .error e ↔
      ∃ p x q, l = p ++ x :: q ∧ B (pre ++ p) x e ∧ ∀ p' y q', p = p' ++ y :: q' → ∀ e', ¬ B (pre ++ p') y e') := by
    intro l
    induction l with
    | nil =>
      intro pre s _
      refine ⟨fun h => (by cases h), ?_⟩
      rintro ⟨p, x, q, h, _⟩
      exact absurd h (by simp)
    | cons a l ih =>
      intro pre s hI
      rw [List.foldlM_cons]
      cases hf : f s a with
      | error x =>
        show (Except.error x : Py σ) = .error e ↔ _
        constructor
        · intro h
          cases h
          refine ⟨[], a, l, rfl, by rw [List.append_nil]; exact (herr pre s a _ hI).1 hf, ?_⟩
          intro p' y q' h
          exact absurd h (by simp)
        · rintro ⟨p, y, q, h1, h2, h3⟩
          cases p with
          | nil =>
            cases h1
            rw [List.append_nil] at h2
            have := (herr pre s a e hI).2 h2
            rw [hf] at this
            exact this
          | cons b p =>
            cases h1
            exact absurd (by rw [List.append_nil]; exact (herr pre s a _ hI).1 hf) (h3 [] a p rfl x)
      | ok s1 =>
        show l.foldlM f s1 = .error e ↔ _
        rw [ih (pre ++ [a]) s1 (hstep pre s a s1 hI hf)]
        have hna : ∀ e', ¬ B pre a e' := by
          intro e' hb
          have := (herr pre s a e' hI).2 hb
          rw [hf] at this
          cases this
        constructor
        · rintro ⟨p, x, q, h1, h2, h3⟩
          refine ⟨a :: p, x, q, by rw [h1]; rfl, by simpa using h2, ?_⟩
          intro p' y q' h e'
          cases p' with
          | nil =>
            cases h
            rw [List.append_nil]
            exact hna e'
          | cons b p' =>
            cases h
            have := h3 p' y q' rfl e'
            simpa using this
        · rintro ⟨p, x, q, h1, h2, h3⟩
          cases p with
          | nil =>
            cases h1
            rw [List.append_nil] at h2
            exact absurd h2 (hna e)
          | cons b p =>
            cases h1
            refine ⟨p, x, q, rfl, by simpa using h2, ?_⟩
            intro p' y q' h e'
            have := h3 (a :: p') y q' (by rw [h]; rfl) e'
            simpa using this
  have := key l [] s0 h0
  simpa using this

/-! ### Text listings -/

theorem beforeDouble_cons {c : Char} {t : List Char} (hne : ∀ r, c = ' ' → t = ' ' :: r → False) :
    beforeDouble (c :: t) = c :: beforeDouble t := by
  rw [beforeDouble]
  exact hne

theorem beforeDouble_upto (t : List Char) : Spec.Upto t (beforeDouble t) := by
  induction t using beforeDouble.induct with
  | case1 t =>
    rw [beforeDouble]
    exact ⟨fun u v h => by simp at h, .inr ⟨t, rfl, by simp⟩⟩
  | case2 c t hne ih =>
    have hne : ∀ r, c = ' ' → t = ' ' :: r → False := hne
    rw [beforeDouble_cons hne]
    obtain ⟨h1, h2⟩ := ih
    refine ⟨?_, ?_⟩
    · intro u v h
      cases u with
      | nil =>
        obtain ⟨hc, hb⟩ := List.cons.inj h
        rcases h2 with h2 | ⟨r, h2, _⟩
        · exact hne _ hc (h2.trans hb)
        · rw [hb] at h2
          exact hne _ hc h2
      | cons x u => exact h1 u v (List.cons.inj h).2
    · rcases h2 with h2 | ⟨r, h2, h3⟩
      · exact .inl (by rw [← h2])
      · refine .inr ⟨r, by rw [List.cons_append, ← h2], ?_⟩
        intro hl
        cases hb : beforeDouble t with
        | nil =>
          rw [hb] at hl h2
          cases hl
          exact hne _ rfl h2
        | cons x b =>
          rw [hb, List.getLast?_cons_cons] at hl
          rw [hb] at h3
          exact h3 hl
  | case3 => exact ⟨fun u v h => by simp [beforeDouble] at h, .inl rfl⟩

theorem upto_iff {t : List Char} : ∀ {p : List Char}, Spec.Upto t p ↔ p = beforeDouble t := by
  intro p
  constructor
  · intro h
    induction t using beforeDouble.induct generalizing p with
    | case1 t =>
      rw [beforeDouble]
      obtain ⟨h1, h2 | ⟨r, h2, h3⟩⟩ := h
      · exact absurd h2.symm (h1 [] t)
      · cases p with
        | nil => rfl
        | cons x p =>
          obtain ⟨rfl, h4⟩ := List.cons.inj h2
          cases p with
          | nil => exact absurd rfl h3
          | cons y p =>
            obtain ⟨rfl, h5⟩ := List.cons.inj h4
            exact absurd rfl (h1 [] p)
    | case2 c t hne ih =>
      have hne : ∀ r, c = ' ' → t = ' ' :: r → False := hne
      rw [beforeDouble_cons hne]
      obtain ⟨h1, h2⟩ := h
      cases p with
      | nil =>
        rcases h2 with h2 | ⟨r, h2, _⟩
        · cases h2
        · obtain ⟨h3, h4⟩ := List.cons.inj h2
          exact (hne _ h3 h4).elim
      | cons x p =>
        have hx : c = x := by
          rcases h2 with h2 | ⟨r, h2, _⟩
          · exact (List.cons.inj h2).1
          · exact (List.cons.inj h2).1
        subst hx
        congr 1
        refine ih ⟨fun u v h => h1 (c :: u) v (by rw [h]; rfl), ?_⟩
        rcases h2 with h2 | ⟨r, h2, h3⟩
        · exact .inl (List.cons.inj h2).2
        · refine .inr ⟨r, (List.cons.inj h2).2, ?_⟩
          intro hl
          cases p with
          | nil => cases hl
          | cons y p =>
            rw [List.getLast?_cons_cons] at h3
            exact h3 hl
    | case3 =>
      obtain ⟨_, h2 | ⟨r, h2, _⟩⟩ := h
      · rw [← h2]; rfl
      · exact absurd h2 (by simp)
  · rintro rfl
    exact beforeDouble_upto t

theorem afterFirst_none {c : Char} {s : List Char} (h : c ∉ s) : afterFirst c s = .error .index := by
  unfold afterFirst
  rw [dropWhile_all _ s fun x hx => by simp; rintro rfl; exact h hx]

theorem afterFirst_some {c : Char} {a t : List Char} (h : c ∉ a) : afterFirst c (a ++ c :: t) = .ok t := by
  unfold afterFirst
  rw [dropWhile_append_all _ a _ fun x hx => by simp; rintro rfl; exact h hx, List.dropWhile_cons_of_neg (by simp)]

theorem reverseText_swapped (s : List Char) : reverseText s = Spec.swapped s := by
  unfold reverseText Spec.swapped pySlice
  have : (s.filter fun c => !(c = ' ' || c = '\t' || c = '\n' || c = '\r')) = s.filter fun c => c ∉ [' ', '\t', '\n', '\r'] := by
    apply List.filter_congr
    intro c _
    simp [Bool.or_assoc]
  simp only [this]
  simp

theorem rdTextInst_error {α : Type} {mk : Int → Int → Py α} {l : List Char} {e : Err} : rdTextInst mk l = .error e ↔
    ((e = .index ∧ ':' ∉ l) ∨
     ∃ p t q, l = p ++ ':' :: t ∧ ':' ∉ p ∧ Spec.Upto t q ∧
      ((e = .index ∧ ' ' ∉ q) ∨
       ∃ a b, q = a ++ ' ' :: b ∧ ' ' ∉ a ∧
        ((e = .value ∧ ¬ ∃ v w, HexText a v ∧ HexText (Spec.swapped b) w) ∨
          ∃ v w, HexText a v ∧ HexText (Spec.swapped b) w ∧ mk w v = .error e))) := by
  unfold rdTextInst
  rcases split_first ':' l with h | ⟨p, t, rfl, hp⟩
  · rw [afterFirst_none h]
    show (Except.error Err.index : Py α) = .error e ↔ _
    constructor
    · intro h'; cases h'; exact .inl ⟨rfl, h⟩
    · rintro (⟨rfl, _⟩ | ⟨p, t, q, rfl, _⟩)
      · rfl
      · exact absurd (by simp) h
  · rw [afterFirst_some hp]
    have hq : ∀ p' t' q, p ++ ':' :: t = p' ++ ':' :: t' → ':' ∉ p' → Spec.Upto t' q → q = beforeDouble t := by
      intro p' t' q h1 h2 h3
      obtain ⟨_, rfl⟩ := split_first_unique h1 hp h2
      exact upto_iff.1 h3
    show (do
      let e1 ← afterFirst ' ' (beforeDouble t)
      let a ← pyInt16 ((beforeDouble t).takeWhile (· ≠ ' '))
      let v ← pyInt16 (reverseText e1)
      mk v a) = .error e ↔ _
    have hc : ¬ (e = .index ∧ ':' ∉ p ++ ':' :: t) := fun h => h.2 (by simp)
    rw [or_iff_right hc]
    have hred : ∀ P : List Char → Prop, (∃ p' t' q, p ++ ':' :: t = p' ++ ':' :: t' ∧ ':' ∉ p' ∧ Spec.Upto t' q ∧ P q) ↔ P (beforeDouble t) := by
      intro P
      constructor
      · rintro ⟨p', t', q, h1, h2, h3, h4⟩
        rw [← hq p' t' q h1 h2 h3]
        exact h4
      · exact fun h => ⟨p, t, _, rfl, hp, beforeDouble_upto t, h⟩
    rw [hred fun q => ((e = .index ∧ ' ' ∉ q) ∨
       ∃ a b, q = a ++ ' ' :: b ∧ ' ' ∉ a ∧
        ((e = .value ∧ ¬ ∃ v w, HexText a v ∧ HexText (Spec.swapped b) w) ∨
          ∃ v w, HexText a v ∧ HexText (Spec.swapped b) w ∧ mk w v = .error e))]
    generalize beforeDouble t = q
    rcases split_first ' ' q with h | ⟨a, b, rfl, ha⟩
    · rw [afterFirst_none h]
      show (Except.error Err.index : Py α) = .error e ↔ _
      constructor
      · intro h'; cases h'; exact .inl ⟨rfl, h⟩
      · rintro (⟨rfl, _⟩ | ⟨a, b, rfl, _⟩)
        · rfl
        · exact absurd (by simp) h
    · rw [afterFirst_some ha]
      have ht : (a ++ ' ' :: b).takeWhile (· ≠ ' ') = a := by
        rw [List.takeWhile_append_of_pos (by intro x hx; simp; rintro rfl; exact ha hx)]
        simp
      simp only [ht, reverseText_swapped]
      have hc : ¬ (e = .index ∧ ' ' ∉ a ++ ' ' :: b) := fun h => h.2 (by simp)
      rw [or_iff_right hc]
      have hred : ∀ P : List Char → List Char → Prop, (∃ a' b', a ++ ' ' :: b = a' ++ ' ' :: b' ∧ ' ' ∉ a' ∧ P a' b') ↔ P a b := by
        intro P
        constructor
        · rintro ⟨a', b', h1, h2, h3⟩
          obtain ⟨rfl, rfl⟩ := split_first_unique h1 ha h2
          exact h3
        · exact fun h => ⟨a, b, rfl, ha, h⟩
      rw [hred fun a b => ((e = .value ∧ ¬ ∃ v w, HexText a v ∧ HexText (Spec.swapped b) w) ∨
          ∃ v w, HexText a v ∧ HexText (Spec.swapped b) w ∧ mk w v = .error e)]
      show (pyInt16 a >>= fun x => pyInt16 (Spec.swapped b) >>= fun y => mk y x) = .error e ↔ _
      cases h1 : pyInt16 a with
      | error x =>
        obtain ⟨rfl, h2⟩ := pyInt16_error.1 h1
        show (Except.error Err.value : Py α) = .error e ↔ _
        constructor
        · intro h; cases h
          exact .inl ⟨rfl, fun ⟨v, _, h, _⟩ => h2 ⟨v, h⟩⟩
        · rintro (⟨rfl, _⟩ | ⟨v, _, h, _⟩)
          · rfl
          · exact absurd ⟨v, h⟩ h2
      | ok v =>
        have hv := pyInt16_iff.1 h1
        show (pyInt16 (Spec.swapped b) >>= fun y => mk y v) = .error e ↔ _
        cases h2 : pyInt16 (Spec.swapped b) with
        | error x =>
          obtain ⟨rfl, h3⟩ := pyInt16_error.1 h2
          show (Except.error Err.value : Py α) = .error e ↔ _
          constructor
          · intro h; cases h
            exact .inl ⟨rfl, fun ⟨_, w, _, h⟩ => h3 ⟨w, h⟩⟩
          · rintro (⟨rfl, _⟩ | ⟨_, w, _, h, _⟩)
            · rfl
            · exact absurd ⟨w, h⟩ h3
        | ok w =>
          have hw := pyInt16_iff.1 h2
          show mk w v = .error e ↔ _
          constructor
          · exact fun h => .inr ⟨v, w, hv, hw, h⟩
          · rintro (⟨_, h⟩ | ⟨v', w', h1, h2, h3⟩)
            · exact absurd ⟨v, w, hv, hw⟩ h
            · rw [hexText_unique hv h1, hexText_unique hw h2]
              exact h3

/-- A line of code, the other way round. -/
theorem classify_codeAt {sect : Option (List Char)} {line : List Char} {v w : Int} :
    classify sect line = .ok (.inst w v) ↔ Spec.CodeAt sect line v w := by
  unfold Spec.CodeAt
  by_cases h0 : White line
  · refine ⟨fun h => ?_, fun h => absurd h0 h.1⟩
    unfold classify at h
    rw [if_pos (strip_nil_iff.2 h0)] at h
    cases h
  cases h1 : Spec.opens line with
  | some n =>
    rw [classify_opens h1]
    exact ⟨fun h => (by cases h), fun h => (by cases h.2.1)⟩
  | none =>
    simp only [h0, not_false_eq_true, true_and]
    cases sect with
    | none =>
      have : classify none line = .error .attribute := by
        unfold classify
        rw [if_neg (fun h => h0 (strip_nil_iff.1 h)), if_neg (opens_none.1 h1)]
      rw [this]
      exact ⟨fun h => (by cases h), fun ⟨_, h, _⟩ => (by cases h)⟩
    | some n =>
      simp only [Option.some.injEq, exists_eq_left']
      by_cases hf : "function".toList <+: n
      · refine ⟨fun h => ?_, fun h => absurd hf h.1⟩
        obtain ⟨t1, t2⟩ := classify_table h0 h1 hf
        by_cases hg : ∃ a n v, line = a ++ ';' :: n ∧ ';' ∉ a ∧ ';' ∉ n ∧ HexText a v
        · obtain ⟨a, m, v, g1, g2, g3, g4⟩ := hg
          rw [t1 a m v g1 g2 g3 g4] at h
          cases h
        · rw [t2 hg] at h
          cases h
      · by_cases hc : ∃ k ∈ Spec.codeNames, k <+: n
        · obtain ⟨t1, t2⟩ := classify_code h0 h1 hf hc
          constructor
          · intro h
            refine ⟨hf, hc, ?_⟩
            rcases split_first ';' line with h2 | ⟨a, t, h2, ha⟩
            · rw [t1 h2] at h
              cases h
            · obtain ⟨f, r, h3, hf', hr⟩ := split_field ';' t
              rw [h3] at h2
              obtain ⟨u1, u2⟩ := t2 a f r h2 ha hf' hr
              by_cases hg : ∃ v w, HexText a v ∧ HexText f w
              · obtain ⟨v', w', hv, hw⟩ := hg
                rw [u1 v' w' hv hw] at h
                cases h
                exact ⟨a, f, r, h2, ha, hf', hr, hv, hw⟩
              · rw [u2 hg] at h
                cases h
          · rintro ⟨_, _, a, f, r, h2, ha, hf', hr, hv, hw⟩
            exact (t2 a f r h2 ha hf' hr).1 v w hv hw
        · refine ⟨fun h => ?_, fun h => absurd h.2.1 hc⟩
          unfold classify at h
          rw [if_neg (fun h => h0 (strip_nil_iff.1 h)), if_neg (opens_none.1 h1)] at h
          simp only at h
          rw [if_neg (fun h => hf (List.isPrefixOf_iff_prefix.1 h)), if_neg (fun h => hc (isCode_iff.1 h))] at h
          cases h

/-- What one line adds to the instructions. -/
theorem rdLine_insts {α : Type} {mk : Int → Int → Py α} {s s' : RdSt α} {line : List Char} (h : rdLine mk s line = .ok s') :
    (∃ v w i, Spec.CodeAt s.sect line v w ∧ mk w v = .ok i ∧ s'.insts = s.insts ++ [i]) ∨
    ((¬ ∃ v w, Spec.CodeAt s.sect line v w) ∧ s'.insts = s.insts) := by
  unfold rdLine at h
  cases hc : classify s.sect line with
  | error e => rw [hc] at h; cases h
  | ok ev =>
    rw [hc] at h
    have hno : (∀ w v, ev ≠ .inst w v) → ¬ ∃ v w, Spec.CodeAt s.sect line v w := by
      rintro hn ⟨v, w, h⟩
      rw [classify_codeAt.2 h] at hc
      exact hn w v (Except.ok.inj hc).symm
    cases ev with
    | skip => have := Except.ok.inj h; rw [← this]; exact .inr ⟨hno (by simp), rfl⟩
    | sect n => have := Except.ok.inj h; rw [← this]; exact .inr ⟨hno (by simp), rfl⟩
    | func a n => have := Except.ok.inj h; rw [← this]; exact .inr ⟨hno (by simp), rfl⟩
    | inst w v =>
      have h : (mk w v >>= _) = .ok s' := h
      cases hm : mk w v with
      | error x => rw [hm] at h; cases h
      | ok i =>
        rw [hm] at h
        have := Except.ok.inj h
        rw [← this]
        exact .inl ⟨v, w, i, classify_codeAt.1 hc, hm, rfl⟩

theorem sectAfter_snoc (p : List (List Char)) (line : List Char) :
    Spec.sectAfter (p ++ [line]) = (Spec.opens line).or (Spec.sectAfter p) := by
  unfold Spec.sectAfter
  rw [List.filterMap_append]
  cases h : Spec.opens line with
  | none => simp [h]
  | some n => simp [h]

theorem elfio_error {α : Type} {mk : Int → Int → Py α} {lines : List (List Char)} {e : Err} : elfioRead mk lines = .error e ↔
    ∃ p line q, lines = p ++ line :: q ∧ Spec.BadLine mk (Spec.sectAfter p) line e ∧
      ∀ p' line' q', p = p' ++ line' :: q' → ∀ e', ¬ Spec.BadLine mk (Spec.sectAfter p') line' e' := by
  rw [← foldlM_error_iff (f := rdLine mk) (I := fun p s => s.sect = Spec.sectAfter p)
    (B := fun p x e => Spec.BadLine mk (Spec.sectAfter p) x e) (s0 := {}) rfl ?_ ?_]
  · unfold elfioRead
    cases lines.foldlM (rdLine mk) {} with
    | error x => exact ⟨fun h => (by cases h; rfl), fun h => (by cases h; rfl)⟩
    | ok s => exact ⟨fun h => (by cases h), fun h => (by cases h)⟩
  · intro p s x s' hi h
    rw [rdLine_sect h, sectAfter_snoc, hi]
  · intro p s x e hi
    rw [rdLine_error, hi]

/-- The instructions of a listing, line by line. -/
theorem elfio_insts {α : Type} {mk : Int → Int → Py α} {lines : List (List Char)} {fs : List (List Char × List α)} {is : List α}
    (h : elfioRead mk lines = .ok (fs, is)) :
    ∃ pieces : List (List α), is = pieces.flatten ∧ pieces.length = lines.length ∧
      ∀ p line q, lines = p ++ line :: q → ∃ piece, pieces[p.length]? = some piece ∧
        ((∃ v w i, Spec.CodeAt (Spec.sectAfter p) line v w ∧ mk w v = .ok i ∧ piece = [i]) ∨
         ((¬ ∃ v w, Spec.CodeAt (Spec.sectAfter p) line v w) ∧ piece = [])) := by
  have key : ∀ lines : List (List Char), ∀ s, lines.foldlM (rdLine mk) {} = .ok s → s.sect = Spec.sectAfter lines ∧
      ∃ pieces : List (List α), s.insts = pieces.flatten ∧ pieces.length = lines.length ∧
      ∀ p line q, lines = p ++ line :: q → ∃ piece, pieces[p.length]? = some piece ∧
        ((∃ v w i, Spec.CodeAt (Spec.sectAfter p) line v w ∧ mk w v = .ok i ∧ piece = [i]) ∨
         ((¬ ∃ v w, Spec.CodeAt (Spec.sectAfter p) line v w) ∧ piece = [])) := by
    intro lines
    induction lines using List.reverseRecOn with
    | nil =>
      intro s h
      have := Except.ok.inj h
      rw [← this]
      exact ⟨rfl, [], rfl, rfl, fun p line q h => by simp at h⟩
    | append_singleton lines line ih =>
      intro s h
      rw [List.foldlM_append] at h
      cases h1 : lines.foldlM (rdLine mk) {} with
      | error e => rw [h1] at h; cases h
      | ok s1 =>
        rw [h1] at h
        have h : (rdLine mk s1 line >>= fun s => pure s) = .ok s := h
        rw [bind_pure] at h
        obtain ⟨i1, pieces, i2, i3, i4⟩ := ih s1 h1
        refine ⟨by rw [rdLine_sect h, sectAfter_snoc, i1], ?_⟩
        have hin := rdLine_insts h
        rw [i1] at hin
        have hex : ∃ piece, s.insts = s1.insts ++ piece ∧
            ((∃ v w i, Spec.CodeAt (Spec.sectAfter lines) line v w ∧ mk w v = .ok i ∧ piece = [i]) ∨
              ((¬ ∃ v w, Spec.CodeAt (Spec.sectAfter lines) line v w) ∧ piece = [])) := by
          rcases hin with ⟨v, w, i, a1, a2, a3⟩ | ⟨a1, a2⟩
          · exact ⟨[i], a3, .inl ⟨v, w, i, a1, a2, rfl⟩⟩
          · exact ⟨[], by rw [a2, List.append_nil], .inr ⟨a1, rfl⟩⟩
        obtain ⟨piece, b1, b2⟩ := hex
        refine ⟨pieces ++ [piece], by rw [b1, i2]; simp, by simp [i3], ?_⟩
        intro p line' q hp
        rcases List.eq_nil_or_concat q with rfl | ⟨q', y, rfl⟩
        · obtain ⟨rfl, hy⟩ := List.append_inj' hp rfl
          cases hy
          exact ⟨piece, by rw [← i3]; simp, b2⟩
        · have hp : lines ++ [line] = (p ++ line' :: q') ++ [y] := by rw [hp]; simp
          obtain ⟨hp, _⟩ := List.append_inj' hp rfl
          obtain ⟨pc, c1, c2⟩ := i4 p line' q' hp
          exact ⟨pc, by rw [List.getElem?_append_left (by rw [i3, hp]; simp)]; exact c1, c2⟩
  unfold elfioRead at h
  cases h1 : lines.foldlM (rdLine mk) {} with
  | error e => rw [h1] at h; cases h
  | ok s =>
    rw [h1] at h
    obtain ⟨_, pieces, i2, i3, i4⟩ := key lines s h1
    have := Except.ok.inj h
    have e : s.insts = is := congrArg Prod.snd this
    exact ⟨pieces, e ▸ i2, i3, i4⟩

theorem textInst_error {α : Type} {mk : Int → Int → Py α} {s : List α} {line : List Char} {e : Err} (hl : line ≠ []) :
    textInstLine mk s line = .error e ↔ Spec.BadText mk line e := by
  obtain ⟨nls, h1, h2, h3⟩ := rstripNl_split line
  have hu : ∀ l nls', line = l ++ nls' → (∀ c ∈ nls', c = '\n') → l.getLast? ≠ some '\n' → l = rstripNl line := by
    intro l nls' e1 e2 e3
    rw [e1]
    unfold rstripNl
    rw [List.reverse_append]
    rw [dropWhile_append_all _ nls'.reverse _ (by intro x hx; simpa using e2 x (by simpa using hx))]
    cases hr : l.reverse with
    | nil => rw [List.reverse_eq_nil_iff.1 hr]; rfl
    | cons x t =>
      have : l = t.reverse ++ [x] := by rw [← List.reverse_reverse l, hr]; simp
      rw [this] at e3
      rw [List.dropWhile_cons_of_neg (by simpa using e3), ← hr, List.reverse_reverse]
  have hbad : Spec.BadText mk line e ↔ (rstripNl line).head? = some ' ' ∧ rdTextInst mk (rstripNl line) = .error e := by
    unfold Spec.BadText
    rw [rdTextInst_error]
    constructor
    · rintro ⟨l, nls', e1, e2, e3, e4, e5⟩
      obtain rfl := hu l nls' e1 e2 e3
      exact ⟨e4, e5⟩
    · rintro ⟨e4, e5⟩
      exact ⟨_, nls, h1, h2, h3, e4, e5⟩
  have hhead : (rstripNl line).head? = some ' ' ↔ line.head? = some ' ' := by
    cases hr : rstripNl line with
    | nil =>
      rw [hr] at h1
      cases line with
      | nil => exact absurd rfl hl
      | cons x t =>
        have := h2 x (by rw [← List.nil_append nls, ← h1]; simp)
        subst this
        simp
    | cons x t =>
      rw [hr] at h1
      rw [h1]
      rfl
  rw [hbad, hhead]
  unfold textInstLine
  split
  · exact absurd rfl hl
  · rename_i t
    simp only [List.head?_cons, true_and]
    cases rdTextInst mk (rstripNl (' ' :: t)) with
    | error x => exact ⟨fun h => (by cases h; rfl), fun h => (by cases h; rfl)⟩
    | ok i => exact ⟨fun h => (by cases h), fun h => (by cases h)⟩
  · rename_i hn
    refine ⟨fun h => (by cases h), fun h => ?_⟩
    cases line with
    | nil => exact absurd rfl hl
    | cons x t =>
      obtain ⟨h, _⟩ := h
      cases h
      exact absurd rfl (hn t)

theorem text_error {α : Type} {mk : Int → Int → Py α} {lines : List (List Char)} {e : Err} (hl : ∀ l ∈ lines, l ≠ []) :
    textReadInstructions mk lines = .error e ↔
    ∃ p line q, lines = p ++ line :: q ∧ Spec.BadText mk line e ∧ ∀ line' ∈ p, ∀ e', ¬ Spec.BadText mk line' e' := by
  unfold textReadInstructions
  have := foldlM_error_iff (f := textInstLine mk) (I := fun _ _ => True)
    (B := fun _ x e => (x = [] ∧ e = .index) ∨ (x ≠ [] ∧ Spec.BadText mk x e)) (s0 := []) trivial (fun _ _ _ _ _ _ => trivial) (by
      intro p s x e _
      by_cases hx : x = []
      · subst hx
        simp only [true_and, ne_eq, not_true_eq_false, false_and, or_false]
        show (Except.error Err.index : Py (List α)) = .error e ↔ _
        exact ⟨fun h => (by cases h; rfl), fun h => (by rw [h])⟩
      · rw [textInst_error hx]
        simp [hx]) lines e
  rw [this]
  constructor
  · rintro ⟨p, x, q, h1, h2, h3⟩
    have hx : x ≠ [] := hl x (by rw [h1]; simp)
    refine ⟨p, x, q, h1, by simpa [hx] using h2, ?_⟩
    intro y hy e' hb
    obtain ⟨p', q', rfl⟩ := List.append_of_mem hy
    exact h3 p' y q' rfl e' (.inr ⟨hl y (by rw [h1]; simp), hb⟩)
  · rintro ⟨p, x, q, h1, h2, h3⟩
    refine ⟨p, x, q, h1, .inr ⟨hl x (by rw [h1]; simp), h2⟩, ?_⟩
    rintro p' y q' rfl e' (⟨hy, _⟩ | ⟨_, hb⟩)
    · exact hl y (by rw [h1]; simp) hy
    · exact h3 y (by simp) e' hb

end Verif
