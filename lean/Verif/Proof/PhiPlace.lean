import Verif.Model.Frontier
import Verif.Spec.Graph
import Verif.Spec.Ssa
import Verif.Proof.Dominators
import Verif.Proof.Metadata
import Mathlib.Data.List.Perm.Subperm

/-! # Placement of merge functions -/

namespace Verif

open Spec (Iterated)

theorem mem_insertNew {l : List Nat} {x y : Nat} : y ∈ insertNew l x ↔ y ∈ l ∨ y = x := by
  unfold insertNew
  split
  · rename_i h
    constructor
    · exact Or.inl
    · rintro (h' | rfl)
      · exact h'
      · exact h
  · simp

theorem insertNew_nodup {l : List Nat} {x : Nat} (h : l.Nodup) : (insertNew l x).Nodup := by
  unfold insertNew
  split
  · exact h
  · rename_i hx
    rw [List.nodup_append]
    exact ⟨h, by simp, fun a ha b hb => by rw [List.mem_singleton.1 hb]; rintro rfl; exact hx ha⟩

theorem insertNew_prefix (l : List Nat) (x : Nat) : ∃ e, insertNew l x = l ++ e := by
  unfold insertNew
  split
  · exact ⟨[], by simp⟩
  · exact ⟨[x], rfl⟩

/-! ### The scan -/

theorem mem_scanReads {kill : List Nat} (rs : List Nat) : ∀ (gl : List Nat) (x : Nat),
    x ∈ scanReads kill gl rs ↔ x ∈ gl ∨ (x ∈ rs ∧ x ∉ kill) := by
  unfold scanReads
  induction rs with
  | nil => intro gl x; simp
  | cons r rs ih =>
    intro gl x
    rw [List.foldl_cons, ih, List.mem_cons]
    split
    · rename_i h
      rw [List.mem_append, List.mem_singleton]
      constructor
      · rintro ((h' | rfl) | h')
        · exact Or.inl h'
        · exact Or.inr ⟨Or.inl rfl, h.2⟩
        · exact Or.inr ⟨Or.inr h'.1, h'.2⟩
      · rintro (h' | ⟨rfl | h1, h2⟩)
        · exact Or.inl (Or.inl h')
        · exact Or.inl (Or.inr rfl)
        · exact Or.inr ⟨h1, h2⟩
    · rename_i h
      constructor
      · rintro (h' | h')
        · exact Or.inl h'
        · exact Or.inr ⟨Or.inr h'.1, h'.2⟩
      · rintro (h' | ⟨rfl | h1, h2⟩)
        · exact Or.inl h'
        · by_cases hg : x ∈ gl
          · exact Or.inl hg
          · exact absurd ⟨hg, h2⟩ h
        · exact Or.inr ⟨h1, h2⟩

theorem scanReads_nodup {kill : List Nat} (rs : List Nat) : ∀ (gl : List Nat), gl.Nodup → (scanReads kill gl rs).Nodup := by
  unfold scanReads
  induction rs with
  | nil => intro gl h; exact h
  | cons r rs ih =>
    intro gl h
    rw [List.foldl_cons]
    apply ih
    split
    · rename_i h'
      rw [List.nodup_append]
      exact ⟨h, by simp, fun a ha b hb => by rw [List.mem_singleton.1 hb]; rintro rfl; exact h'.1 ha⟩
    · exact h

/-- The blocks writing a register, as recorded. -/
def writersOf (d : List (Nat × List Nat)) (x : Nat) : List Nat := (dictGet d x).getD []

theorem writersOf_dictSet (d : List (Nat × List Nat)) (w x : Nat) (v : List Nat) :
    writersOf (dictSet d w v) x = if w = x then v else writersOf d x := by
  unfold writersOf
  rw [dictGet_dictSet]
  split <;> simp

theorem writersOf_step (node : Nat) (d : List (Nat × List Nat)) (w x : Nat) :
    writersOf (noteWriter node d w) x = if w = x then insertNew (writersOf d x) node else writersOf d x := by
  unfold noteWriter
  cases h : dictGet d w with
  | none =>
    show writersOf (dictSet d w [node]) x = _
    rw [writersOf_dictSet]
    split
    · rename_i e
      subst e
      have : writersOf d w = [] := by unfold writersOf; rw [h]; rfl
      rw [this]
      rfl
    · rfl
  | some ns =>
    show writersOf (if node ∈ ns then d else dictSet d w (ns ++ [node])) x = _
    have hw : writersOf d w = ns := by unfold writersOf; rw [h]; rfl
    by_cases hn : node ∈ ns
    · rw [if_pos hn]
      split
      · rename_i e
        subst e
        rw [hw]
        unfold insertNew
        rw [if_pos hn]
      · rfl
    · rw [if_neg hn, writersOf_dictSet]
      split
      · rename_i e
        subst e
        rw [hw]
        unfold insertNew
        rw [if_neg hn]
      · rfl

theorem scanWrites_ok (node : Nat) (ws : List Nat) : ∀ (acc : List Nat × List (Nat × List Nat)),
    (∀ x, x ∈ (scanWrites node acc ws).1 ↔ x ∈ acc.1 ∨ x ∈ ws) ∧
    (∀ x n, n ∈ writersOf (scanWrites node acc ws).2 x ↔ n ∈ writersOf acc.2 x ∨ (n = node ∧ x ∈ ws)) ∧
    ((∀ x, (writersOf acc.2 x).Nodup) → ∀ x, (writersOf (scanWrites node acc ws).2 x).Nodup) := by
  unfold scanWrites
  induction ws with
  | nil => intro acc; exact ⟨by simp, by simp, fun h => h⟩
  | cons w ws ih =>
    intro acc
    rw [List.foldl_cons]
    obtain ⟨h1, h2, h3⟩ := ih (insertNew acc.1 w, noteWriter node acc.2 w)
    refine ⟨?_, ?_, ?_⟩
    · intro x
      rw [h1, mem_insertNew, List.mem_cons, or_assoc]
    · intro x n
      rw [h2, writersOf_step]
      split
      · rename_i e
        subst e
        rw [mem_insertNew]
        simp only [List.mem_cons, true_or, and_true]
        tauto
      · rename_i e
        simp only [List.mem_cons]
        constructor
        · rintro (h | ⟨h, h'⟩)
          · exact Or.inl h
          · exact Or.inr ⟨h, Or.inr h'⟩
        · rintro (h | ⟨h, rfl | h'⟩)
          · exact Or.inl h
          · exact absurd rfl e
          · exact Or.inr ⟨h, h'⟩
    · intro hn
      apply h3
      intro x
      rw [writersOf_step]
      split
      · exact insertNew_nodup (hn x)
      · exact hn x

/-- After some instructions of a block. -/
theorem scanInsts_ok (node : Nat) (is : List Access) : ∀ (kill : List Nat) (s : PhiScan),
    let r := is.foldl (scanInst node) (kill, s)
    (∀ x, x ∈ r.2.globals ↔ x ∈ s.globals ∨
      (x ∉ kill ∧ ∃ pre i post, is = pre ++ i :: post ∧ x ∈ i.reads ∧ ∀ j ∈ pre, x ∉ j.writes)) ∧
    (∀ x n, n ∈ writersOf r.2.blocks x ↔ n ∈ writersOf s.blocks x ∨ (n = node ∧ ∃ i ∈ is, x ∈ i.writes)) ∧
    (s.globals.Nodup → r.2.globals.Nodup) ∧
    ((∀ x, (writersOf s.blocks x).Nodup) → ∀ x, (writersOf r.2.blocks x).Nodup) := by
  induction is with
  | nil => intro kill s; simp
  | cons i is ih =>
    intro kill s
    simp only [List.foldl_cons]
    obtain ⟨w1, w2, w3⟩ := scanWrites_ok node i.writes (kill, s.blocks)
    obtain ⟨h1, h2, h3, h4⟩ := ih (scanInst node (kill, s) i).1 (scanInst node (kill, s) i).2
    have ek : (scanInst node (kill, s) i).1 = (scanWrites node (kill, s.blocks) i.writes).1 := rfl
    have eg : (scanInst node (kill, s) i).2.globals = scanReads kill s.globals i.reads := rfl
    have eb : (scanInst node (kill, s) i).2.blocks = (scanWrites node (kill, s.blocks) i.writes).2 := rfl
    refine ⟨?_, ?_, ?_, ?_⟩
    · intro x
      have h1 := h1 x
      rw [eg, ek, w1, mem_scanReads] at h1
      refine h1.trans ?_
      constructor
      · rintro ((h | ⟨h, h'⟩) | ⟨h, pre, j, post, h5, h6, h7⟩)
        · exact Or.inl h
        · exact Or.inr ⟨h', [], i, is, rfl, h, by simp⟩
        · refine Or.inr ⟨fun hk => h (Or.inl hk), i :: pre, j, post, by rw [h5]; rfl, h6, ?_⟩
          intro k hk
          rcases List.mem_cons.1 hk with rfl | hk
          · exact fun hk => h (Or.inr hk)
          · exact h7 k hk
      · rintro (h | ⟨h, pre, j, post, h5, h6, h7⟩)
        · exact Or.inl (Or.inl h)
        · cases pre with
          | nil =>
            cases h5
            exact Or.inl (Or.inr ⟨h6, h⟩)
          | cons k pre =>
            cases h5
            refine Or.inr ⟨?_, pre, j, post, rfl, h6, fun k hk => h7 k (List.mem_cons_of_mem _ hk)⟩
            rintro (h' | h')
            · exact h h'
            · exact h7 i (by simp) h'
    · intro x n
      have h2 := h2 x n
      rw [eb, w2] at h2
      refine h2.trans ?_
      constructor
      · rintro ((h | ⟨h, h'⟩) | ⟨h, j, h', h''⟩)
        · exact Or.inl h
        · exact Or.inr ⟨h, i, by simp, h'⟩
        · exact Or.inr ⟨h, j, List.mem_cons_of_mem _ h', h''⟩
      · rintro (h | ⟨h, j, h', h''⟩)
        · exact Or.inl (Or.inl h)
        · rcases List.mem_cons.1 h' with rfl | h'
          · exact Or.inl (Or.inr ⟨h, h''⟩)
          · exact Or.inr ⟨h, j, h', h''⟩
    · intro h
      apply h3
      rw [eg]
      exact scanReads_nodup _ _ h
    · intro h
      apply h4
      rw [eb]
      exact w3 h

theorem scanBlocks_ok (insts : Nat → List Access) (nodes : List Nat) : ∀ (s : PhiScan),
    let r := nodes.foldl (scanBlock insts) s
    (∀ x, x ∈ r.globals ↔ x ∈ s.globals ∨ Spec.Exposed nodes (fun n => (insts n).map fun i => (i.reads, i.writes)) x) ∧
    (∀ x n, n ∈ writersOf r.blocks x ↔ n ∈ writersOf s.blocks x ∨
      Spec.Writer nodes (fun n => (insts n).map fun i => (i.reads, i.writes)) x n) ∧
    (s.globals.Nodup → r.globals.Nodup) ∧
    ((∀ x, (writersOf s.blocks x).Nodup) → ∀ x, (writersOf r.blocks x).Nodup) := by
  induction nodes with
  | nil => intro s; simp [Spec.Exposed, Spec.Writer]
  | cons n nodes ih =>
    intro s
    simp only [List.foldl_cons]
    obtain ⟨h1, h2, h3, h4⟩ := ih (scanBlock insts s n)
    obtain ⟨g1, g2, g3, g4⟩ := scanInsts_ok n (insts n) [] s
    refine ⟨?_, ?_, fun h => h3 (g3 h), fun h => h4 (g4 h)⟩
    · intro x
      refine (h1 x).trans ?_
      have e : x ∈ (scanBlock insts s n).globals ↔ _ := g1 x
      rw [e]
      unfold Spec.Exposed
      constructor
      · rintro ((h | ⟨_, pre, i, post, h5, h6, h7⟩) | ⟨m, hm, h⟩)
        · exact Or.inl h
        · refine Or.inr ⟨n, by simp, pre.map fun i => (i.reads, i.writes), (i.reads, i.writes),
            post.map fun i => (i.reads, i.writes), by simp [h5], h6, ?_⟩
          intro j hj
          obtain ⟨k, hk, rfl⟩ := List.mem_map.1 hj
          exact h7 k hk
        · exact Or.inr ⟨m, List.mem_cons_of_mem _ hm, h⟩
      · rintro (h | ⟨m, hm, pre, i, post, h5, h6, h7⟩)
        · exact Or.inl (Or.inl h)
        · rcases List.mem_cons.1 hm with rfl | hm
          · left
            right
            obtain ⟨pre', r1, e1, e2, e3⟩ := List.map_eq_append_iff.1 h5
            obtain ⟨i', post', e4, e5, e6⟩ := List.map_eq_cons_iff.1 e3
            refine ⟨by simp, pre', i', post', by rw [e1, e4], ?_, ?_⟩
            · rw [← e5] at h6
              exact h6
            · intro j hj
              exact h7 (j.reads, j.writes) (by rw [← e2]; exact List.mem_map_of_mem hj)
          · exact Or.inr ⟨m, hm, pre, i, post, h5, h6, h7⟩
    · intro x m
      refine (h2 x m).trans ?_
      have e : m ∈ writersOf (scanBlock insts s n).blocks x ↔ _ := g2 x m
      rw [e]
      unfold Spec.Writer
      constructor
      · rintro ((h | ⟨rfl, i, h5, h6⟩) | ⟨hm, i, h5, h6⟩)
        · exact Or.inl h
        · exact Or.inr ⟨by simp, (i.reads, i.writes), List.mem_map.2 ⟨i, h5, rfl⟩, h6⟩
        · exact Or.inr ⟨List.mem_cons_of_mem _ hm, i, h5, h6⟩
      · rintro (h | ⟨hm, i, h5, h6⟩)
        · exact Or.inl (Or.inl h)
        · rcases List.mem_cons.1 hm with rfl | hm
          · obtain ⟨j, hj, rfl⟩ := List.mem_map.1 h5
            exact Or.inl (Or.inr ⟨rfl, j, hj, h6⟩)
          · exact Or.inr ⟨hm, i, h5, h6⟩

/-! ### The work list -/

/-- The merge functions of a block, each without parameters, are those `P` says. -/
def PhiIs (phis : Phis) (P : Nat → Nat → Prop) : Prop :=
  ∀ d, ((phis d).map (·.1)).Nodup ∧ ∀ k v, dictGet (phis d) k = some v ↔ v = [] ∧ k.2 = 0 ∧ P d k.1

theorem PhiIs.congr {phis : Phis} {P Q : Nat → Nat → Prop} (h : PhiIs phis P) (e : ∀ d x, P d x ↔ Q d x) :
    PhiIs phis Q := fun d => ⟨(h d).1, fun k v => by rw [(h d).2, e]⟩

theorem placeAt_phis {isEnd : Nat → Bool} {x : Nat} {acc : List Nat × Phis} {P : Nat → Nat → Prop} (d : Nat)
    (h : PhiIs acc.2 P) :
    PhiIs (placeAt isEnd x acc d).2 fun b y => P b y ∨ (y = x ∧ b = d ∧ isEnd d = false) := by
  unfold placeAt
  by_cases he : isEnd d = true
  · rw [if_pos he]
    refine h.congr fun b y => ?_
    rw [he]
    simp
  · rw [if_neg he]
    have he' : isEnd d = false := by simpa using he
    show PhiIs (if (dictGet (acc.2 d) (x, 0)).isSome then acc.2 else put acc.2 d (dictSet (acc.2 d) (x, 0) [])) _
    by_cases hs : (dictGet (acc.2 d) (x, 0)).isSome = true
    · rw [if_pos hs]
      refine h.congr fun b y => ?_
      constructor
      · exact Or.inl
      · rintro (h' | ⟨rfl, rfl, _⟩)
        · exact h'
        · obtain ⟨v, hv⟩ := Option.isSome_iff_exists.1 hs
          exact (((h b).2 _ _).1 hv).2.2
    · rw [if_neg hs]
      intro b
      by_cases hb : b = d
      · subst hb
        rw [put_same]
        refine ⟨keys_dictSet_nodup _ _ _ (h b).1, ?_⟩
        intro k v
        rw [dictGet_dictSet]
        split
        · rename_i e
          subst e
          simp only [he', true_and, or_true, and_true]
          constructor
          · intro h'; exact (Option.some.inj h').symm
          · intro h'; rw [h']
        · rename_i e
          rw [(h b).2]
          constructor
          · rintro ⟨h1, h2, h3⟩; exact ⟨h1, h2, Or.inl h3⟩
          · rintro ⟨h1, h2, h3 | ⟨h3, _⟩⟩
            · exact ⟨h1, h2, h3⟩
            · exact absurd (Prod.ext h3.symm h2.symm) e
      · rw [put_ne _ _ _ hb]
        refine ⟨(h b).1, fun k v => ?_⟩
        rw [(h b).2]
        simp [hb]

theorem placeAt_list {isEnd : Nat → Bool} {x : Nat} {acc : List Nat × Phis} (d : Nat) :
    (∀ b, b ∈ (placeAt isEnd x acc d).1 ↔ b ∈ acc.1 ∨ (b = d ∧ isEnd d = false)) ∧
    (∃ e, (placeAt isEnd x acc d).1 = acc.1 ++ e) ∧ (acc.1.Nodup → (placeAt isEnd x acc d).1.Nodup) := by
  unfold placeAt
  by_cases he : isEnd d = true
  · rw [if_pos he, he]
    exact ⟨by simp, ⟨[], by simp⟩, id⟩
  · rw [if_neg he]
    have he' : isEnd d = false := by simpa using he
    refine ⟨fun b => ?_, insertNew_prefix _ _, insertNew_nodup⟩
    show b ∈ insertNew acc.1 d ↔ _
    rw [mem_insertNew, he']
    simp

theorem placeAll {isEnd : Nat → Bool} {x : Nat} (ds : List Nat) : ∀ (acc : List Nat × Phis) (P : Nat → Nat → Prop),
    PhiIs acc.2 P → acc.1.Nodup →
    PhiIs (ds.foldl (placeAt isEnd x) acc).2 (fun b y => P b y ∨ (y = x ∧ b ∈ ds ∧ isEnd b = false)) ∧
    (∀ b, b ∈ (ds.foldl (placeAt isEnd x) acc).1 ↔ b ∈ acc.1 ∨ (b ∈ ds ∧ isEnd b = false)) ∧
    (∃ e, (ds.foldl (placeAt isEnd x) acc).1 = acc.1 ++ e) ∧ (ds.foldl (placeAt isEnd x) acc).1.Nodup := by
  induction ds with
  | nil =>
    intro acc P h hn
    exact ⟨h.congr (by simp), by simp, ⟨[], by simp⟩, hn⟩
  | cons d ds ih =>
    intro acc P h hn
    rw [List.foldl_cons]
    obtain ⟨a1, ⟨e, a2⟩, a3⟩ := placeAt_list (isEnd := isEnd) (x := x) (acc := acc) d
    obtain ⟨h1, h2, ⟨e', h3⟩, h4⟩ := ih _ _ (placeAt_phis d h) (a3 hn)
    refine ⟨h1.congr ?_, ?_, ⟨e ++ e', by rw [h3, a2, List.append_assoc]⟩, h4⟩
    · intro b y
      rw [List.mem_cons]
      constructor
      · rintro ((h | ⟨h5, h6, h7⟩) | ⟨h5, h6, h7⟩)
        · exact Or.inl h
        · exact Or.inr ⟨h5, Or.inl h6, by rw [h6]; exact h7⟩
        · exact Or.inr ⟨h5, Or.inr h6, h7⟩
      · rintro (h | ⟨h5, h6 | h6, h7⟩)
        · exact Or.inl (Or.inl h)
        · exact Or.inl (Or.inr ⟨h5, h6, by rw [← h6]; exact h7⟩)
        · exact Or.inr ⟨h5, h6, h7⟩
    · intro b
      rw [h2, a1, List.mem_cons]
      constructor
      · rintro ((h | ⟨h6, h7⟩) | ⟨h6, h7⟩)
        · exact Or.inl h
        · exact Or.inr ⟨Or.inl h6, by rw [h6]; exact h7⟩
        · exact Or.inr ⟨Or.inr h6, h7⟩
      · rintro (h | ⟨h6 | h6, h7⟩)
        · exact Or.inl (Or.inl h)
        · exact Or.inl (Or.inr ⟨h6, by rw [← h6]; exact h7⟩)
        · exact Or.inr ⟨h6, h7⟩

/-- The frontiers that are followed. -/
def Followed (df : Nat → List Nat) (isEnd : Nat → Bool) (b d : Nat) : Prop := d ∈ df b ∧ isEnd d = false

theorem workLoop_ok {df : Nat → List Nat} {isEnd : Nat → Bool} {x : Nat} {U : List Nat}
    (hU : ∀ b d, d ∈ df b → isEnd d = false → d ∈ U) {W : Nat → Prop} {P : Nat → Nat → Prop} :
    ∀ (fuel i : Nat) (wl : List Nat) (phis : Phis), wl.Nodup → (∀ b ∈ wl, b ∈ U) → i ≤ wl.length →
      U.length - i < fuel → (∀ b, W b → b ∈ wl) → (∀ b ∈ wl, W b ∨ Iterated (Followed df isEnd) W b) →
      (∀ b ∈ wl.take i, ∀ d, Followed df isEnd b d → d ∈ wl) →
      PhiIs phis (fun d y => P d y ∨ (y = x ∧ ∃ b ∈ wl.take i, Followed df isEnd b d)) →
      ∃ phis', workLoop df isEnd x fuel i wl phis = (pure phis' : Run Phis) ∧
        PhiIs phis' (fun d y => P d y ∨ (y = x ∧ Iterated (Followed df isEnd) W d)) := by
  intro fuel
  induction fuel with
  | zero => intro i wl phis _ _ _ h; omega
  | succ fuel ih =>
    intro i wl phis hn hwU hi hf hW hwl hcl hph
    unfold workLoop
    rcases Nat.lt_or_ge i wl.length with hlt | hge
    · have e : wl[i]? = some wl[i] := List.getElem?_eq_getElem hlt
      rw [e]
      have hb : wl[i] ∈ wl := List.getElem_mem hlt
      obtain ⟨p1, p2, ⟨ex, p3⟩, p4⟩ := placeAll (isEnd := isEnd) (x := x) (df wl[i]) (wl, phis) _ hph hn
      have htake : ∀ l : List Nat, (wl ++ l).take (i + 1) = wl.take i ++ [wl[i]] := by
        intro l
        rw [List.take_append_of_le_length (by omega), List.take_succ_eq_append_getElem hlt]
      have hlen : wl.length ≤ U.length := (hn.subperm fun b hb => hwU b hb).length_le
      apply ih (i + 1) _ _ p4
      · intro b hb'
        rcases (p2 b).1 hb' with h | ⟨h, h'⟩
        · exact hwU b h
        · exact hU _ b h h'
      · rw [p3, List.length_append]
        show i + 1 ≤ wl.length + ex.length
        omega
      · omega
      · intro b hb'
        exact (p2 b).2 (Or.inl (hW b hb'))
      · intro b hb'
        rcases (p2 b).1 hb' with h | ⟨h, h'⟩
        · exact hwl b h
        · rcases hwl _ hb with h'' | h''
          · exact Or.inr (.first h'' ⟨h, h'⟩)
          · exact Or.inr (.next h'' ⟨h, h'⟩)
      · rw [p3]
        show ∀ b ∈ (wl ++ ex).take (i + 1), _
        rw [htake]
        intro b hb' d hd
        show d ∈ wl ++ ex
        rw [show wl ++ ex = _ from p3.symm, p2]
        rcases List.mem_append.1 hb' with h | h
        · exact Or.inl (hcl b h d hd)
        · rw [List.mem_singleton.1 h] at hd
          exact Or.inr hd
      · refine p1.congr ?_
        intro d y
        rw [p3]
        show _ ↔ P d y ∨ (y = x ∧ ∃ b ∈ (wl ++ ex).take (i + 1), Followed df isEnd b d)
        rw [htake]
        constructor
        · rintro ((h | ⟨h1, b, h2, h3⟩) | ⟨h1, h2⟩)
          · exact Or.inl h
          · exact Or.inr ⟨h1, b, List.mem_append_left _ h2, h3⟩
          · exact Or.inr ⟨h1, wl[i], List.mem_append_right _ (List.mem_singleton.2 rfl), h2⟩
        · rintro (h | ⟨h1, b, h2, h3⟩)
          · exact Or.inl (Or.inl h)
          · rcases List.mem_append.1 h2 with h2 | h2
            · exact Or.inl (Or.inr ⟨h1, b, h2, h3⟩)
            · rw [List.mem_singleton.1 h2] at h3
              exact Or.inr ⟨h1, h3⟩
    · rw [List.getElem?_eq_none hge]
      refine ⟨phis, rfl, hph.congr ?_⟩
      intro d y
      rw [List.take_of_length_le hge] at hcl ⊢
      have hiter : ∀ b, Iterated (Followed df isEnd) W b → b ∈ wl := by
        intro b h
        induction h with
        | first h1 h2 => exact hcl _ (hW _ h1) _ h2
        | next _ h2 ih => exact hcl _ ih _ h2
      constructor
      · rintro (h | ⟨h1, b, h2, h3⟩)
        · exact Or.inl h
        · rcases hwl b h2 with h | h
          · exact Or.inr ⟨h1, .first h h3⟩
          · exact Or.inr ⟨h1, .next h h3⟩
      · rintro (h | ⟨h1, h2⟩)
        · exact Or.inl h
        · cases h2 with
          | first h3 h4 => exact Or.inr ⟨h1, _, hW _ h3, h4⟩
          | next h3 h4 => exact Or.inr ⟨h1, _, hiter _ h3, h4⟩

theorem placeVar_ok {df : Nat → List Nat} {isEnd : Nat → Bool} {x : Nat} {U : List Nat}
    (hU : ∀ b d, d ∈ df b → isEnd d = false → d ∈ U) {blocks : List (Nat × List Nat)}
    (hb : ∀ b ∈ writersOf blocks x, b ∈ U) (hn : (writersOf blocks x).Nodup) {P : Nat → Nat → Prop} {fuel : Nat}
    (hf : U.length < fuel) {phis : Phis} (h : PhiIs phis P) :
    ∃ phis', placeVar df isEnd fuel blocks phis x = (pure phis' : Run Phis) ∧
      PhiIs phis' (fun d y => P d y ∨ (y = x ∧ Iterated (Followed df isEnd) (· ∈ writersOf blocks x) d)) := by
  unfold placeVar
  cases hg : dictGet blocks x with
  | none =>
    have e : writersOf blocks x = [] := by unfold writersOf; rw [hg]; rfl
    refine ⟨phis, rfl, h.congr ?_⟩
    intro d y
    constructor
    · exact Or.inl
    · rintro (h' | ⟨_, h'⟩)
      · exact h'
      · exfalso
        rw [e] at h'
        induction h' with
        | first h1 _ => cases h1
        | next _ _ ih => exact ih
  | some ns =>
    have e : writersOf blocks x = ns := by unfold writersOf; rw [hg]; rfl
    show ∃ phis', workLoop df isEnd x fuel 0 ns phis = _ ∧ _
    rw [e] at hb hn ⊢
    apply workLoop_ok hU fuel 0 ns phis hn hb (Nat.zero_le _) (by omega) (fun b h => h) (fun b h => Or.inl h)
    · intro b hb; simp at hb
    · exact h.congr (by simp)

theorem placeVars_ok {df : Nat → List Nat} {isEnd : Nat → Bool} {U : List Nat}
    (hU : ∀ b d, d ∈ df b → isEnd d = false → d ∈ U) {blocks : List (Nat × List Nat)}
    (hb : ∀ x, ∀ b ∈ writersOf blocks x, b ∈ U) (hn : ∀ x, (writersOf blocks x).Nodup) {fuel : Nat}
    (hf : U.length < fuel) (xs : List Nat) : ∀ (P : Nat → Nat → Prop) (phis : Phis), PhiIs phis P →
    ∃ phis', xs.foldlM (placeVar df isEnd fuel blocks) phis = (pure phis' : Run Phis) ∧
      PhiIs phis' (fun d y => P d y ∨ (y ∈ xs ∧ Iterated (Followed df isEnd) (· ∈ writersOf blocks y) d)) := by
  induction xs with
  | nil => intro P phis h; exact ⟨phis, rfl, h.congr (by simp)⟩
  | cons x xs ih =>
    intro P phis h
    obtain ⟨p1, e1, h1⟩ := placeVar_ok hU (hb x) (hn x) hf h
    obtain ⟨p2, e2, h2⟩ := ih _ p1 h1
    refine ⟨p2, ?_, h2.congr ?_⟩
    · rw [List.foldlM_cons, run_bind_ok e1]
      exact e2
    · intro d y
      rw [List.mem_cons]
      constructor
      · rintro ((h | ⟨rfl, h⟩) | ⟨h, h'⟩)
        · exact Or.inl h
        · exact Or.inr ⟨Or.inl rfl, h⟩
        · exact Or.inr ⟨Or.inr h, h'⟩
      · rintro (h | ⟨rfl | h, h'⟩)
        · exact Or.inl (Or.inl h)
        · exact Or.inl (Or.inr ⟨rfl, h'⟩)
        · exact Or.inr ⟨h, h'⟩

end Verif
