import Verif.Proof.CfgExactLine

/-! # The graph, node by node and edge by edge -/

namespace Verif

open Spec

/-- By which end edges leave a node. -/
def Cfg.src (c : Cfg) (first : Nat → Nat) (n : Nat) : CfgEnd := leavesBy (c.kind n) (c.insts n) (first n)

/-- By which end edges enter a node. -/
def Cfg.dst (c : Cfg) (first : Nat → Nat) (n : Nat) : CfgEnd := entersBy (c.kind n) (c.insts n) (first n)

/-- What is to be said of a graph. -/
structure Picture where
  ins : Nat → Prop
  heads : Nat → Prop
  conds : Nat → Prop
  unks : Nat → Prop
  edge : CfgEnd → CfgEnd → Prop

/-- The graph is as the picture says. -/
structure XInv (D : List Nat) (first : Nat → Nat) (A : Picture) (c : Cfg) : Prop where
  bound : ∀ n ∈ c.nodes, n ≤ c.lastIdx
  ends : ∀ u v, (u, v) ∈ c.edges → u ∈ c.nodes ∧ v ∈ c.nodes
  nodup : c.edges.Nodup
  one : ∀ n ∈ c.nodes, c.kind n = .root → n = 1
  two : ∀ n ∈ c.nodes, c.kind n = .fin → n = 2
  fin : 2 ∈ c.nodes ∧ c.kind 2 = .fin
  hollow : ∀ n ∈ c.nodes, c.kind n ≠ .block → c.insts n = []
  full : ∀ n ∈ c.nodes, c.kind n = .block → c.insts n ≠ []
  contig : ∀ n ∈ c.nodes, ∃ d r, D = d ++ (c.insts n ++ r)
  ins : ∀ x, A.ins x ↔ ∃ n ∈ c.nodes, x ∈ c.insts n
  disj : ∀ n ∈ c.nodes, ∀ m ∈ c.nodes, ∀ x, x ∈ c.insts n → x ∈ c.insts m → n = m
  heads : ∀ x, A.heads x ↔ ∃ n ∈ c.nodes, (c.insts n).head? = some x
  conds : ∀ x, A.conds x ↔ ∃ n ∈ c.nodes, c.kind n = .cond ∧ first n = x
  unks : ∀ x, A.unks x ↔ ∃ n ∈ c.nodes, c.kind n = .unknown ∧ first n = x
  inj : ∀ n ∈ c.nodes, ∀ m ∈ c.nodes, c.kind n = c.kind m → (c.kind n = .cond ∨ c.kind n = .unknown) → first n = first m → n = m
  edge : ∀ s t, A.edge s t ↔ ∃ u v, (u, v) ∈ c.edges ∧ c.src first u = s ∧ c.dst first v = t

section
variable {D : List Nat} {first : Nat → Nat} {A : Picture} {c : Cfg}

theorem XInv.fresh (I : XInv D first A c) : c.lastIdx + 1 ∉ c.nodes := by
  intro h
  have := I.bound _ h
  omega

theorem XInv.ne_new (I : XInv D first A c) {n : Nat} (hn : n ∈ c.nodes) : n ≠ c.lastIdx + 1 := by
  rintro rfl
  exact I.fresh hn

theorem XInv.isBlock (I : XInv D first A c) {n x : Nat} (hn : n ∈ c.nodes) (hx : x ∈ c.insts n) : c.kind n = .block := by
  by_contra h
  rw [I.hollow n hn h] at hx
  cases hx

theorem XInv.addBlock (I : XInv D first A c) {kind : BlockKind} {insts : List Nat} {r : Nat × Cfg}
    (h : c.addBlock kind insts = .ok r) : r = (c.lastIdx + 1, c.withBlock kind insts) := by
  unfold Cfg.addBlock at h
  split at h
  · cases h
  · have := Except.ok.inj h
    rw [← this]
    simp only [I.fresh, if_false, Cfg.withBlock]

/-- A new node without instructions of the old ones. -/
theorem XInv.withBlock (I : XInv D first A c) {kind : BlockKind} {insts : List Nat} {f : Nat}
    (hk : kind = .block ∧ insts ≠ [] ∨ (kind = .cond ∨ kind = .unknown) ∧ insts = [])
    (hd : ∃ d r, D = d ++ (insts ++ r)) (hi : ∀ x ∈ insts, ¬ A.ins x) (hc : kind = .cond → ¬ A.conds f) (hu : kind = .unknown → ¬ A.unks f) :
    XInv D (setAt first (c.lastIdx + 1) f)
      { ins := fun x => A.ins x ∨ x ∈ insts
        heads := fun x => A.heads x ∨ insts.head? = some x
        conds := fun x => A.conds x ∨ kind = .cond ∧ x = f
        unks := fun x => A.unks x ∨ kind = .unknown ∧ x = f
        edge := A.edge } (c.withBlock kind insts) := by
  have hin : ∀ n, n ∈ (c.withBlock kind insts).nodes ↔ n ∈ c.nodes ∨ n = c.lastIdx + 1 := fun n => by
    show n ∈ c.nodes ++ [c.lastIdx + 1] ↔ _
    rw [List.mem_append, List.mem_singleton]
  have hkind : ∀ n ∈ c.nodes, (c.withBlock kind insts).kind n = c.kind n := fun n hn => setAt_ne _ _ (I.ne_new hn)
  have hinst : ∀ n ∈ c.nodes, (c.withBlock kind insts).insts n = c.insts n := fun n hn => setAt_ne _ _ (I.ne_new hn)
  have hfst : ∀ n ∈ c.nodes, setAt first (c.lastIdx + 1) f n = first n := fun n hn => setAt_ne _ _ (I.ne_new hn)
  have hnk : (c.withBlock kind insts).kind (c.lastIdx + 1) = kind := setAt_same _ _ _
  have hni : (c.withBlock kind insts).insts (c.lastIdx + 1) = insts := setAt_same _ _ _
  have hnf : setAt first (c.lastIdx + 1) f (c.lastIdx + 1) = f := setAt_same _ _ _
  have hkr : kind ≠ .root ∧ kind ≠ .fin := by
    rcases hk with ⟨rfl, _⟩ | ⟨rfl | rfl, _⟩ <;> exact ⟨by decide, by decide⟩
  -- facts about all nodes
  have hex : ∀ P : Nat → Prop, (∃ n ∈ (c.withBlock kind insts).nodes, P n) ↔ (∃ n ∈ c.nodes, P n) ∨ P (c.lastIdx + 1) := by
    intro P
    constructor
    · rintro ⟨n, hn, hp⟩
      rcases (hin n).1 hn with h | rfl
      · exact Or.inl ⟨n, h, hp⟩
      · exact Or.inr hp
    · rintro (⟨n, hn, hp⟩ | hp)
      · exact ⟨n, (hin n).2 (Or.inl hn), hp⟩
      · exact ⟨_, (hin _).2 (Or.inr rfl), hp⟩
  refine ⟨?_, ?_, I.nodup, ?_, ?_, ?_, ?_, ?_, ?_, ?_, ?_, ?_, ?_, ?_, ?_, ?_⟩
  · intro n hn
    rcases (hin n).1 hn with h | rfl
    · exact Nat.le_succ_of_le (I.bound n h)
    · exact Nat.le_refl _
  · intro u v huv
    have := I.ends u v huv
    exact ⟨(hin u).2 (Or.inl this.1), (hin v).2 (Or.inl this.2)⟩
  · intro n hn hr
    rcases (hin n).1 hn with h | rfl
    · rw [hkind n h] at hr; exact I.one n h hr
    · rw [hnk] at hr; exact absurd hr hkr.1
  · intro n hn hr
    rcases (hin n).1 hn with h | rfl
    · rw [hkind n h] at hr; exact I.two n h hr
    · rw [hnk] at hr; exact absurd hr hkr.2
  · exact ⟨(hin 2).2 (Or.inl I.fin.1), by rw [hkind 2 I.fin.1]; exact I.fin.2⟩
  · intro n hn hb
    rcases (hin n).1 hn with h | rfl
    · rw [hinst n h]; rw [hkind n h] at hb; exact I.hollow n h hb
    · rw [hni]; rw [hnk] at hb
      rcases hk with ⟨h, _⟩ | ⟨_, h⟩
      · exact absurd h hb
      · exact h
  · intro n hn hb
    rcases (hin n).1 hn with h | rfl
    · rw [hinst n h]; rw [hkind n h] at hb; exact I.full n h hb
    · rw [hni]; rw [hnk] at hb
      rcases hk with ⟨_, h⟩ | ⟨h | h, _⟩
      · exact h
      · rw [hb] at h; cases h
      · rw [hb] at h; cases h
  · intro n hn
    rcases (hin n).1 hn with h | rfl
    · rw [hinst n h]; exact I.contig n h
    · rw [hni]; exact hd
  · intro x
    rw [hex fun n => x ∈ (c.withBlock kind insts).insts n, hni]
    show A.ins x ∨ _ ↔ _
    rw [I.ins]
    refine or_congr_left ⟨fun ⟨n, hn, h⟩ => ⟨n, hn, by rw [hinst n hn]; exact h⟩, fun ⟨n, hn, h⟩ => ⟨n, hn, by rw [hinst n hn] at h; exact h⟩⟩
  · intro n hn m hm x hx hx'
    rcases (hin n).1 hn with h | rfl
    · rw [hinst n h] at hx
      rcases (hin m).1 hm with h' | rfl
      · rw [hinst m h'] at hx'; exact I.disj n h m h' x hx hx'
      · rw [hni] at hx'; exact absurd ((I.ins x).2 ⟨n, h, hx⟩) (hi x hx')
    · rw [hni] at hx
      rcases (hin m).1 hm with h' | rfl
      · rw [hinst m h'] at hx'; exact absurd ((I.ins x).2 ⟨m, h', hx'⟩) (hi x hx)
      · rfl
  · intro x
    rw [hex fun n => ((c.withBlock kind insts).insts n).head? = some x, hni]
    show A.heads x ∨ _ ↔ _
    rw [I.heads]
    refine or_congr_left ⟨fun ⟨n, hn, h⟩ => ⟨n, hn, by rw [hinst n hn]; exact h⟩, fun ⟨n, hn, h⟩ => ⟨n, hn, by rw [hinst n hn] at h; exact h⟩⟩
  · intro x
    rw [hex fun n => (c.withBlock kind insts).kind n = .cond ∧ setAt first (c.lastIdx + 1) f n = x, hnk, hnf]
    show A.conds x ∨ _ ↔ _
    rw [I.conds]
    refine or_congr ⟨fun ⟨n, hn, h⟩ => ⟨n, hn, by rw [hkind n hn, hfst n hn]; exact h⟩, fun ⟨n, hn, h⟩ => ⟨n, hn, by rw [hkind n hn, hfst n hn] at h; exact h⟩⟩
      ⟨fun h => ⟨h.1, h.2.symm⟩, fun h => ⟨h.1, h.2.symm⟩⟩
  · intro x
    rw [hex fun n => (c.withBlock kind insts).kind n = .unknown ∧ setAt first (c.lastIdx + 1) f n = x, hnk, hnf]
    show A.unks x ∨ _ ↔ _
    rw [I.unks]
    refine or_congr ⟨fun ⟨n, hn, h⟩ => ⟨n, hn, by rw [hkind n hn, hfst n hn]; exact h⟩, fun ⟨n, hn, h⟩ => ⟨n, hn, by rw [hkind n hn, hfst n hn] at h; exact h⟩⟩
      ⟨fun h => ⟨h.1, h.2.symm⟩, fun h => ⟨h.1, h.2.symm⟩⟩
  · have key : ∀ n ∈ c.nodes, c.kind n = kind → (kind = .cond ∨ kind = .unknown) → first n = f → False := by
      rintro n hn h1 (h2 | h2) h3
      · exact hc h2 ((I.conds f).2 ⟨n, hn, h1.trans h2, h3⟩)
      · exact hu h2 ((I.unks f).2 ⟨n, hn, h1.trans h2, h3⟩)
    intro n hn m hm hkk hkc hff
    rcases (hin n).1 hn with h | rfl
    · rw [hkind n h] at hkk hkc
      rw [hfst n h] at hff
      rcases (hin m).1 hm with h' | rfl
      · rw [hkind m h'] at hkk; rw [hfst m h'] at hff; exact I.inj n h m h' hkk hkc hff
      · rw [hnk] at hkk; rw [hnf] at hff; exact absurd (key n h hkk (hkk ▸ hkc) hff) id
    · rw [hnk] at hkk hkc
      rw [hnf] at hff
      rcases (hin m).1 hm with h' | rfl
      · rw [hkind m h'] at hkk; rw [hfst m h'] at hff; exact absurd (key m h' hkk.symm hkc hff.symm) id
      · rfl
  · intro s t
    show A.edge s t ↔ ∃ u v, (u, v) ∈ c.edges ∧ _
    rw [I.edge]
    have hs : ∀ n ∈ c.nodes, (c.withBlock kind insts).src (setAt first (c.lastIdx + 1) f) n = c.src first n := by
      intro n hn
      unfold Cfg.src
      rw [hkind n hn, hinst n hn, hfst n hn]
    have ht : ∀ n ∈ c.nodes, (c.withBlock kind insts).dst (setAt first (c.lastIdx + 1) f) n = c.dst first n := by
      intro n hn
      unfold Cfg.dst
      rw [hkind n hn, hinst n hn, hfst n hn]
    constructor
    · rintro ⟨u, v, h1, h2, h3⟩
      exact ⟨u, v, h1, by rw [hs u (I.ends u v h1).1]; exact h2, by rw [ht v (I.ends u v h1).2]; exact h3⟩
    · rintro ⟨u, v, h1, h2, h3⟩
      rw [hs u (I.ends u v h1).1] at h2
      rw [ht v (I.ends u v h1).2] at h3
      exact ⟨u, v, h1, h2, h3⟩

/-- A new edge. -/
theorem XInv.addEdge (I : XInv D first A c) {u v : Nat} {c' : Cfg} (h : c.addEdge u v = .ok c') :
    c' = { c with edges := c.edges ++ [(u, v)] } ∧
    XInv D first { A with edge := fun s t => A.edge s t ∨ s = c.src first u ∧ t = c.dst first v } c' := by
  unfold Cfg.addEdge at h
  split at h
  · rename_i hc
    have := Except.ok.inj h
    subst this
    refine ⟨rfl, ⟨I.bound, ?_, ?_, I.one, I.two, I.fin, I.hollow, I.full, I.contig, I.ins, I.disj, I.heads, I.conds, I.unks, I.inj, ?_⟩⟩
    · intro a b hab
      have hab : (a, b) ∈ c.edges ++ [(u, v)] := hab
      rw [List.mem_append, List.mem_singleton, Prod.mk.injEq] at hab
      rcases hab with hab | ⟨rfl, rfl⟩
      · exact I.ends a b hab
      · exact ⟨hc.1, hc.2.1⟩
    · show (c.edges ++ [(u, v)]).Nodup
      rw [List.nodup_append]
      exact ⟨I.nodup, by simp, fun a ha b hb => by
        rw [List.mem_singleton] at hb; rw [hb]; rintro rfl; exact hc.2.2 ha⟩
    · intro s t
      show A.edge s t ∨ _ ↔ ∃ a b, (a, b) ∈ c.edges ++ [(u, v)] ∧ c.src first a = s ∧ c.dst first b = t
      rw [I.edge]
      constructor
      · rintro (⟨a, b, h1, h2⟩ | ⟨rfl, rfl⟩)
        · exact ⟨a, b, List.mem_append_left _ h1, h2⟩
        · exact ⟨u, v, by simp, rfl, rfl⟩
      · rintro ⟨a, b, h1, h2, h3⟩
        rw [List.mem_append, List.mem_singleton, Prod.mk.injEq] at h1
        rcases h1 with h1 | ⟨rfl, rfl⟩
        · exact Or.inl ⟨a, b, h1, h2, h3⟩
        · exact Or.inr ⟨h2.symm, h3.symm⟩
  · cases h

theorem XInv.congr {B : Picture} (I : XInv D first A c) (h1 : ∀ x, B.ins x ↔ A.ins x) (h2 : ∀ x, B.heads x ↔ A.heads x)
    (h3 : ∀ x, B.conds x ↔ A.conds x) (h4 : ∀ x, B.unks x ↔ A.unks x) (h5 : ∀ s t, B.edge s t ↔ A.edge s t) : XInv D first B c :=
  ⟨I.bound, I.ends, I.nodup, I.one, I.two, I.fin, I.hollow, I.full, I.contig, fun x => (h1 x).trans (I.ins x), I.disj,
    fun x => (h2 x).trans (I.heads x), fun x => (h3 x).trans (I.conds x), fun x => (h4 x).trans (I.unks x), I.inj,
    fun s t => (h5 s t).trans (I.edge s t)⟩

theorem XInv.needEdge (I : XInv D first A c) {u v : Nat} {c' : Cfg} (h : c.needEdge u v = .ok c') :
    (∃ es, c' = { c with edges := es }) ∧
    XInv D first { A with edge := fun s t => A.edge s t ∨ s = c.src first u ∧ t = c.dst first v } c' := by
  unfold Cfg.needEdge at h
  split at h
  · rename_i huv
    have := Except.ok.inj h
    subst this
    refine ⟨⟨c.edges, rfl⟩, I.congr (fun _ => Iff.rfl) (fun _ => Iff.rfl) (fun _ => Iff.rfl) (fun _ => Iff.rfl) fun s t => ?_⟩
    show A.edge s t ∨ _ ↔ _
    refine ⟨fun h => ?_, Or.inl⟩
    rcases h with h | ⟨rfl, rfl⟩
    · exact h
    · exact (I.edge _ _).2 ⟨u, v, huv, rfl, rfl⟩
  · obtain ⟨h1, h2⟩ := I.addEdge h
    exact ⟨⟨_, h1⟩, h2⟩

/-- What the nodes that are there keep. -/
structure XKeeps (first : Nat → Nat) (c : Cfg) (first' : Nat → Nat) (c' : Cfg) : Prop where
  nodes : ∀ n ∈ c.nodes, n ∈ c'.nodes ∧ c'.kind n = c.kind n ∧ c'.src first' n = c.src first n ∧ first' n = first n ∧
    (c'.insts n).getLast? = (c.insts n).getLast?

theorem XKeeps.refl (first : Nat → Nat) (c : Cfg) : XKeeps first c first c := ⟨fun _ hn => ⟨hn, rfl, rfl, rfl, rfl⟩⟩

theorem XKeeps.edges (first : Nat → Nat) (c : Cfg) (es : List (Nat × Nat)) : XKeeps first c first { c with edges := es } :=
  ⟨fun _ hn => ⟨hn, rfl, rfl, rfl, rfl⟩⟩

theorem XKeeps.trans {f1 f2 f3 : Nat → Nat} {c1 c2 c3 : Cfg} (h1 : XKeeps f1 c1 f2 c2) (h2 : XKeeps f2 c2 f3 c3) : XKeeps f1 c1 f3 c3 :=
  ⟨fun n hn => by
    obtain ⟨a1, a2, a3, a4, a5⟩ := h1.nodes n hn
    obtain ⟨b1, b2, b3, b4, b5⟩ := h2.nodes n a1
    exact ⟨b1, b2.trans a2, b3.trans a3, b4.trans a4, b5.trans a5⟩⟩

theorem XInv.keepsBlock (I : XInv D first A c) (kind : BlockKind) (insts : List Nat) (f : Nat) :
    XKeeps first c (setAt first (c.lastIdx + 1) f) (c.withBlock kind insts) :=
  ⟨fun n hn => by
    have h1 : (c.withBlock kind insts).kind n = c.kind n := setAt_ne _ _ (I.ne_new hn)
    have h2 : (c.withBlock kind insts).insts n = c.insts n := setAt_ne _ _ (I.ne_new hn)
    have h3 : setAt first (c.lastIdx + 1) f n = first n := setAt_ne _ _ (I.ne_new hn)
    refine ⟨by show _ ∈ c.nodes ++ [c.lastIdx + 1]; simp [hn], h1, ?_, h3, by rw [h2]⟩
    unfold Cfg.src
    rw [h1, h2, h3]⟩

theorem src_eq_last {n a : Nat} (hk : c.kind n = .block) (ha : (c.insts n).getLast? = some a) : c.src first n = .block a := by
  unfold Cfg.src leavesBy
  rw [hk, ha]
  rfl

theorem dst_eq_head {n a : Nat} (hk : c.kind n = .block) (ha : (c.insts n).head? = some a) : c.dst first n = .block a := by
  unfold Cfg.dst entersBy
  rw [hk, ha]
  rfl

/-- Splitting a block. -/
theorem XInv.splitUp (I : XInv D first A c) {split : Nat} {c' : Cfg} {p q : List Nat} {a t : Nat} (hn : D.Nodup) (hs : split ∈ c.nodes)
    (hpq : c.insts split = p ++ a :: t :: q) (h : c.splitUp split (p.length + 1) = .ok c') :
    XInv D first { A with heads := fun x => A.heads x ∨ x = t
                          edge := fun s e => A.edge s e ∨ s = .block a ∧ e = .block t } c' ∧
      XKeeps first c first c' ∧ c'.insts split = t :: q := by
  have hsn := I.ne_new hs
  have hsk : c.kind split = .block := I.isBlock hs (x := a) (by rw [hpq]; simp)
  have htake : (c.insts split).take (p.length + 1) = p ++ [a] := by
    rw [hpq, show p ++ a :: t :: q = (p ++ [a]) ++ t :: q by simp, List.take_left' (by simp)]
  have hdrop : (c.insts split).drop (p.length + 1) = t :: q := by
    rw [hpq, show p ++ a :: t :: q = (p ++ [a]) ++ t :: q by simp, List.drop_left' (by simp)]
  unfold Cfg.splitUp at h
  obtain ⟨r, hadd, h⟩ := py_bind_ok h
  have hr := I.addBlock hadd
  subst hr
  have hgi : (c.withBlock .block ((c.insts split).take (p.length + 1))).insts split = c.insts split := setAt_ne _ _ hsn
  dsimp only at h
  rw [hgi, hdrop, htake] at h
  obtain ⟨c1, hm, h⟩ := py_bind_ok h
  obtain ⟨es, e1, e2, _, e3⟩ := move_inv (split := split) (up := c.lastIdx + 1) hsn.symm _ _ _ (by exact I.nodup) hm
  subst e1
  unfold Cfg.addEdge at h
  split at h
  · rename_i hc
    obtain ⟨_, _, hnew⟩ := hc
    injection h with h
    subst h
    have hes : ∀ x y, (x, y) ∈ es ++ [(c.lastIdx + 1, split)] ↔ ((x, y) ∈ c.edges ∧ y ≠ split) ∨
        (y = c.lastIdx + 1 ∧ (x, split) ∈ c.edges) ∨ (x = c.lastIdx + 1 ∧ y = split) := by
      intro x y
      rw [List.mem_append, List.mem_singleton, e3, Prod.mk.injEq]
      simp only [mem_incidents]
      show (((x, y) ∈ c.edges ∧ ¬ (y = split ∧ (x, split) ∈ c.edges)) ∨ (y = c.lastIdx + 1 ∧ (x, split) ∈ c.edges)) ∨ _ ↔ _
      constructor
      · rintro ((⟨h1, h2⟩ | h) | h)
        · exact Or.inl ⟨h1, fun h => h2 ⟨h, h ▸ h1⟩⟩
        · exact Or.inr (Or.inl h)
        · exact Or.inr (Or.inr h)
      · rintro (⟨h1, h2⟩ | h | h)
        · exact Or.inl (Or.inl ⟨h1, fun h => h2 h.1⟩)
        · exact Or.inl (Or.inr h)
        · exact Or.inr h
    let up := c.lastIdx + 1
    let insts' := setAt (setAt c.insts up (p ++ [a])) split (t :: q)
    let kind' := setAt c.kind up .block
    let g : Cfg := { c with lastIdx := up, nodes := c.nodes ++ [up], kind := kind', insts := insts', edges := es ++ [(up, split)] }
    show XInv D first _ g ∧ XKeeps first c first g ∧ g.insts split = t :: q
    have hin : ∀ n, n ∈ g.nodes ↔ n ∈ c.nodes ∨ n = up := fun n => by
      show n ∈ c.nodes ++ [up] ↔ _
      rw [List.mem_append, List.mem_singleton]
    have hkind : ∀ n ∈ c.nodes, g.kind n = c.kind n := fun n hn => setAt_ne _ _ (I.ne_new hn)
    have hups : up ≠ split := hsn.symm
    have hinst : ∀ n ∈ c.nodes, n ≠ split → g.insts n = c.insts n := fun n hn hne => by
      show setAt (setAt c.insts up _) split _ n = _
      rw [setAt_ne _ _ hne, setAt_ne _ _ (I.ne_new hn)]
    have hsi : g.insts split = t :: q := setAt_same _ _ _
    have hui : g.insts up = p ++ [a] := by
      show setAt (setAt c.insts up _) split _ up = _
      rw [setAt_ne _ _ hups, setAt_same]
    have huk : g.kind up = .block := setAt_same _ _ _
    have hlast : ∀ n ∈ c.nodes, (g.insts n).getLast? = (c.insts n).getLast? := by
      intro n hn
      by_cases hne : n = split
      · subst hne
        rw [hsi, hpq, show p ++ a :: t :: q = (p ++ [a]) ++ (t :: q) by simp, List.getLast?_append]
        cases hz : (t :: q).getLast? with
        | none => simp at hz
        | some z => rfl
      · rw [hinst n hn hne]
    have hsrc : ∀ n ∈ c.nodes, g.src first n = c.src first n := by
      intro n hn
      unfold Cfg.src leavesBy
      rw [hkind n hn, hlast n hn]
    have hdst : ∀ n ∈ c.nodes, n ≠ split → g.dst first n = c.dst first n := by
      intro n hn hne
      unfold Cfg.dst
      rw [hkind n hn, hinst n hn hne]
    have hhead : (p ++ [a]).head? = (c.insts split).head? := by
      rw [hpq]
      cases p <;> rfl
    have hdu : g.dst first up = c.dst first split := by
      unfold Cfg.dst entersBy
      rw [huk, hsk, hui, hhead]
    have hsrcu : g.src first up = .block a := src_eq_last huk (by rw [hui]; simp)
    have hdsts : g.dst first split = .block t := dst_eq_head ((hkind split hs).trans hsk) (by rw [hsi]; rfl)
    refine ⟨⟨?_, ?_, ?_, ?_, ?_, ?_, ?_, ?_, ?_, ?_, ?_, ?_, ?_, ?_, ?_, ?_⟩,
      ⟨fun n hn => ⟨(hin n).2 (Or.inl hn), hkind n hn, hsrc n hn, rfl, hlast n hn⟩⟩, hsi⟩
    · intro n hn
      rcases (hin n).1 hn with h | rfl
      · exact Nat.le_succ_of_le (I.bound n h)
      · exact Nat.le_refl _
    · intro u v huv
      rcases (hes u v).1 huv with ⟨h1, _⟩ | ⟨rfl, h1⟩ | ⟨rfl, rfl⟩
      · have := I.ends u v h1
        exact ⟨(hin u).2 (Or.inl this.1), (hin v).2 (Or.inl this.2)⟩
      · exact ⟨(hin u).2 (Or.inl (I.ends u _ h1).1), (hin _).2 (Or.inr rfl)⟩
      · exact ⟨(hin _).2 (Or.inr rfl), (hin _).2 (Or.inl hs)⟩
    · show (es ++ [(up, split)]).Nodup
      rw [List.nodup_append]
      exact ⟨e2, by simp, fun x hx y hy => by
        rw [List.mem_singleton] at hy; rw [hy]; rintro rfl; exact hnew hx⟩
    · intro n hn hr
      rcases (hin n).1 hn with h | rfl
      · rw [hkind n h] at hr; exact I.one n h hr
      · rw [huk] at hr; cases hr
    · intro n hn hr
      rcases (hin n).1 hn with h | rfl
      · rw [hkind n h] at hr; exact I.two n h hr
      · rw [huk] at hr; cases hr
    · exact ⟨(hin 2).2 (Or.inl I.fin.1), by rw [hkind 2 I.fin.1]; exact I.fin.2⟩
    · intro n hn hb
      rcases (hin n).1 hn with h | rfl
      · rw [hkind n h] at hb
        by_cases hne : n = split
        · subst hne; exact absurd hsk hb
        · rw [hinst n h hne]; exact I.hollow n h hb
      · exact absurd huk hb
    · intro n hn hb
      rcases (hin n).1 hn with h | rfl
      · rw [hkind n h] at hb
        by_cases hne : n = split
        · subst hne; rw [hsi]; simp
        · rw [hinst n h hne]; exact I.full n h hb
      · rw [hui]; simp
    · intro n hn
      rcases (hin n).1 hn with h | rfl
      · by_cases hne : n = split
        · subst hne
          obtain ⟨d, r, hd⟩ := I.contig n hs
          exact ⟨d ++ (p ++ [a]), r, by rw [hsi, hd, hpq]; simp⟩
        · rw [hinst n h hne]; exact I.contig n h
      · obtain ⟨d, r, hd⟩ := I.contig split hs
        exact ⟨d, t :: q ++ r, by rw [hui, hd, hpq]; simp⟩
    · intro x
      show A.ins x ↔ _
      rw [I.ins]
      constructor
      · rintro ⟨n, hn, hx⟩
        by_cases hne : n = split
        · subst hne
          rw [hpq] at hx
          rcases List.mem_append.1 (show x ∈ (p ++ [a]) ++ (t :: q) by simpa using hx) with hx | hx
          · exact ⟨up, (hin _).2 (Or.inr rfl), by rw [hui]; exact hx⟩
          · exact ⟨n, (hin _).2 (Or.inl hn), by rw [hsi]; exact hx⟩
        · exact ⟨n, (hin _).2 (Or.inl hn), by rw [hinst n hn hne]; exact hx⟩
      · rintro ⟨n, hn, hx⟩
        rcases (hin n).1 hn with h | rfl
        · by_cases hne : n = split
          · subst hne
            rw [hsi] at hx
            refine ⟨n, hs, ?_⟩
            rw [hpq, show p ++ a :: t :: q = (p ++ [a]) ++ (t :: q) by simp]
            exact List.mem_append_right _ hx
          · rw [hinst n h hne] at hx
            exact ⟨n, h, hx⟩
        · rw [hui] at hx
          refine ⟨split, hs, ?_⟩
          rw [hpq, show p ++ a :: t :: q = (p ++ [a]) ++ (t :: q) by simp]
          exact List.mem_append_left _ hx
    · have hap : ∀ x, x ∈ p ++ [a] → x ∈ t :: q → False := by
        obtain ⟨d, r, hd⟩ := I.contig split hs
        rw [hd, hpq, List.nodup_append] at hn
        have h2 := (List.nodup_append.1 hn.2.1).1
        rw [show p ++ a :: t :: q = (p ++ [a]) ++ (t :: q) by simp, List.nodup_append] at h2
        intro x h3 h4
        exact h2.2.2 x h3 x h4 rfl
      -- where the instructions of a node came from
      have old : ∀ n ∈ g.nodes, ∀ x ∈ g.insts n, (n ∈ c.nodes ∧ n ≠ split ∧ x ∈ c.insts n) ∨
          (n = split ∧ x ∈ t :: q ∧ x ∈ c.insts split) ∨ (n = up ∧ x ∈ p ++ [a] ∧ x ∈ c.insts split) := by
        intro n hn' x hx
        rcases (hin n).1 hn' with h | rfl
        · by_cases hne : n = split
          · subst hne
            rw [hsi] at hx
            refine Or.inr (Or.inl ⟨rfl, hx, ?_⟩)
            rw [hpq, show p ++ a :: t :: q = (p ++ [a]) ++ (t :: q) by simp]
            exact List.mem_append_right _ hx
          · rw [hinst n h hne] at hx
            exact Or.inl ⟨h, hne, hx⟩
        · rw [hui] at hx
          refine Or.inr (Or.inr ⟨rfl, hx, ?_⟩)
          rw [hpq, show p ++ a :: t :: q = (p ++ [a]) ++ (t :: q) by simp]
          exact List.mem_append_left _ hx
      intro n hn' m hm x hx hx'
      rcases old n hn' x hx with ⟨a1, a2, a3⟩ | ⟨a1, a2, a3⟩ | ⟨a1, a2, a3⟩ <;>
        rcases old m hm x hx' with ⟨b1, b2, b3⟩ | ⟨b1, b2, b3⟩ | ⟨b1, b2, b3⟩
      · exact I.disj n a1 m b1 x a3 b3
      · exact absurd (I.disj n a1 split hs x a3 b3) a2
      · exact absurd (I.disj n a1 split hs x a3 b3) a2
      · exact absurd (I.disj m b1 split hs x b3 a3) b2
      · exact a1.trans b1.symm
      · exact absurd (hap x b2 a2) id
      · exact absurd (I.disj m b1 split hs x b3 a3) b2
      · exact absurd (hap x a2 b2) id
      · exact a1.trans b1.symm
    · intro x
      show A.heads x ∨ x = t ↔ _
      rw [I.heads]
      constructor
      · rintro (⟨n, hn', hx⟩ | rfl)
        · by_cases hne : n = split
          · subst hne
            exact ⟨up, (hin _).2 (Or.inr rfl), by rw [hui, hhead]; exact hx⟩
          · exact ⟨n, (hin _).2 (Or.inl hn'), by rw [hinst n hn' hne]; exact hx⟩
        · exact ⟨split, (hin _).2 (Or.inl hs), by rw [hsi]; rfl⟩
      · rintro ⟨n, hn', hx⟩
        rcases (hin n).1 hn' with h | rfl
        · by_cases hne : n = split
          · subst hne
            rw [hsi] at hx
            cases hx
            exact Or.inr rfl
          · rw [hinst n h hne] at hx
            exact Or.inl ⟨n, h, hx⟩
        · rw [hui, hhead] at hx
          exact Or.inl ⟨split, hs, hx⟩
    · intro x
      show A.conds x ↔ _
      rw [I.conds]
      constructor
      · rintro ⟨n, hn', hx⟩
        exact ⟨n, (hin _).2 (Or.inl hn'), by rw [hkind n hn']; exact hx⟩
      · rintro ⟨n, hn', hx⟩
        rcases (hin n).1 hn' with h | rfl
        · rw [hkind n h] at hx; exact ⟨n, h, hx⟩
        · rw [huk] at hx; cases hx.1
    · intro x
      show A.unks x ↔ _
      rw [I.unks]
      constructor
      · rintro ⟨n, hn', hx⟩
        exact ⟨n, (hin _).2 (Or.inl hn'), by rw [hkind n hn']; exact hx⟩
      · rintro ⟨n, hn', hx⟩
        rcases (hin n).1 hn' with h | rfl
        · rw [hkind n h] at hx; exact ⟨n, h, hx⟩
        · rw [huk] at hx; cases hx.1
    · intro n hn' m hm hkk hkc hff
      rcases (hin n).1 hn' with h | rfl
      · rw [hkind n h] at hkk hkc
        rcases (hin m).1 hm with h' | rfl
        · rw [hkind m h'] at hkk; exact I.inj n h m h' hkk hkc hff
        · rw [huk] at hkk; rw [hkk] at hkc; rcases hkc with h | h <;> cases h
      · rw [huk] at hkc; rcases hkc with h | h <;> cases h
    · intro s e
      show A.edge s e ∨ _ ↔ ∃ u v, (u, v) ∈ es ++ [(up, split)] ∧ _
      rw [I.edge]
      constructor
      · rintro (⟨u, v, h1, h2, h3⟩ | ⟨rfl, rfl⟩)
        · by_cases hv : v = split
          · subst hv
            exact ⟨u, up, (hes _ _).2 (Or.inr (Or.inl ⟨rfl, h1⟩)), by rw [hsrc u (I.ends _ _ h1).1]; exact h2, by rw [hdu]; exact h3⟩
          · exact ⟨u, v, (hes _ _).2 (Or.inl ⟨h1, hv⟩), by rw [hsrc u (I.ends _ _ h1).1]; exact h2,
              by rw [hdst v (I.ends _ _ h1).2 hv]; exact h3⟩
        · exact ⟨up, split, (hes _ _).2 (Or.inr (Or.inr ⟨rfl, rfl⟩)), hsrcu, hdsts⟩
      · rintro ⟨u, v, h1, h2, h3⟩
        rcases (hes u v).1 h1 with ⟨h4, h5⟩ | ⟨rfl, h4⟩ | ⟨rfl, rfl⟩
        · rw [hsrc u (I.ends _ _ h4).1] at h2
          rw [hdst v (I.ends _ _ h4).2 h5] at h3
          exact Or.inl ⟨u, v, h4, h2, h3⟩
        · rw [hsrc u (I.ends _ _ h4).1] at h2
          have h3 : g.dst first up = e := h3
          rw [hdu] at h3
          exact Or.inl ⟨u, split, h4, h2, h3⟩
        · have h2 : g.src first up = s := h2
          rw [hsrcu] at h2
          rw [hdsts] at h3
          exact Or.inr ⟨h2.symm, h3.symm⟩
  · cases h

/-- A block does not start with an instruction in the middle of another. -/
theorem XInv.heads_iff (I : XInv D first A c) (hn : D.Nodup) {n x : Nat} (hm : n ∈ c.nodes) (hx : x ∈ c.insts n) :
    A.heads x ↔ (c.insts n).head? = some x := by
  rw [I.heads]
  refine ⟨fun ⟨m, hm', h⟩ => ?_, fun h => ⟨n, hm, h⟩⟩
  have := I.disj n hm m hm' x hx (List.mem_of_head? h)
  rw [this]
  exact h

theorem XInv.splitNode (I : XInv D first A c) (hn : D.Nodup) {split branch t : Nat} {c' : Cfg} (hs : split ∈ c.nodes)
    (hb : branch ∈ c.nodes) (h : c.splitNode split branch t = .ok c') :
    XInv D first { A with heads := fun x => A.heads x ∨ x = t
                          edge := fun s e => A.edge s e ∨ (s = c.src first branch ∧ e = .block t) ∨
                            (¬ A.heads t ∧ ∃ d a r, D = d ++ a :: t :: r ∧ s = .block a ∧ e = .block t) } c' ∧
      XKeeps first c first c' := by
  unfold Cfg.splitNode at h
  split at h
  · rename_i ht
    have hsk := I.isBlock hs ht
    have hcn : (c.insts split).Nodup := by
      obtain ⟨d, r, hd⟩ := I.contig split hs
      rw [hd, List.nodup_append] at hn
      exact (List.nodup_append.1 hn.2.1).1
    have h : ((if 0 < (c.insts split).idxOf t then c.splitUp split ((c.insts split).idxOf t) else .ok c) >>=
        fun c => c.addEdge branch split) = .ok c' := by
      rw [← h]
      show _ = (if 0 < (c.insts split).idxOf t then _ else _)
      split <;> rfl
    obtain ⟨c1, h1, h2⟩ := py_bind_ok h
    by_cases hhd : A.heads t
    · have hh := (I.heads_iff hn hs ht).1 hhd
      have h0 : (c.insts split).idxOf t = 0 := by
        cases hi : c.insts split with
        | nil => rw [hi] at hh; cases hh
        | cons y l => rw [hi] at hh; cases hh; simp
      rw [h0] at h1
      cases h1
      obtain ⟨e, J⟩ := I.addEdge h2
      rw [dst_eq_head hsk hh] at J
      refine ⟨J.congr (fun _ => Iff.rfl) (fun x => ?_) (fun _ => Iff.rfl) (fun _ => Iff.rfl) fun s e => ?_, by rw [e]; exact XKeeps.edges first c _⟩
      · refine ⟨fun h => ?_, Or.inl⟩
        rcases h with h | rfl
        · exact h
        · exact hhd
      · refine ⟨fun h => ?_, fun h => ?_⟩
        · rcases h with h | h | h
          · exact Or.inl h
          · exact Or.inr h
          · exact absurd hhd h.1
        · rcases h with h | h
          · exact Or.inl h
          · exact Or.inr (Or.inl h)
    · obtain ⟨p, q, hpq⟩ := List.append_of_mem ht
      rcases List.eq_nil_or_concat p with rfl | ⟨p', a, rfl⟩
      · exact absurd ((I.heads_iff hn hs ht).2 (by rw [hpq]; rfl)) hhd
      rw [List.concat_eq_append] at hpq
      have hpq' : c.insts split = p' ++ a :: t :: q := by rw [hpq]; simp
      have hidx : (c.insts split).idxOf t = p'.length + 1 := by
        rw [hpq, List.idxOf_append, if_neg]
        · simp
        · intro hm
          rw [hpq, List.nodup_append] at hcn
          exact hcn.2.2 t hm t (by simp) rfl
      rw [hidx, if_pos (by omega)] at h1
      obtain ⟨J, K, hi⟩ := I.splitUp hn hs hpq' h1
      obtain ⟨k1, k2, k3, _, _⟩ := K.nodes branch hb
      obtain ⟨s1, s2, _⟩ := K.nodes split hs
      obtain ⟨e, J'⟩ := J.addEdge h2
      rw [k3, dst_eq_head (s2.trans hsk) (by rw [hi]; rfl)] at J'
      refine ⟨J'.congr (fun _ => Iff.rfl) (fun _ => Iff.rfl) (fun _ => Iff.rfl) (fun _ => Iff.rfl) fun s e => ?_,
        K.trans (by rw [e]; exact XKeeps.edges first c1 _)⟩
      obtain ⟨d, r, hd⟩ := I.contig split hs
      have hD : D = (d ++ p') ++ a :: t :: (q ++ r) := by rw [hd, hpq']; simp
      show A.edge s e ∨ _ ∨ _ ↔ (A.edge s e ∨ _) ∨ _
      constructor
      · rintro (h | h | ⟨_, d', a', r', h1, h2, h3⟩)
        · exact Or.inl (Or.inl h)
        · exact Or.inr h
        · refine Or.inl (Or.inr ⟨?_, h3⟩)
          have e1 : (d' ++ [a']) ++ t :: r' = (d ++ p' ++ [a]) ++ t :: (q ++ r) := by
            rw [← show D = (d' ++ [a']) ++ t :: r' by rw [h1]; simp, hD]; simp
          obtain ⟨e2, _⟩ := nodup_cut (by rw [e1, ← show D = (d ++ p' ++ [a]) ++ t :: (q ++ r) by rw [hD]; simp]; exact hn) e1
          obtain ⟨_, e3⟩ := List.append_inj' e2 rfl
          cases e3
          exact h2
      · rintro ((h | ⟨rfl, rfl⟩) | h)
        · exact Or.inl h
        · exact Or.inr (Or.inr ⟨hhd, _, _, _, hD, rfl, rfl⟩)
        · exact Or.inr (Or.inl h)
  · cases h

/-- An instruction joins a block. -/
theorem XInv.append (I : XInv D first A c) (hn : D.Nodup) {cb a i : Nat} {d rest : List Nat} (hD : D = d ++ a :: i :: rest)
    (hcb : cb ∈ c.nodes) (ha : (c.insts cb).getLast? = some a) (hi : ¬ A.ins i) :
    XInv D first { A with ins := fun x => A.ins x ∨ x = i
                          edge := fun s t => ∃ s0, A.edge s0 t ∧ s = if s0 = .block a then .block i else s0 }
      { c with insts := setAt c.insts cb (c.insts cb ++ [i]) } := by
  let g : Cfg := { c with insts := setAt c.insts cb (c.insts cb ++ [i]) }
  show XInv D first _ g
  have hbk : c.kind cb = .block := I.isBlock hcb (List.mem_of_getLast? ha)
  have hci : g.insts cb = c.insts cb ++ [i] := setAt_same _ _ _
  have hoi : ∀ n, n ≠ cb → g.insts n = c.insts n := fun n hne => setAt_ne _ _ hne
  have hhead : ∀ n ∈ c.nodes, (g.insts n).head? = (c.insts n).head? := by
    intro n _
    by_cases hne : n = cb
    · subst hne
      rw [hci]
      cases hc : c.insts n with
      | nil => rw [hc] at ha; cases ha
      | cons y l => rfl
    · rw [hoi n hne]
  have hdst : ∀ n ∈ c.nodes, g.dst first n = c.dst first n := by
    intro n hn'
    unfold Cfg.dst entersBy
    rw [hhead n hn']
  have hmem : ∀ n x, x ∈ g.insts n ↔ x ∈ c.insts n ∨ (n = cb ∧ x = i) := by
    intro n x
    by_cases hne : n = cb
    · subst hne
      rw [hci]
      simp
    · rw [hoi n hne]
      simp [hne]
  -- only the block itself is left by its last instruction
  have huniq : ∀ n ∈ c.nodes, c.src first n = .block a ↔ n = cb := by
    intro n hn'
    constructor
    · intro h
      unfold Cfg.src leavesBy at h
      cases hk : c.kind n with
      | block =>
        rw [hk] at h
        cases hl : (c.insts n).getLast? with
        | none =>
          rw [List.getLast?_eq_none_iff] at hl
          exact absurd hl (I.full n hn' hk)
        | some z =>
          rw [hl] at h
          cases h
          exact I.disj n hn' cb hcb _ (List.mem_of_getLast? hl) (List.mem_of_getLast? ha)
      | root => rw [hk] at h; cases h
      | fin => rw [hk] at h; cases h
      | cond => rw [hk] at h; cases h
      | unknown => rw [hk] at h; cases h
    · rintro rfl
      exact src_eq_last hbk ha
  have hsrc : ∀ n ∈ c.nodes, g.src first n = if c.src first n = .block a then .block i else c.src first n := by
    intro n hn'
    by_cases hne : n = cb
    · rw [if_pos ((huniq n hn').2 hne), hne]
      exact src_eq_last hbk (by rw [hci]; simp)
    · rw [if_neg fun h => hne ((huniq n hn').1 h)]
      unfold Cfg.src
      rw [hoi n hne]
  refine ⟨I.bound, I.ends, I.nodup, I.one, I.two, I.fin, ?_, ?_, ?_, ?_, ?_, ?_, I.conds, I.unks, I.inj, ?_⟩
  · intro n hn' hb
    by_cases hne : n = cb
    · subst hne; exact absurd hbk hb
    · rw [hoi n hne]; exact I.hollow n hn' hb
  · intro n hn' hb
    by_cases hne : n = cb
    · subst hne; rw [hci]; simp
    · rw [hoi n hne]; exact I.full n hn' hb
  · intro n hn'
    by_cases hne : n = cb
    · subst hne
      obtain ⟨d', r', h1⟩ := I.contig n hn'
      obtain ⟨p, hp⟩ : ∃ p, c.insts n = p ++ [a] := by
        rcases List.eq_nil_or_concat (c.insts n) with h | ⟨p, y, h⟩
        · rw [h] at ha; cases ha
        · rw [h, List.concat_eq_append, List.getLast?_concat] at ha
          cases ha
          exact ⟨p, by rw [h]; simp⟩
      rw [hp] at h1
      have e1 : d ++ a :: (i :: rest) = (d' ++ p) ++ a :: r' := by rw [← hD, h1]; simp
      obtain ⟨_, e2⟩ := nodup_cut (by rw [← hD]; exact hn) e1
      exact ⟨d', rest, by rw [hci, h1, hp, ← e2]; simp⟩
    · rw [hoi n hne]; exact I.contig n hn'
  · intro x
    show A.ins x ∨ x = i ↔ _
    rw [I.ins]
    constructor
    · rintro (⟨n, hn', hx⟩ | rfl)
      · exact ⟨n, hn', (hmem n x).2 (Or.inl hx)⟩
      · exact ⟨cb, hcb, (hmem _ _).2 (Or.inr ⟨rfl, rfl⟩)⟩
    · rintro ⟨n, hn', hx⟩
      rcases (hmem n x).1 hx with hx | ⟨_, rfl⟩
      · exact Or.inl ⟨n, hn', hx⟩
      · exact Or.inr rfl
  · intro n hn' m hm x hx hx'
    rcases (hmem n x).1 hx with hx | ⟨h1, h2⟩ <;> rcases (hmem m x).1 hx' with hx' | ⟨h3, h4⟩
    · exact I.disj n hn' m hm x hx hx'
    · exact absurd ((I.ins i).2 ⟨n, hn', h4 ▸ hx⟩) hi
    · exact absurd ((I.ins i).2 ⟨m, hm, h2 ▸ hx'⟩) hi
    · exact h1.trans h3.symm
  · intro x
    show A.heads x ↔ _
    rw [I.heads]
    exact ⟨fun ⟨n, hn', h⟩ => ⟨n, hn', by rw [hhead n hn']; exact h⟩, fun ⟨n, hn', h⟩ => ⟨n, hn', by rw [hhead n hn'] at h; exact h⟩⟩
  · intro s t
    show (∃ s0, A.edge s0 t ∧ _) ↔ ∃ u v, (u, v) ∈ c.edges ∧ _
    constructor
    · rintro ⟨s0, h1, h2⟩
      obtain ⟨u, v, h3, h4, h5⟩ := (I.edge s0 t).1 h1
      exact ⟨u, v, h3, by rw [hsrc u (I.ends u v h3).1, h4, h2], by rw [hdst v (I.ends u v h3).2]; exact h5⟩
    · rintro ⟨u, v, h1, h2, h3⟩
      rw [hsrc u (I.ends u v h1).1] at h2
      rw [hdst v (I.ends u v h1).2] at h3
      exact ⟨_, (I.edge _ _).2 ⟨u, v, h1, rfl, h3⟩, h2.symm⟩

end

end Verif
