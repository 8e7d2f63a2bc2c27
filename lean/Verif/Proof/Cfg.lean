import Verif.Model.Cfg
import Verif.Proof.Metadata
import Verif.Spec.Cfg

/-! # The control flow graph -/

namespace Verif

theorem setAt_same {α : Type} (f : Nat → α) (k : Nat) (v : α) : setAt f k v k = v := if_pos rfl

theorem setAt_ne {α : Type} (f : Nat → α) {k x : Nat} (v : α) (h : x ≠ k) : setAt f k v x = f x := if_neg h

/-- The graph part of the invariant: `done` are the defined instructions seen, in
order, `order` the blocks that hold them, in order, `jd` the branches whose jumps
have been treated; `P` picks branches that are never followed in their block. -/
structure GInv (prog : List CfgInst) (P : Nat → Prop) (done order jd : List Nat) (c : Cfg) : Prop where
  bound : ∀ n ∈ c.nodes, n ≤ c.lastIdx
  nodup : c.nodes.Nodup
  enodup : c.edges.Nodup
  ends : ∀ u v, (u, v) ∈ c.edges → u ∈ c.nodes ∧ v ∈ c.nodes
  one : 1 ∈ c.nodes ∧ c.kind 1 = .root
  two : 2 ∈ c.nodes ∧ c.kind 2 = .fin
  others : ∀ n ∈ c.nodes, (c.kind n = .root → n = 1) ∧ (c.kind n = .fin → n = 2)
  noin : ∀ u, (u, 1) ∉ c.edges
  noout : ∀ v, (2, v) ∉ c.edges
  empty : ∀ n ∈ c.nodes, c.kind n ≠ .block → c.insts n = []
  full : ∀ n ∈ c.nodes, c.kind n = .block → c.insts n ≠ []
  onodup : order.Nodup
  ord : ∀ n, n ∈ order ↔ n ∈ c.nodes ∧ c.kind n = .block
  flat : order.flatMap c.insts = done
  first : ∀ n ∈ c.nodes, ∀ i ∈ (c.insts n).tail, (prog[i]?.getD {}).branch = false
  single : ∀ i ∈ done, (prog[i]?.getD {}).branch = true → P i → ∃ b ∈ c.nodes, c.insts b = [i]
  jump : ∀ i ∈ jd, (prog[i]?.getD {}).branch = true → P i → ∀ t, (prog[i]?.getD {}).target = some t → t ∈ done → t ≤ i →
    ∃ b ∈ c.nodes, c.insts b = [i] ∧ ∃ n ∈ c.nodes, (c.insts n).head? = some t ∧ (b, n) ∈ c.edges

theorem GInv.fresh {prog P done order jd} {c : Cfg} (I : GInv prog P done order jd c) : c.lastIdx + 1 ∉ c.nodes := by
  intro h
  have := I.bound _ h
  omega

theorem GInv.mem_block {prog P done order jd} {c : Cfg} (I : GInv prog P done order jd c) {n i : Nat} (hn : n ∈ c.nodes)
    (hi : i ∈ c.insts n) : c.kind n = .block := by
  by_contra h
  rw [I.empty n hn h] at hi
  cases hi

theorem flatMap_congr_mem {α β : Type} {l : List α} {f g : α → List β} (h : ∀ x ∈ l, f x = g x) : l.flatMap f = l.flatMap g := by
  induction l with
  | nil => rfl
  | cons a l ih =>
    rw [List.flatMap_cons, List.flatMap_cons, h a (by simp), ih fun x hx => h x (List.mem_cons_of_mem _ hx)]

/-- The node made by `addBlock`. -/
def Cfg.withBlock (c : Cfg) (kind : BlockKind) (insts : List Nat) : Cfg :=
  { c with
    lastIdx := c.lastIdx + 1
    nodes := c.nodes ++ [c.lastIdx + 1]
    kind := setAt c.kind (c.lastIdx + 1) kind
    insts := setAt c.insts (c.lastIdx + 1) insts }

theorem addBlock_ok {prog P done order jd} {c : Cfg} (I : GInv prog P done order jd c) {kind : BlockKind} {insts : List Nat}
    (h : kind = .block → insts ≠ []) : c.addBlock kind insts = .ok (c.lastIdx + 1, c.withBlock kind insts) := by
  unfold Cfg.addBlock
  rw [if_neg (by rintro ⟨h1, h2⟩; exact h h2 h1)]
  simp only [I.fresh, if_false, Cfg.withBlock]

theorem GInv.ne_new {prog P done order jd} {c : Cfg} (I : GInv prog P done order jd c) {n : Nat} (hn : n ∈ c.nodes) :
    n ≠ c.lastIdx + 1 := by
  rintro rfl
  exact I.fresh hn

/-- `j` follows `i` in the graph. -/
def CfgLinked (c : Cfg) (i j : Nat) : Prop :=
  Spec.Follows c.nodes c.insts (fun w => c.kind w = .cond) (fun u v => (u, v) ∈ c.edges) i j

theorem CfgLinked.mono {c c' : Cfg} (hE : ∀ u v, (u, v) ∈ c.edges → u ∈ c.nodes ∧ v ∈ c.nodes)
    (h : ∀ n ∈ c.nodes, n ∈ c'.nodes ∧ c'.kind n = c.kind n ∧ c'.insts n = c.insts n)
    (he : ∀ u v, (u, v) ∈ c.edges → (u, v) ∈ c'.edges) {i j : Nat} (L : CfgLinked c i j) : CfgLinked c' i j := by
  rcases L with ⟨n, hn, p, q, e⟩ | ⟨u, hu, v, hv, h1, h2, h3⟩
  · exact Or.inl ⟨n, (h n hn).1, p, q, by rw [(h n hn).2.2, e]⟩
  · refine Or.inr ⟨u, (h u hu).1, v, (h v hv).1, by rw [(h u hu).2.2, h1], by rw [(h v hv).2.2, h2], ?_⟩
    rcases h3 with h3 | ⟨w, k, h3, h4⟩
    · exact Or.inl (he _ _ h3)
    · exact Or.inr ⟨w, by show c'.kind w = .cond; rw [(h w (hE _ _ h3).2).2.1]; exact k, he _ _ h3, he _ _ h4⟩

theorem CfgLinked.withBlock {prog P done order jd} {c : Cfg} (I : GInv prog P done order jd c) {kind : BlockKind} {insts : List Nat} {i j : Nat}
    (L : CfgLinked c i j) : CfgLinked (c.withBlock kind insts) i j :=
  CfgLinked.mono (c := c) (c' := c.withBlock kind insts) I.ends (fun n hn => ⟨by show n ∈ c.nodes ++ [c.lastIdx + 1]; simp [hn], setAt_ne _ _ (I.ne_new hn), setAt_ne _ _ (I.ne_new hn)⟩)
    (fun _ _ h => h) L

theorem CfgLinked.edges {prog P done order jd} {c : Cfg} (I : GInv prog P done order jd c) {es : List (Nat × Nat)} {i j : Nat}
    (h : ∀ e, e ∈ c.edges → e ∈ es) (L : CfgLinked c i j) : CfgLinked { c with edges := es } i j :=
  CfgLinked.mono (c := c) (c' := { c with edges := es }) I.ends (fun _ hn => ⟨hn, rfl, rfl⟩) (fun _ _ hm => h _ hm) L

/-- A conditional or unknown node. -/
theorem GInv.special {prog P done order jd} {c : Cfg} (I : GInv prog P done order jd c) {kind : BlockKind}
    (h : kind = .cond ∨ kind = .unknown) : GInv prog P done order jd (c.withBlock kind []) := by
  have hk1 : kind ≠ .block := by rintro rfl; rcases h with h | h <;> cases h
  have hk2 : kind ≠ .root := by rintro rfl; rcases h with h | h <;> cases h
  have hk3 : kind ≠ .fin := by rintro rfl; rcases h with h | h <;> cases h
  have hin : ∀ n, n ∈ (c.withBlock kind []).nodes ↔ n ∈ c.nodes ∨ n = c.lastIdx + 1 := fun n => by
    show n ∈ c.nodes ++ [c.lastIdx + 1] ↔ _
    rw [List.mem_append, List.mem_singleton]
  have hkind : ∀ n ∈ c.nodes, (c.withBlock kind []).kind n = c.kind n := fun n hn => setAt_ne _ _ (I.ne_new hn)
  have hinst : ∀ n ∈ c.nodes, (c.withBlock kind []).insts n = c.insts n := fun n hn => setAt_ne _ _ (I.ne_new hn)
  have hnk : (c.withBlock kind []).kind (c.lastIdx + 1) = kind := setAt_same _ _ _
  have hni : (c.withBlock kind []).insts (c.lastIdx + 1) = [] := setAt_same _ _ _
  refine ⟨?_, ?_, I.enodup, ?_, ?_, ?_, ?_, I.noin, I.noout, ?_, ?_, I.onodup, ?_, ?_, ?_, ?_, ?_⟩
  · intro n hn
    rcases (hin n).1 hn with h | rfl
    · exact Nat.le_succ_of_le (I.bound n h)
    · exact Nat.le_refl _
  · show (c.nodes ++ [c.lastIdx + 1]).Nodup
    rw [List.nodup_append]
    exact ⟨I.nodup, by simp, fun a ha b hb => by rw [List.mem_singleton] at hb; rw [hb]; exact I.ne_new ha⟩
  · intro u v huv
    have := I.ends u v huv
    exact ⟨(hin u).2 (Or.inl this.1), (hin v).2 (Or.inl this.2)⟩
  · exact ⟨(hin 1).2 (Or.inl I.one.1), by rw [hkind 1 I.one.1]; exact I.one.2⟩
  · exact ⟨(hin 2).2 (Or.inl I.two.1), by rw [hkind 2 I.two.1]; exact I.two.2⟩
  · intro n hn
    rcases (hin n).1 hn with h | rfl
    · rw [hkind n h]; exact I.others n h
    · rw [hnk]; exact ⟨fun h => absurd h hk2, fun h => absurd h hk3⟩
  · intro n hn hb
    rcases (hin n).1 hn with h | rfl
    · rw [hinst n h]; rw [hkind n h] at hb; exact I.empty n h hb
    · exact hni
  · intro n hn hb
    rcases (hin n).1 hn with h | rfl
    · rw [hinst n h]; rw [hkind n h] at hb; exact I.full n h hb
    · rw [hnk] at hb; exact absurd hb hk1
  · intro n
    rw [I.ord]
    constructor
    · rintro ⟨h1, h2⟩
      exact ⟨(hin n).2 (Or.inl h1), by rw [hkind n h1]; exact h2⟩
    · rintro ⟨h1, h2⟩
      rcases (hin n).1 h1 with h | rfl
      · exact ⟨h, by rw [hkind n h] at h2; exact h2⟩
      · rw [hnk] at h2; exact absurd h2 hk1
  · rw [flatMap_congr_mem fun n hn => hinst n ((I.ord n).1 hn).1]
    exact I.flat
  · intro n hn
    rcases (hin n).1 hn with h | rfl
    · rw [hinst n h]; exact I.first n h
    · rw [hni]; simp
  · intro i h1 h2 h3
    obtain ⟨b, h4, h5⟩ := I.single i h1 h2 h3
    exact ⟨b, (hin b).2 (Or.inl h4), by rw [hinst b h4]; exact h5⟩
  · intro i h1 h2 h3 t h4 h5 h6
    obtain ⟨b, g1, g2, n, g3, g4, g5⟩ := I.jump i h1 h2 h3 t h4 h5 h6
    exact ⟨b, (hin b).2 (Or.inl g1), by rw [hinst b g1]; exact g2, n, (hin n).2 (Or.inl g3), by rw [hinst n g3]; exact g4, g5⟩

/-- A block for the next instruction. -/
theorem GInv.instr {prog P done order jd} {c : Cfg} (I : GInv prog P done order jd c) {i : Nat} (hlt : ∀ j ∈ done, j < i)
    (hjd : ∀ j ∈ jd, j ∈ done) :
    GInv prog P (done ++ [i]) (order ++ [c.lastIdx + 1]) jd (c.withBlock .block [i]) := by
  have hin : ∀ n, n ∈ (c.withBlock .block [i]).nodes ↔ n ∈ c.nodes ∨ n = c.lastIdx + 1 := fun n => by
    show n ∈ c.nodes ++ [c.lastIdx + 1] ↔ _
    rw [List.mem_append, List.mem_singleton]
  have hkind : ∀ n ∈ c.nodes, (c.withBlock .block [i]).kind n = c.kind n := fun n hn => setAt_ne _ _ (I.ne_new hn)
  have hinst : ∀ n ∈ c.nodes, (c.withBlock .block [i]).insts n = c.insts n := fun n hn => setAt_ne _ _ (I.ne_new hn)
  have hnk : (c.withBlock .block [i]).kind (c.lastIdx + 1) = .block := setAt_same _ _ _
  have hni : (c.withBlock .block [i]).insts (c.lastIdx + 1) = [i] := setAt_same _ _ _
  refine ⟨?_, ?_, I.enodup, ?_, ?_, ?_, ?_, I.noin, I.noout, ?_, ?_, ?_, ?_, ?_, ?_, ?_, ?_⟩
  · intro n hn
    rcases (hin n).1 hn with h | rfl
    · exact Nat.le_succ_of_le (I.bound n h)
    · exact Nat.le_refl _
  · show (c.nodes ++ [c.lastIdx + 1]).Nodup
    rw [List.nodup_append]
    exact ⟨I.nodup, by simp, fun a ha b hb => by rw [List.mem_singleton] at hb; rw [hb]; exact I.ne_new ha⟩
  · intro u v huv
    have := I.ends u v huv
    exact ⟨(hin u).2 (Or.inl this.1), (hin v).2 (Or.inl this.2)⟩
  · exact ⟨(hin 1).2 (Or.inl I.one.1), by rw [hkind 1 I.one.1]; exact I.one.2⟩
  · exact ⟨(hin 2).2 (Or.inl I.two.1), by rw [hkind 2 I.two.1]; exact I.two.2⟩
  · intro n hn
    rcases (hin n).1 hn with h | rfl
    · rw [hkind n h]; exact I.others n h
    · rw [hnk]
      exact ⟨fun h => BlockKind.noConfusion h, fun h => BlockKind.noConfusion h⟩
  · intro n hn hb
    rcases (hin n).1 hn with h | rfl
    · rw [hinst n h]; rw [hkind n h] at hb; exact I.empty n h hb
    · rw [hnk] at hb; exact absurd rfl hb
  · intro n hn hb
    rcases (hin n).1 hn with h | rfl
    · rw [hinst n h]; rw [hkind n h] at hb; exact I.full n h hb
    · rw [hni]; simp
  · rw [List.nodup_append]
    exact ⟨I.onodup, by simp, fun a ha b hb => by
      rw [List.mem_singleton] at hb; rw [hb]; exact I.ne_new ((I.ord a).1 ha).1⟩
  · intro n
    rw [List.mem_append, List.mem_singleton, I.ord]
    constructor
    · rintro (⟨h1, h2⟩ | rfl)
      · exact ⟨(hin n).2 (Or.inl h1), by rw [hkind n h1]; exact h2⟩
      · exact ⟨(hin _).2 (Or.inr rfl), hnk⟩
    · rintro ⟨h1, h2⟩
      rcases (hin n).1 h1 with h | rfl
      · exact Or.inl ⟨h, by rw [hkind n h] at h2; exact h2⟩
      · exact Or.inr rfl
  · rw [List.flatMap_append, flatMap_congr_mem fun n hn => hinst n ((I.ord n).1 hn).1, I.flat, List.flatMap_singleton, hni]
  · intro n hn
    rcases (hin n).1 hn with h | rfl
    · rw [hinst n h]; exact I.first n h
    · rw [hni]; simp
  · intro j h1 h2 h3
    rcases List.mem_append.1 h1 with h1 | h1
    · obtain ⟨b, h4, h5⟩ := I.single j h1 h2 h3
      exact ⟨b, (hin b).2 (Or.inl h4), by rw [hinst b h4]; exact h5⟩
    · rw [List.mem_singleton] at h1
      exact ⟨_, (hin _).2 (Or.inr rfl), by rw [hni, h1]⟩
  · intro j h1 h2 h3 t h4 h5 h6
    have hj := hlt j (hjd j h1)
    have ht : t ∈ done := by
      rcases List.mem_append.1 h5 with h | h
      · exact h
      · rw [List.mem_singleton] at h; omega
    obtain ⟨b, g1, g2, n, g3, g4, g5⟩ := I.jump j h1 h2 h3 t h4 ht h6
    exact ⟨b, (hin b).2 (Or.inl g1), by rw [hinst b g1]; exact g2, n, (hin n).2 (Or.inl g3), by rw [hinst n g3]; exact g4, g5⟩

/-- Another instruction in the last block. -/
theorem GInv.append {prog P done o jd} {c : Cfg} {cb : Nat} (I : GInv prog P done (o ++ [cb]) jd c) {i : Nat}
    (hlt : ∀ j ∈ done, j < i) (hjd : ∀ j ∈ jd, j ∈ done) (hi : (prog[i]?.getD {}).branch = false)
    (hcb : ∀ j, c.insts cb = [j] → (prog[j]?.getD {}).branch = true → ¬ P j) :
    GInv prog P (done ++ [i]) (o ++ [cb]) jd { c with insts := setAt c.insts cb (c.insts cb ++ [i]) } := by
  have hm := (I.ord cb).1 (by simp)
  have hne := I.full cb hm.1 hm.2
  have hinst : ∀ n, n ≠ cb → setAt c.insts cb (c.insts cb ++ [i]) n = c.insts n := fun n hn => setAt_ne _ _ hn
  have hcbi : setAt c.insts cb (c.insts cb ++ [i]) cb = c.insts cb ++ [i] := setAt_same _ _ _
  have ho : cb ∉ o := by
    have := I.onodup
    rw [List.nodup_append] at this
    exact fun h => this.2.2 cb h cb (by simp) rfl
  refine ⟨I.bound, I.nodup, I.enodup, I.ends, I.one, I.two, I.others, I.noin, I.noout, ?_, ?_, I.onodup, I.ord, ?_, ?_, ?_, ?_⟩
  · intro n hn hk
    show setAt c.insts cb (c.insts cb ++ [i]) n = []
    have : n ≠ cb := by rintro rfl; exact hk hm.2
    rw [hinst n this]
    exact I.empty n hn hk
  · intro n hn hk
    show setAt c.insts cb (c.insts cb ++ [i]) n ≠ []
    by_cases h : n = cb
    · subst h; rw [hcbi]; simp
    · rw [hinst n h]; exact I.full n hn hk
  · show (o ++ [cb]).flatMap (setAt c.insts cb (c.insts cb ++ [i])) = done ++ [i]
    rw [List.flatMap_append, List.flatMap_singleton, hcbi,
      flatMap_congr_mem fun n hn => hinst n (by rintro rfl; exact ho hn), ← List.append_assoc]
    have := I.flat
    rw [List.flatMap_append, List.flatMap_singleton] at this
    rw [this]
  · intro n hn j hj
    have hj : j ∈ (setAt c.insts cb (c.insts cb ++ [i]) n).tail := hj
    by_cases h : n = cb
    · subst h
      rw [hcbi, List.tail_append_of_ne_nil hne, List.mem_append, List.mem_singleton] at hj
      rcases hj with hj | rfl
      · exact I.first n hn j hj
      · exact hi
    · rw [hinst n h] at hj
      exact I.first n hn j hj
  · intro j h1 h2 h3
    rcases List.mem_append.1 h1 with h1 | h1
    · obtain ⟨b, h4, h5⟩ := I.single j h1 h2 h3
      have : b ≠ cb := by rintro rfl; exact hcb j h5 h2 h3
      exact ⟨b, h4, by show setAt c.insts cb _ b = _; rw [hinst b this]; exact h5⟩
    · rw [List.mem_singleton] at h1
      rw [h1, hi] at h2
      cases h2
  · intro j h1 h2 h3 t h4 h5 h6
    have hj := hlt j (hjd j h1)
    have ht : t ∈ done := by
      rcases List.mem_append.1 h5 with h | h
      · exact h
      · rw [List.mem_singleton] at h; omega
    obtain ⟨b, g1, g2, n, g3, g4, g5⟩ := I.jump j h1 h2 h3 t h4 ht h6
    have : b ≠ cb := by rintro rfl; exact hcb j g2 h2 h3
    refine ⟨b, g1, by show setAt c.insts cb _ b = _; rw [hinst b this]; exact g2, n, g3, ?_, g5⟩
    show (setAt c.insts cb (c.insts cb ++ [i]) n).head? = some t
    by_cases h : n = cb
    · subst h
      rw [hcbi, List.head?_append, g4]
      rfl
    · rw [hinst n h]; exact g4

theorem CfgLinked.append {prog P done o jd} {c : Cfg} {cb : Nat} (I : GInv prog P done (o ++ [cb]) jd c) {k i j : Nat}
    (hne : (c.insts cb).getLast? ≠ some i) (L : CfgLinked c i j) :
    CfgLinked { c with insts := setAt c.insts cb (c.insts cb ++ [k]) } i j := by
  have hm := (I.ord cb).1 (by simp)
  have hfull := I.full cb hm.1 hm.2
  have hinst : ∀ n, n ≠ cb → setAt c.insts cb (c.insts cb ++ [k]) n = c.insts n := fun n hn => setAt_ne _ _ hn
  have hcbi : setAt c.insts cb (c.insts cb ++ [k]) cb = c.insts cb ++ [k] := setAt_same _ _ _
  rcases L with ⟨n, hn, p, q, e⟩ | ⟨u, hu, v, hv, h1, h2, h3⟩
  · refine Or.inl ⟨n, hn, ?_⟩
    show ∃ p q, setAt c.insts cb (c.insts cb ++ [k]) n = p ++ i :: j :: q
    by_cases h : n = cb
    · subst h
      exact ⟨p, q ++ [k], by rw [hcbi, e]; simp⟩
    · exact ⟨p, q, by rw [hinst n h, e]⟩
  · refine Or.inr ⟨u, hu, v, hv, ?_, ?_, h3⟩
    · show (setAt c.insts cb (c.insts cb ++ [k]) u).getLast? = some i
      rw [hinst u (by rintro rfl; exact hne h1), h1]
    · show (setAt c.insts cb (c.insts cb ++ [k]) v).head? = some j
      by_cases h : v = cb
      · subst h
        rw [hcbi, List.head?_append, h2]
        rfl
      · rw [hinst v h, h2]

/-- A new edge. -/
theorem GInv.edge {prog P done order jd} {c : Cfg} (I : GInv prog P done order jd c) {u v : Nat} (hu : u ∈ c.nodes)
    (hv : v ∈ c.nodes) (hu2 : u ≠ 2) (hv1 : v ≠ 1) (hnew : (u, v) ∉ c.edges) :
    c.addEdge u v = .ok { c with edges := c.edges ++ [(u, v)] } ∧
    GInv prog P done order jd { c with edges := c.edges ++ [(u, v)] } := by
  have hin : ∀ a b, (a, b) ∈ c.edges ++ [(u, v)] ↔ (a, b) ∈ c.edges ∨ (a = u ∧ b = v) := fun a b => by
    rw [List.mem_append, List.mem_singleton, Prod.mk.injEq]
  refine ⟨?_, ⟨I.bound, I.nodup, ?_, ?_, I.one, I.two, I.others, ?_, ?_, I.empty, I.full, I.onodup, I.ord, I.flat, I.first,
    I.single, ?_⟩⟩
  · unfold Cfg.addEdge
    rw [if_pos ⟨hu, hv, hnew⟩]
  · show (c.edges ++ [(u, v)]).Nodup
    rw [List.nodup_append]
    exact ⟨I.enodup, by simp, fun a ha b hb => by
      rw [List.mem_singleton] at hb; rw [hb]; rintro rfl; exact hnew ha⟩
  · intro a b hab
    rcases (hin a b).1 hab with h | ⟨rfl, rfl⟩
    · exact I.ends a b h
    · exact ⟨hu, hv⟩
  · intro a hab
    rcases (hin a 1).1 hab with h | ⟨_, h⟩
    · exact I.noin a h
    · exact hv1 h.symm
  · intro b hab
    rcases (hin 2 b).1 hab with h | ⟨h, _⟩
    · exact I.noout b h
    · exact hu2 h.symm
  · intro i h1 h2 h3 t h4 h5 h6
    obtain ⟨b, g1, g2, n, g3, g4, g5⟩ := I.jump i h1 h2 h3 t h4 h5 h6
    exact ⟨b, g1, g2, n, g3, g4, (hin b n).2 (Or.inl g5)⟩

theorem GInv.needEdge {prog P done order jd} {c : Cfg} (I : GInv prog P done order jd c) {u v : Nat} (hu : u ∈ c.nodes)
    (hv : v ∈ c.nodes) (hu2 : u ≠ 2) (hv1 : v ≠ 1) :
    ∃ es, c.needEdge u v = .ok { c with edges := es } ∧ GInv prog P done order jd { c with edges := es } ∧ ∀ e ∈ c.edges, e ∈ es := by
  unfold Cfg.needEdge
  by_cases h : (u, v) ∈ c.edges
  · rw [if_pos h]
    exact ⟨c.edges, rfl, I, fun e he => he⟩
  · rw [if_neg h]
    obtain ⟨e, J⟩ := I.edge hu hv hu2 hv1 h
    exact ⟨_, e, J, fun e he => List.mem_append_left _ he⟩

/-! ### Splitting -/

theorem move_ok {split up : Nat} (hne : up ≠ split) : ∀ (l : List Nat) (c : Cfg), up ∈ c.nodes → (∀ i ∈ l, i ∈ c.nodes) →
    l.Nodup → (∀ i ∈ l, (i, split) ∈ c.edges) → (∀ i ∈ l, (i, up) ∉ c.edges) → c.edges.Nodup →
    ∃ es, l.foldlM (Cfg.moveEdge split up) c = .ok { c with edges := es } ∧ es.Nodup ∧
      ∀ a b, (a, b) ∈ es ↔ ((a, b) ∈ c.edges ∧ ¬ (b = split ∧ a ∈ l)) ∨ (b = up ∧ a ∈ l) := by
  intro l
  induction l with
  | nil =>
    intro c _ _ _ _ _ hn
    exact ⟨c.edges, rfl, hn, fun a b => by simp⟩
  | cons i l ih =>
    intro c hup hl hnd hin hout hn
    rw [List.nodup_cons] at hnd
    let c1 : Cfg := { c with edges := c.edges.erase (i, split) ++ [(i, up)] }
    have hm : ∀ a b, (a, b) ∈ c1.edges ↔ ((a, b) ∈ c.edges ∧ ¬ (a = i ∧ b = split)) ∨ (a = i ∧ b = up) := by
      intro a b
      show (a, b) ∈ c.edges.erase (i, split) ++ [(i, up)] ↔ _
      rw [List.mem_append, List.mem_singleton, hn.mem_erase_iff, Prod.mk.injEq, ne_eq, Prod.mk.injEq]
      tauto
    have hstep : Cfg.moveEdge split up c i = .ok c1 := by
      unfold Cfg.moveEdge Cfg.delEdge
      rw [if_pos (hin i (by simp))]
      show Cfg.addEdge { c with edges := c.edges.erase (i, split) } i up = _
      unfold Cfg.addEdge
      rw [if_pos ⟨hl i (by simp), hup, fun h => hout i (by simp) (List.mem_of_mem_erase h)⟩]
    have hn1 : c1.edges.Nodup := by
      show (c.edges.erase (i, split) ++ [(i, up)]).Nodup
      rw [List.nodup_append]
      exact ⟨hn.erase _, by simp, fun a ha b hb => by
        rw [List.mem_singleton] at hb; rw [hb]; rintro rfl; exact hout i (by simp) (List.mem_of_mem_erase ha)⟩
    obtain ⟨es, e1, e2, e3⟩ := ih c1 hup (fun j hj => hl j (List.mem_cons_of_mem _ hj)) hnd.2
      (fun j hj => (hm j split).2 (Or.inl ⟨hin j (List.mem_cons_of_mem _ hj), by
        rintro ⟨rfl, _⟩; exact hnd.1 hj⟩))
      (fun j hj h => by
        rcases (hm j up).1 h with h | h
        · exact hout j (List.mem_cons_of_mem _ hj) h.1
        · rw [h.1] at hj; exact hnd.1 hj) hn1
    refine ⟨es, ?_, e2, fun a b => ?_⟩
    · rw [List.foldlM_cons, hstep]
      exact e1
    · rw [e3, hm, List.mem_cons]
      constructor
      · rintro (⟨⟨h1, h2⟩ | ⟨rfl, rfl⟩, h3⟩ | ⟨rfl, h⟩)
        · refine Or.inl ⟨h1, ?_⟩
          rintro ⟨rfl, rfl | h⟩
          · exact h2 ⟨rfl, rfl⟩
          · exact h3 ⟨rfl, h⟩
        · exact Or.inr ⟨rfl, Or.inl rfl⟩
        · exact Or.inr ⟨rfl, Or.inr h⟩
      · rintro (⟨h1, h2⟩ | ⟨rfl, rfl | h⟩)
        · refine Or.inl ⟨Or.inl ⟨h1, ?_⟩, ?_⟩
          · rintro ⟨rfl, rfl⟩; exact h2 ⟨rfl, Or.inl rfl⟩
          · rintro ⟨rfl, h⟩; exact h2 ⟨rfl, Or.inr h⟩
        · refine Or.inl ⟨Or.inr ⟨rfl, rfl⟩, ?_⟩
          rintro ⟨h, _⟩; exact hne h
        · exact Or.inr ⟨rfl, h⟩

theorem mem_incidents {c : Cfg} {n i : Nat} : i ∈ c.incidents n ↔ (i, n) ∈ c.edges := by
  unfold Cfg.incidents
  rw [List.mem_map]
  constructor
  · rintro ⟨e, h1, rfl⟩
    rw [List.mem_filter, beq_iff_eq] at h1
    rw [← h1.2]
    exact h1.1
  · intro h
    exact ⟨(i, n), List.mem_filter.2 ⟨h, by simp⟩, rfl⟩

theorem incidents_nodup {c : Cfg} (h : c.edges.Nodup) (n : Nat) : (c.incidents n).Nodup := by
  unfold Cfg.incidents
  refine List.Nodup.map_on ?_ (h.filter _)
  intro a ha b hb hab
  rw [List.mem_filter, beq_iff_eq] at ha hb
  exact Prod.ext hab (ha.2.trans hb.2.symm)

theorem splitUp_ok {prog P done order jd} {c : Cfg} (I : GInv prog P done order jd c) {split index : Nat}
    (hs : split ∈ c.nodes) (hi : 0 < index) (hlt : index < (c.insts split).length) :
    ∃ es, c.splitUp split index = .ok
        { c with
          lastIdx := c.lastIdx + 1
          nodes := c.nodes ++ [c.lastIdx + 1]
          kind := setAt c.kind (c.lastIdx + 1) .block
          insts := setAt (setAt c.insts (c.lastIdx + 1) ((c.insts split).take index)) split ((c.insts split).drop index)
          edges := es } ∧ es.Nodup ∧
      ∀ a b, (a, b) ∈ es ↔ ((a, b) ∈ c.edges ∧ b ≠ split) ∨ (b = c.lastIdx + 1 ∧ (a, split) ∈ c.edges) ∨
        (a = c.lastIdx + 1 ∧ b = split) := by
  have hsn := I.ne_new hs
  have htake : (c.insts split).take index ≠ [] := by
    intro h
    have := congrArg List.length h
    rw [List.length_take, List.length_nil] at this
    omega
  let c1 : Cfg := { c.withBlock .block ((c.insts split).take index) with
    insts := setAt (setAt c.insts (c.lastIdx + 1) ((c.insts split).take index)) split ((c.insts split).drop index) }
  have hc1 : ({ c.withBlock .block ((c.insts split).take index) with
      insts := setAt (c.withBlock .block ((c.insts split).take index)).insts split
        (((c.withBlock .block ((c.insts split).take index)).insts split).drop index) } : Cfg) = c1 := by
    have : (c.withBlock .block ((c.insts split).take index)).insts split = c.insts split := setAt_ne _ _ hsn
    rw [this]
    rfl
  have he : c1.edges = c.edges := rfl
  have hn1 : c1.nodes = c.nodes ++ [c.lastIdx + 1] := rfl
  obtain ⟨es, e1, e2, e3⟩ := move_ok (split := split) (up := c.lastIdx + 1) hsn.symm (c1.incidents split) c1
    (by rw [hn1]; simp)
    (fun i hi => by
      rw [mem_incidents, he] at hi
      rw [hn1]
      exact List.mem_append_left _ (I.ends i split hi).1)
    (incidents_nodup I.enodup split)
    (fun i hi => mem_incidents.1 hi)
    (fun i _ h => I.fresh (I.ends i _ h).2) I.enodup
  have hnew : (c.lastIdx + 1, split) ∉ es := by
    rw [e3]
    rintro (⟨h, _⟩ | ⟨h, _⟩)
    · exact I.fresh (I.ends _ _ h).1
    · exact hsn h
  refine ⟨es ++ [(c.lastIdx + 1, split)], ?_, ?_, fun a b => ?_⟩
  · unfold Cfg.splitUp
    rw [addBlock_ok I (fun _ => htake)]
    show ((Cfg.incidents { c.withBlock .block ((c.insts split).take index) with
      insts := setAt (c.withBlock .block ((c.insts split).take index)).insts split
        (((c.withBlock .block ((c.insts split).take index)).insts split).drop index) } split).foldlM
        (Cfg.moveEdge split (c.lastIdx + 1)) { c.withBlock .block ((c.insts split).take index) with
      insts := setAt (c.withBlock .block ((c.insts split).take index)).insts split
        (((c.withBlock .block ((c.insts split).take index)).insts split).drop index) }
        >>= fun d => d.addEdge (c.lastIdx + 1) split) = _
    rw [hc1, e1]
    show Cfg.addEdge { c1 with edges := es } (c.lastIdx + 1) split = _
    unfold Cfg.addEdge
    rw [if_pos ⟨by show _ ∈ c1.nodes; rw [hn1]; simp, by show _ ∈ c1.nodes; rw [hn1]; exact List.mem_append_left _ hs, hnew⟩]
    rfl
  · rw [List.nodup_append]
    exact ⟨e2, by simp, fun a ha b hb => by
      rw [List.mem_singleton] at hb; rw [hb]; rintro rfl; exact hnew ha⟩
  · rw [List.mem_append, List.mem_singleton, e3, he, Prod.mk.injEq]
    simp only [mem_incidents, he]
    constructor
    · rintro ((⟨h1, h2⟩ | h) | h)
      · exact Or.inl ⟨h1, fun h => h2 ⟨h, h ▸ h1⟩⟩
      · exact Or.inr (Or.inl h)
      · exact Or.inr (Or.inr h)
    · rintro (⟨h1, h2⟩ | h | h)
      · exact Or.inl (Or.inl ⟨h1, fun h => h2 h.1⟩)
      · exact Or.inl (Or.inr h)
      · exact Or.inr h

/-- The invariant after a split. -/
theorem GInv.split {prog P done order jd} {c : Cfg} (I : GInv prog P done order jd c) {split index : Nat}
    (hs : split ∈ c.nodes) (hi : 0 < index) (hlt : index < (c.insts split).length) :
    ∃ c' order', c.splitUp split index = .ok c' ∧ GInv prog P done order' jd c' ∧
      (∀ n ∈ c.nodes, n ∈ c'.nodes ∧ c'.kind n = c.kind n) ∧
      (∀ n, n ≠ split → n ≠ c.lastIdx + 1 → c'.insts n = c.insts n) ∧ c'.insts split = (c.insts split).drop index ∧
      c'.pending = c.pending ∧ (∀ n ∈ c.nodes, (∀ v, (n, v) ∉ c.edges) → ∀ v, (n, v) ∉ c'.edges) ∧
      (∀ o x, order = o ++ [x] → ∃ o', order' = o' ++ [x]) ∧ ∀ i j, CfgLinked c i j → CfgLinked c' i j := by
  have hsn := I.ne_new hs
  have hsk : c.kind split = .block := by
    by_contra h
    rw [I.empty split hs h] at hlt
    simp at hlt
  obtain ⟨es, e1, e2, e3⟩ := splitUp_ok I hs hi hlt
  let up := c.lastIdx + 1
  let c' : Cfg := { c with
          lastIdx := c.lastIdx + 1
          nodes := c.nodes ++ [c.lastIdx + 1]
          kind := setAt c.kind (c.lastIdx + 1) .block
          insts := setAt (setAt c.insts (c.lastIdx + 1) ((c.insts split).take index)) split ((c.insts split).drop index)
          edges := es }
  have hin : ∀ n, n ∈ c'.nodes ↔ n ∈ c.nodes ∨ n = up := fun n => by
    show n ∈ c.nodes ++ [c.lastIdx + 1] ↔ _
    rw [List.mem_append, List.mem_singleton]
  have hkind : ∀ n ∈ c.nodes, c'.kind n = c.kind n := fun n hn => setAt_ne _ _ (I.ne_new hn)
  have hku : c'.kind up = .block := setAt_same _ _ _
  have hinst : ∀ n, n ≠ split → n ≠ up → c'.insts n = c.insts n := fun n h1 h2 => (setAt_ne _ _ h1).trans (setAt_ne _ _ h2)
  have his : c'.insts split = (c.insts split).drop index := setAt_same _ _ _
  have hiu : c'.insts up = (c.insts split).take index := (setAt_ne _ _ hsn.symm).trans (setAt_same _ _ _)
  have htake : (c.insts split).take index ≠ [] := by
    intro h
    have := congrArg List.length h
    rw [List.length_take, List.length_nil] at this
    omega
  have hdrop : (c.insts split).drop index ≠ [] := by
    intro h
    have := congrArg List.length h
    rw [List.length_drop, List.length_nil] at this
    omega
  have hso : split ∈ order := (I.ord split).2 ⟨hs, hsk⟩
  obtain ⟨A, B, hAB⟩ := List.append_of_mem hso
  have hno := I.onodup
  rw [hAB, List.nodup_append, List.nodup_cons] at hno
  have hup : up ∉ order := fun h => I.fresh ((I.ord up).1 h).1
  have hA : ∀ n ∈ A, n ≠ split ∧ n ≠ up := fun n hn =>
    ⟨by rintro rfl; exact hno.2.2 n hn n (by simp) rfl, by rintro rfl; exact hup (by rw [hAB]; simp [hn])⟩
  have hB : ∀ n ∈ B, n ≠ split ∧ n ≠ up := fun n hn =>
    ⟨by rintro rfl; exact hno.2.1.1 hn, by rintro rfl; exact hup (by rw [hAB]; simp [hn])⟩
  have hsingle : ∀ b ∈ c.nodes, ∀ i, c.insts b = [i] → c'.insts b = [i] := by
    intro b hb i h
    rw [hinst b ?_ (I.ne_new hb)]
    · exact h
    · rintro rfl
      rw [h, List.length_singleton] at hlt
      omega
  refine ⟨c', A ++ up :: split :: B, e1, ?_, fun n hn => ⟨(hin n).2 (Or.inl hn), hkind n hn⟩, hinst, his, rfl, ?_, ?_, ?_⟩
  · refine ⟨?_, ?_, e2, ?_, ?_, ?_, ?_, ?_, ?_, ?_, ?_, ?_, ?_, ?_, ?_, ?_, ?_⟩
    · intro n hn
      rcases (hin n).1 hn with h | h
      · exact Nat.le_succ_of_le (I.bound n h)
      · exact Nat.le_of_eq h
    · show (c.nodes ++ [c.lastIdx + 1]).Nodup
      rw [List.nodup_append]
      exact ⟨I.nodup, by simp, fun a ha b hb => by rw [List.mem_singleton] at hb; rw [hb]; exact I.ne_new ha⟩
    · intro a b hab
      rcases (e3 a b).1 hab with ⟨h, _⟩ | ⟨h1, h⟩ | ⟨h1, h2⟩
      · exact ⟨(hin a).2 (Or.inl (I.ends a b h).1), (hin b).2 (Or.inl (I.ends a b h).2)⟩
      · exact ⟨(hin a).2 (Or.inl (I.ends a _ h).1), (hin b).2 (Or.inr h1)⟩
      · exact ⟨(hin a).2 (Or.inr h1), (hin b).2 (Or.inl (h2 ▸ hs))⟩
    · exact ⟨(hin 1).2 (Or.inl I.one.1), by rw [hkind 1 I.one.1]; exact I.one.2⟩
    · exact ⟨(hin 2).2 (Or.inl I.two.1), by rw [hkind 2 I.two.1]; exact I.two.2⟩
    · intro n hn
      rcases (hin n).1 hn with h | h
      · rw [hkind n h]; exact I.others n h
      · rw [h, hku]
        exact ⟨fun h => BlockKind.noConfusion h, fun h => BlockKind.noConfusion h⟩
    · intro a hab
      rcases (e3 a 1).1 hab with ⟨h, _⟩ | ⟨h1, h⟩ | ⟨h1, h2⟩
      · exact I.noin a h
      · exact I.ne_new I.one.1 h1
      · have := I.one.2
        rw [h2, hsk] at this
        cases this
    · intro b hab
      rcases (e3 2 b).1 hab with ⟨h, _⟩ | ⟨h1, h⟩ | ⟨h1, h2⟩
      · exact I.noout b h
      · exact I.noout _ h
      · exact I.ne_new I.two.1 h1
    · intro n hn hk
      rcases (hin n).1 hn with h | h
      · rw [hkind n h] at hk
        rw [hinst n (by rintro rfl; exact hk hsk) (I.ne_new h)]
        exact I.empty n h hk
      · rw [h, hku] at hk
        exact absurd rfl hk
    · intro n hn hk
      rcases (hin n).1 hn with h | h
      · by_cases hns : n = split
        · rw [hns, his]; exact hdrop
        · rw [hkind n h] at hk
          rw [hinst n hns (I.ne_new h)]
          exact I.full n h hk
      · rw [h, hiu]; exact htake
    · rw [List.nodup_append, List.nodup_cons, List.nodup_cons]
      refine ⟨hno.1, ⟨?_, hno.2.1⟩, ?_⟩
      · rw [List.mem_cons, not_or]
        exact ⟨hsn.symm, fun h => (hB up h).2 rfl⟩
      · intro a ha b hb
        rcases List.mem_cons.1 hb with rfl | hb
        · exact (hA a ha).2
        · exact hno.2.2 a ha b hb
    · intro n
      have h1 : n ∈ A ++ up :: split :: B ↔ n ∈ order ∨ n = up := by
        rw [hAB]
        simp only [List.mem_append, List.mem_cons]
        tauto
      rw [h1, I.ord]
      constructor
      · rintro (⟨h1, h2⟩ | h)
        · exact ⟨(hin n).2 (Or.inl h1), by rw [hkind n h1]; exact h2⟩
        · exact ⟨(hin n).2 (Or.inr h), by rw [h]; exact hku⟩
      · rintro ⟨h1, h2⟩
        rcases (hin n).1 h1 with h | h
        · exact Or.inl ⟨h, by rw [hkind n h] at h2; exact h2⟩
        · exact Or.inr h
    · rw [List.flatMap_append, List.flatMap_cons, List.flatMap_cons,
        flatMap_congr_mem fun n hn => hinst n (hA n hn).1 (hA n hn).2,
        flatMap_congr_mem (l := B) fun n hn => hinst n (hB n hn).1 (hB n hn).2, his, hiu, ← List.append_assoc _ _ (B.flatMap _),
        List.take_append_drop]
      have := I.flat
      rw [hAB, List.flatMap_append, List.flatMap_cons] at this
      exact this
    · intro n hn i hi'
      rcases (hin n).1 hn with h | h
      · by_cases hns : n = split
        · rw [hns, his] at hi'
          refine I.first split hs i ?_
          have h2 := List.mem_of_mem_tail hi'
          rw [← List.drop_one]
          have e : (c.insts split).drop index = ((c.insts split).drop 1).drop (index - 1) := by
            rw [List.drop_drop]
            congr 1
            omega
          rw [e] at h2
          exact List.mem_of_mem_drop h2
        · rw [hinst n hns (I.ne_new h)] at hi'
          exact I.first n h i hi'
      · rw [h, hiu] at hi'
        exact I.first split hs i ((List.take_sublist index (c.insts split)).tail.subset hi')
    · intro i h1 h2 h3
      obtain ⟨b, h4, h5⟩ := I.single i h1 h2 h3
      exact ⟨b, (hin b).2 (Or.inl h4), hsingle b h4 i h5⟩
    · intro i h1 h2 h3 t h4 h5 h6
      obtain ⟨b, g1, g2, n, g3, g4, g5⟩ := I.jump i h1 h2 h3 t h4 h5 h6
      refine ⟨b, (hin b).2 (Or.inl g1), hsingle b g1 i g2, ?_⟩
      by_cases hns : n = split
      · refine ⟨up, (hin up).2 (Or.inr rfl), ?_, (e3 b up).2 (Or.inr (Or.inl ⟨rfl, hns ▸ g5⟩))⟩
        rw [hiu, ← g4, hns]
        cases hl : c.insts split with
        | nil => rw [hl] at hlt; simp at hlt
        | cons a l =>
          cases index with
          | zero => omega
          | succ k => rfl
      · refine ⟨n, (hin n).2 (Or.inl g3), ?_, (e3 b n).2 (Or.inl ⟨g5, hns⟩)⟩
        rw [hinst n hns (I.ne_new g3)]
        exact g4
  · intro n hn hv v h
    rcases (e3 n v).1 h with ⟨h, _⟩ | ⟨_, h⟩ | ⟨h, _⟩
    · exact hv v h
    · exact hv _ h
    · exact I.ne_new hn h
  · intro o x ho
    rw [hAB] at ho
    rcases List.eq_nil_or_concat B with rfl | ⟨B', y, rfl⟩
    · have := List.append_inj_right' ho rfl
      cases this
      exact ⟨A ++ [up], by simp⟩
    · have h2 : (A ++ split :: B') ++ [y] = o ++ [x] := by simpa using ho
      have := List.append_inj_right' h2 rfl
      cases this
      exact ⟨A ++ up :: split :: B', by simp⟩
  · intro i j L
    rcases L with ⟨n, hn, p, q, e⟩ | ⟨u, hu, v, hv, h1, h2, h3⟩
    · by_cases h : n = split
      · subst h
        by_cases hp1 : p.length + 1 < index
        · refine Or.inl ⟨up, (hin up).2 (Or.inr rfl), p, q.take (index - p.length - 2), ?_⟩
          obtain ⟨k, rfl⟩ : ∃ k, index = p.length + (k + 2) := ⟨index - p.length - 2, by omega⟩
          rw [hiu, e, List.take_length_add_append]
          show p ++ (i :: j :: q).take (k + 2) = _
          have : p.length + (k + 2) - p.length - 2 = k := by omega
          rw [this]
          rfl
        · by_cases hp2 : p.length + 1 = index
          · refine Or.inr ⟨up, (hin up).2 (Or.inr rfl), n, (hin n).2 (Or.inl hn), ?_, ?_, Or.inl ((e3 up n).2 (Or.inr (Or.inr ⟨rfl, rfl⟩)))⟩
            · rw [hiu, e, ← hp2, List.take_length_add_append]
              simp
            · rw [his, e, ← hp2, List.drop_length_add_append]
              rfl
          · refine Or.inl ⟨n, (hin n).2 (Or.inl hn), p.drop index, q, ?_⟩
            rw [his, e, List.drop_append_of_le_length (by omega)]
      · exact Or.inl ⟨n, (hin n).2 (Or.inl hn), p, q, by rw [hinst n h (I.ne_new hn), e]⟩
    · have hlast : (c'.insts u).getLast? = some i := by
        by_cases h : u = split
        · subst h
          rw [his, List.getLast?_drop, if_neg (by omega), h1]
        · rw [hinst u h (I.ne_new hu), h1]
      by_cases h : v = split
      · subst h
        refine Or.inr ⟨u, (hin u).2 (Or.inl hu), up, (hin up).2 (Or.inr rfl), hlast, ?_, ?_⟩
        · rw [hiu]
          cases hl : c.insts v with
          | nil => rw [hl] at hlt; simp at hlt
          | cons a l =>
            rw [hl] at h2
            cases index with
            | zero => omega
            | succ k => exact h2
        · rcases h3 with h3 | ⟨w, k, h3, h4⟩
          · exact Or.inl ((e3 u up).2 (Or.inr (Or.inl ⟨rfl, h3⟩)))
          · have hw : w ≠ v := by
              rintro rfl
              rw [hsk] at k
              cases k
            exact Or.inr ⟨w, (hkind w (I.ends _ _ h3).2).trans k, (e3 u w).2 (Or.inl ⟨h3, hw⟩), (e3 w up).2 (Or.inr (Or.inl ⟨rfl, h4⟩))⟩
      · refine Or.inr ⟨u, (hin u).2 (Or.inl hu), v, (hin v).2 (Or.inl hv), hlast, by rw [hinst v h (I.ne_new hv), h2], ?_⟩
        rcases h3 with h3 | ⟨w, k, h3, h4⟩
        · exact Or.inl ((e3 u v).2 (Or.inl ⟨h3, h⟩))
        · have hw : w ≠ split := by
            rintro rfl
            rw [hsk] at k
            cases k
          exact Or.inr ⟨w, (hkind w (I.ends _ _ h3).2).trans k, (e3 u w).2 (Or.inl ⟨h3, hw⟩), (e3 w v).2 (Or.inl ⟨h4, h⟩)⟩

/-! ### Branches -/

/-- One more branch is treated. -/
theorem GInv.treat {prog P done order jd} {c : Cfg} (I : GInv prog P done order jd c) {i : Nat}
    (h : (prog[i]?.getD {}).branch = true → P i → ∀ t, (prog[i]?.getD {}).target = some t → t ∈ done → t ≤ i →
      ∃ b ∈ c.nodes, c.insts b = [i] ∧ ∃ n ∈ c.nodes, (c.insts n).head? = some t ∧ (b, n) ∈ c.edges) :
    GInv prog P done order (jd ++ [i]) c := by
  refine ⟨I.bound, I.nodup, I.enodup, I.ends, I.one, I.two, I.others, I.noin, I.noout, I.empty, I.full, I.onodup, I.ord, I.flat,
    I.first, I.single, ?_⟩
  intro j hj
  rcases List.mem_append.1 hj with hj | hj
  · exact I.jump j hj
  · rw [List.mem_singleton] at hj
    rw [hj]
    exact h

theorem GInv.setPending {prog P done order jd} {c : Cfg} (I : GInv prog P done order jd c) (p : List (Nat × List Nat)) :
    GInv prog P done order jd { c with pending := p } :=
  ⟨I.bound, I.nodup, I.enodup, I.ends, I.one, I.two, I.others, I.noin, I.noout, I.empty, I.full, I.onodup, I.ord, I.flat,
    I.first, I.single, I.jump⟩

theorem nodeWith_some {c : Cfg} {t n : Nat} (h : c.nodeWith t = some n) : n ∈ c.nodes ∧ t ∈ c.insts n := by
  unfold Cfg.nodeWith at h
  exact ⟨List.mem_of_find?_eq_some h, by simpa using List.find?_some h⟩

theorem nodeWith_none {prog P done order jd} {c : Cfg} (I : GInv prog P done order jd c) {t : Nat}
    (h : c.nodeWith t = none) : t ∉ done := by
  unfold Cfg.nodeWith at h
  rw [List.find?_eq_none] at h
  intro ht
  rw [← I.flat, List.mem_flatMap] at ht
  obtain ⟨b, hb, htb⟩ := ht
  exact h b ((I.ord b).1 hb).1 (by simpa using htb)

/-- What a step of the construction keeps of the graph. -/
structure Keeps (c c' : Cfg) (order order' : List Nat) : Prop where
  nodes : ∀ n ∈ c.nodes, n ∈ c'.nodes
  tail : ∀ o x, order = o ++ [x] → ∃ o', order' = o' ++ [x]
  linked : ∀ i j, CfgLinked c i j → CfgLinked c' i j

theorem splitNode_ok {prog P done order jd} {c : Cfg} (I : GInv prog P done order jd c) {split branch i t : Nat}
    (hs : split ∈ c.nodes) (hb : branch ∈ c.nodes) (hb2 : branch ≠ 2) (hbi : c.insts branch = [i])
    (hout : ∀ v, (branch, v) ∉ c.edges) (ht : t ∈ c.insts split) (htt : (prog[i]?.getD {}).target = some t) :
    ∃ c' order', c.splitNode split branch t = .ok c' ∧ GInv prog P done order' (jd ++ [i]) c' ∧ Keeps c c' order order' ∧
      c'.pending = c.pending := by
  have hidx : (c.insts split).idxOf t < (c.insts split).length := List.idxOf_lt_length_of_mem ht
  have hsk := I.mem_block hs ht
  have hs1 : split ≠ 1 := by
    rintro rfl
    rw [I.one.2] at hsk
    cases hsk
  have hhead : ((c.insts split).drop ((c.insts split).idxOf t)).head? = some t := by
    rw [List.head?_drop, List.getElem?_eq_getElem hidx, List.getElem_idxOf]
  unfold Cfg.splitNode
  rw [if_pos ht]
  by_cases h0 : 0 < (c.insts split).idxOf t
  · obtain ⟨c1, order1, e1, I1, k1, k2, k3, k4, k5, k6, k7⟩ := I.split hs h0 hidx
    have hbs : branch ≠ split := by
      rintro rfl
      rw [hbi, List.length_singleton] at hidx
      rw [hbi] at h0
      omega
    have hb1 := (k1 branch hb).1
    have hs1' := (k1 split hs).1
    obtain ⟨e2, I2⟩ := I1.edge hb1 hs1' hb2 hs1 (k5 branch hb hout split)
    refine ⟨_, order1, ?_, I2.treat ?_, ⟨fun n hn => (k1 n hn).1, k6, fun a b L => CfgLinked.edges I1 (fun e he => List.mem_append_left _ he) (k7 a b L)⟩, k4⟩
    · simp only [if_pos h0, e1]
      exact e2
    · intro _ _ t' ht' _ _
      rw [htt] at ht'
      cases ht'
      refine ⟨branch, hb1, ?_, split, hs1', ?_, ?_⟩
      · show c1.insts branch = [i]
        rw [k2 branch hbs (I.ne_new hb), hbi]
      · show (c1.insts split).head? = some t
        rw [k3, hhead]
      · show (branch, split) ∈ c1.edges ++ [(branch, split)]
        simp
  · have hz : (c.insts split).idxOf t = 0 := by omega
    obtain ⟨e2, I2⟩ := I.edge hb hs hb2 hs1 (hout split)
    refine ⟨_, order, ?_, I2.treat ?_, ⟨fun n hn => hn, fun o x h => ⟨o, h⟩, fun a b L => CfgLinked.edges I (fun e he => List.mem_append_left _ he) L⟩, rfl⟩
    · simp only [if_neg h0]
      exact e2
    · intro _ _ t' ht' _ _
      rw [htt] at ht'
      cases ht'
      refine ⟨branch, hb, hbi, split, hs, ?_, ?_⟩
      · show (c.insts split).head? = some t
        rw [hz] at hhead
        exact hhead
      · show (branch, split) ∈ c.edges ++ [(branch, split)]
        simp

theorem branchOut_ok {prog P done order jd} {c : Cfg} (I : GInv prog P done order jd c) {branch i : Nat}
    (hb : branch ∈ c.nodes) (hb2 : branch ≠ 2) (hbi : c.insts branch = [i]) (hout : ∀ v, (branch, v) ∉ c.edges)
    (hi : i ∈ done) (hp : ∀ k, k ∉ done → dictGet c.pending k = none) :
    ∃ c' order' o, c.branchOut prog branch i 2 = .ok (c', o) ∧ GInv prog P done order' (jd ++ [i]) c' ∧
      Keeps c c' order order' ∧ (∀ k, k ∉ done → dictGet c'.pending k = none) ∧ ∀ n, o = some n → n ∈ c'.nodes ∧ n ≠ 2 := by
  unfold Cfg.branchOut
  cases htt : (prog[i]?.getD {}).target with
  | none =>
    simp only [htt]
    have I1 := I.special (kind := .unknown) (Or.inr rfl)
    have hnew : c.lastIdx + 1 ∈ (c.withBlock .unknown []).nodes := by
      show _ ∈ c.nodes ++ [c.lastIdx + 1]
      simp
    have hk : ∀ n ∈ c.nodes, n ∈ (c.withBlock .unknown []).nodes := fun n hn => by
      show _ ∈ c.nodes ++ [c.lastIdx + 1]
      simp [hn]
    have hn1 : c.lastIdx + 1 ≠ 1 := (I.ne_new I.one.1).symm
    have hn2 : c.lastIdx + 1 ≠ 2 := (I.ne_new I.two.1).symm
    obtain ⟨e2, I2⟩ := I1.edge (hk branch hb) hnew hb2 hn1 (hout _)
    obtain ⟨e3, I3⟩ := I2.edge (u := c.lastIdx + 1) (v := 2) hnew (hk 2 I.two.1) hn2 (by decide) (by
      intro h
      have h : (c.lastIdx + 1, 2) ∈ c.edges ++ [(branch, c.lastIdx + 1)] := h
      rw [List.mem_append, List.mem_singleton, Prod.mk.injEq] at h
      rcases h with h | h
      · exact I.fresh (I.ends _ _ h).1
      · exact hn2 h.2.symm)
    refine ⟨_, order, if (prog[i]?.getD {}).link then some (c.lastIdx + 1) else none, ?_, I3.treat ?_, ⟨hk, fun o x h => ⟨o, h⟩,
      fun a b L => CfgLinked.edges I2 (fun e he => List.mem_append_left _ he) (CfgLinked.edges I1 (fun e he => List.mem_append_left _ he) (L.withBlock I))⟩, hp, ?_⟩
    · unfold Cfg.toUnknown
      rw [addBlock_ok I (by intro h; cases h)]
      show ((do
        let d ← (c.withBlock .unknown []).addEdge branch (c.lastIdx + 1)
        let c' ← d.addEdge (c.lastIdx + 1) 2
        .ok (c.lastIdx + 1, c')) >>= fun r => (.ok (r.2, if (prog[i]?.getD {}).link then some r.1 else none) : Py _)) = _
      rw [e2]
      show ((do
        let c' ← Cfg.addEdge { c.withBlock .unknown [] with edges := (c.withBlock .unknown []).edges ++ [(branch, c.lastIdx + 1)] } (c.lastIdx + 1) 2
        .ok (c.lastIdx + 1, c')) >>= fun r => (.ok (r.2, if (prog[i]?.getD {}).link then some r.1 else none) : Py _)) = _
      rw [e3]
      rfl
    · intro _ _ t ht
      rw [htt] at ht
      cases ht
    · intro n hn
      split at hn
      · cases hn
        exact ⟨hnew, hn2⟩
      · cases hn
  | some t =>
    simp only [htt]
    unfold Cfg.toInst
    have ho : ∀ (c' : Cfg) (n : Nat), (∀ n ∈ c.nodes, n ∈ c'.nodes) → (if (prog[i]?.getD {}).link then some branch else none) = some n →
        n ∈ c'.nodes ∧ n ≠ 2 := by
      intro c' n hk hn
      split at hn
      · cases hn
        exact ⟨hk _ hb, hb2⟩
      · cases hn
    cases hw : c.nodeWith t with
    | none =>
      simp only
      refine ⟨c.addPending i branch, order, if (prog[i]?.getD {}).link then some branch else none, rfl, ?_,
        ⟨fun n hn => hn, fun o x h => ⟨o, h⟩, fun a b L => L⟩, ?_, fun n hn => ho _ n (fun n hn => hn) hn⟩
      · refine (I.setPending _).treat ?_
        intro _ _ t' ht' htd _
        rw [htt] at ht'
        cases ht'
        exact absurd htd (nodeWith_none I hw)
      · intro k hk
        unfold Cfg.addPending
        show dictGet (dictSet c.pending i _) k = none
        rw [dictGet_dictSet, if_neg]
        · exact hp k hk
        · rintro rfl; exact hk hi
    | some n =>
      simp only
      obtain ⟨hn, htn⟩ := nodeWith_some hw
      have hnk := I.mem_block hn htn
      rw [if_neg (by rw [hnk]; decide)]
      obtain ⟨c', order', e1, I1, k1, k2⟩ := splitNode_ok I hn hb hb2 hbi hout htn htt
      refine ⟨c', order', if (prog[i]?.getD {}).link then some branch else none, ?_, I1, k1, by rw [k2]; exact hp, fun n hn => ho _ n k1.nodes hn⟩
      rw [e1]
      rfl

/-! ### The loop -/

/-- What `last_cond_field` is after some instructions. -/
def lastCondOf (prog : List CfgInst) (done : List Nat) : Option Nat :=
  done.foldl (fun lc i =>
    if lc = some (prog[i]?.getD {}).cond ∧ (prog[i]?.getD {}).branch = true then none else some (prog[i]?.getD {}).cond) none

theorem lastCondOf_snoc (prog : List CfgInst) (done : List Nat) (i : Nat) : lastCondOf prog (done ++ [i]) =
    if lastCondOf prog done = some (prog[i]?.getD {}).cond ∧ (prog[i]?.getD {}).branch = true then none
    else some (prog[i]?.getD {}).cond := by
  unfold lastCondOf
  rw [List.foldl_append]
  rfl

/-- The invariant of the loop. -/
structure CInv (prog : List CfgInst) (P : Nat → Prop) (done order : List Nat) (s : CfgSt) : Prop where
  g : GInv prog P done order done s.cfg
  cb : s.cb ∈ s.cfg.nodes ∧ s.cb ≠ 2
  last : s.lastCond ≠ none → ∃ o, order = o ++ [s.cb]
  lc : s.lastCond = lastCondOf prog done
  ln : ∀ l, s.lastNode = some l → l ∈ s.cfg.nodes ∧ l ≠ 2
  pend : ∀ k, k ∉ done → dictGet s.cfg.pending k = none
  fall : ∀ pre i j post, done = pre ++ i :: j :: post → (prog[i]?.getD {}).branch = false → CfgLinked s.cfg i j

theorem fromPending_none {c : Cfg} {n i : Nat} (h : dictGet c.pending i = none) : c.fromPending n i = .ok c := by
  unfold Cfg.fromPending
  rw [h]

/-- An edge from the current block to a new node. -/
theorem fallThrough_ok {prog P done order jd} {c : Cfg} (I : GInv prog P done order jd c) {cb n : Nat}
    (hcb : cb ∈ c.nodes ∧ cb ≠ 2) (hn : n ∈ c.nodes ∧ n ≠ 1) (hnew : (cb, n) ∉ c.edges) :
    ∃ es, c.fallThrough prog cb n = .ok { c with edges := es } ∧ GInv prog P done order jd { c with edges := es } ∧
      (∀ a b, (a, b) ∈ es → (a, b) ∈ c.edges ∨ a = cb) ∧ (∀ e ∈ c.edges, e ∈ es) ∧
      (c.lastIsBranch prog cb = false → (cb, n) ∈ es) := by
  unfold Cfg.fallThrough
  split
  · rename_i h
    exact ⟨c.edges, rfl, I, fun a b h => Or.inl h, fun e he => he, fun h' => by rw [h] at h'; cases h'⟩
  · obtain ⟨e, J⟩ := I.edge hcb.1 hn.1 hcb.2 hn.2 hnew
    refine ⟨_, e, J, fun a b h => ?_, fun e he => List.mem_append_left _ he, fun _ => by simp⟩
    rw [List.mem_append, List.mem_singleton, Prod.mk.injEq] at h
    exact h.imp id And.left

theorem fromCond_ok {prog P done order jd} {c : Cfg} (I : GInv prog P done order jd c) {last : Option Nat} {n : Nat}
    (hl : ∀ l, last = some l → l ∈ c.nodes ∧ l ≠ 2) (hn : n ∈ c.nodes ∧ n ≠ 1) :
    ∃ es, c.fromCond last n = .ok { c with edges := es } ∧ GInv prog P done order jd { c with edges := es } ∧
      (∀ a b, (a, b) ∈ es → (a, b) ∈ c.edges ∨ last = some a) ∧ ∀ e ∈ c.edges, e ∈ es := by
  unfold Cfg.fromCond
  cases last with
  | none => exact ⟨c.edges, rfl, I, fun a b h => Or.inl h, fun e he => he⟩
  | some l =>
    have hl := hl l rfl
    simp only [Cfg.needEdge]
    split
    · exact ⟨c.edges, rfl, I, fun a b h => Or.inl h, fun e he => he⟩
    · rename_i h
      obtain ⟨e, J⟩ := I.edge hl.1 hn.1 hl.2 hn.2 h
      refine ⟨_, e, J, fun a b h => ?_, fun e he => List.mem_append_left _ he⟩
      rw [List.mem_append, List.mem_singleton, Prod.mk.injEq] at h
      exact h.imp id fun h => by rw [h.1]

theorem branchConditional_ok {prog P done order} {c : Cfg} (I : GInv prog P done order done c) {i cb : Nat} {last : Option Nat}
    (hcb : cb ∈ c.nodes ∧ cb ≠ 2) (hl : ∀ l, last = some l → l ∈ c.nodes ∧ l ≠ 2) (hlt : ∀ j ∈ done, j < i)
    (hp : dictGet c.pending i = none) :
    ∃ c' b o, c.branchConditional prog i cb last = .ok (c', b, o) ∧ GInv prog P (done ++ [i]) (order ++ [b]) done c' ∧
      b ∈ c'.nodes ∧ b ≠ 2 ∧ c'.insts b = [i] ∧ (∀ v, (b, v) ∉ c'.edges) ∧ c'.pending = c.pending ∧
      (∀ l, o = some l → l ∈ c'.nodes ∧ l ≠ 2) ∧ (∀ a d, CfgLinked c a d → CfgLinked c' a d) ∧
      ∀ a, (c.insts cb).getLast? = some a → (prog[a]?.getD {}).branch = false → CfgLinked c' a i := by
  have I1 := I.instr hlt (fun j hj => hj)
  have hb1 : c.lastIdx + 1 ∈ (c.withBlock .block [i]).nodes := by
    show _ ∈ c.nodes ++ [c.lastIdx + 1]
    simp
  have hk1 : ∀ n ∈ c.nodes, n ∈ (c.withBlock .block [i]).nodes := fun n hn => by
    show _ ∈ c.nodes ++ [c.lastIdx + 1]
    simp [hn]
  have hne1 : c.lastIdx + 1 ≠ 1 := (I.ne_new I.one.1).symm
  have hne2 : c.lastIdx + 1 ≠ 2 := (I.ne_new I.two.1).symm
  have hbi : (c.withBlock .block [i]).insts (c.lastIdx + 1) = [i] := setAt_same _ _ _
  have hbo : ∀ v, (c.lastIdx + 1, v) ∉ (c.withBlock .block [i]).edges := fun v h => I.fresh (I.ends _ _ h).1
  have hbin : ∀ v, (v, c.lastIdx + 1) ∉ (c.withBlock .block [i]).edges := fun v h => I.fresh (I.ends _ _ h).2
  have hlb : ∀ l, last = some l → l ≠ c.lastIdx + 1 := fun l h => I.ne_new (hl l h).1
  have hcbb := I.ne_new hcb.1
  have hL1 : ∀ a d, CfgLinked c a d → CfgLinked (c.withBlock .block [i]) a d := fun a d L => L.withBlock I
  have hcbi : (c.withBlock .block [i]).insts cb = c.insts cb := setAt_ne _ _ hcbb
  have hnb : ∀ (d : Cfg), d.insts cb = c.insts cb → ∀ a, (c.insts cb).getLast? = some a → (prog[a]?.getD {}).branch = false →
      d.lastIsBranch prog cb = false := by
    intro d hd a ha hb
    unfold Cfg.lastIsBranch
    rw [hd, ha]
    show ((prog[a]?).map (·.branch)).getD false = false
    cases hg : prog[a]? with
    | none => rfl
    | some x =>
      rw [hg] at hb
      exact hb
  unfold Cfg.branchConditional
  rw [addBlock_ok I (by simp)]
  generalize hc1 : c.withBlock .block [i] = c1 at *
  generalize hbn : c.lastIdx + 1 = b at *
  have hpc : c1.pending = c.pending := by rw [← hc1]; rfl
  by_cases hcond : (prog[i]?.map (·.cond)).getD 0 ≠ condAlways
  · have I2 := I1.special (kind := .cond) (Or.inl rfl)
    have hn2 : c1.lastIdx + 1 ∈ (c1.withBlock .cond []).nodes := by
      show _ ∈ c1.nodes ++ [c1.lastIdx + 1]
      simp
    have hk2 : ∀ n ∈ c1.nodes, n ∈ (c1.withBlock .cond []).nodes := fun n hn => by
      show _ ∈ c1.nodes ++ [c1.lastIdx + 1]
      simp [hn]
    have hm1 : c1.lastIdx + 1 ≠ 1 := (I1.ne_new I1.one.1).symm
    have hm2 : c1.lastIdx + 1 ≠ 2 := (I1.ne_new I1.two.1).symm
    have hnb' : b ≠ c1.lastIdx + 1 := I1.ne_new hb1
    have hL2 : ∀ a d, CfgLinked c1 a d → CfgLinked (c1.withBlock .cond []) a d := fun a d L => L.withBlock I1
    have hcbi2 : (c1.withBlock .cond []).insts cb = c.insts cb := (setAt_ne _ _ (I1.ne_new (hk1 _ hcb.1))).trans hcbi
    have hkn : (c1.withBlock .cond []).kind (c1.lastIdx + 1) = .cond := setAt_same _ _ _
    have hin2 : ∀ v, (v, c1.lastIdx + 1) ∉ (c1.withBlock .cond []).edges := fun v h => I1.fresh (I1.ends _ _ h).2
    have hbi2 : (c1.withBlock .cond []).insts b = [i] := (setAt_ne _ _ hnb').trans hbi
    have hbo2 : ∀ v, (b, v) ∉ (c1.withBlock .cond []).edges := hbo
    have hpc2 : (c1.withBlock .cond []).pending = c.pending := hpc
    have hadd : c1.addBlock .cond [] = .ok (c1.lastIdx + 1, c1.withBlock .cond []) := addBlock_ok I1 (by intro h; cases h)
    have hbin2 : (c1.lastIdx + 1, b) ∉ (c1.withBlock .cond []).edges := hbin _
    generalize hc2 : c1.withBlock .cond [] = c2 at *
    generalize hnn : c1.lastIdx + 1 = n at *
    obtain ⟨e3, I3⟩ := I2.edge hn2 (hk2 b hb1) hm2 hne1 hbin2
    obtain ⟨es4, e4, I4, k4, s4, f4⟩ := fallThrough_ok (cb := cb) (n := n) I3 ⟨hk2 _ (hk1 _ hcb.1), hcb.2⟩ ⟨hn2, hm1⟩ (by
      intro h
      rw [List.mem_append, List.mem_singleton, Prod.mk.injEq] at h
      rcases h with h | h
      · exact hin2 _ h
      · exact hnb' h.2.symm)
    obtain ⟨es5, e5, I5, k5, s5⟩ := fromCond_ok (last := last) (n := n) I4 (fun l h => ⟨hk2 _ (hk1 _ (hl l h).1), (hl l h).2⟩) ⟨hn2, hm1⟩
    refine ⟨_, b, some n, ?_, I5, hk2 _ hb1, hne2, hbi2, ?_, hpc2, ?_, ?_, ?_⟩
    · show (if (prog[i]?.map (·.cond)).getD 0 ≠ condAlways then _ else _) = _
      rw [if_pos hcond, hadd]
      show (c2.addEdge n b >>= _) = _
      rw [e3]
      show (Cfg.fallThrough prog _ cb n >>= _) = _
      rw [e4]
      show (Cfg.fromCond _ last n >>= _) = _
      rw [e5]
      show (Cfg.fromPending _ n i >>= _) = _
      rw [fromPending_none (by show dictGet c2.pending i = none; rw [hpc2]; exact hp)]
      rfl
    · intro v h
      rcases k5 b v h with h | h
      · rcases k4 b v h with h | h
        · have h : (b, v) ∈ c2.edges ++ [(n, b)] := h
          rw [List.mem_append, List.mem_singleton, Prod.mk.injEq] at h
          rcases h with h | h
          · exact hbo2 v h
          · exact hnb' h.1
        · exact hcbb h.symm
      · exact hlb b h rfl
    · intro l h
      cases h
      exact ⟨hn2, hm2⟩
    · intro a d L
      exact CfgLinked.edges I2 (fun e he => s5 e (s4 e (List.mem_append_left _ he))) (hL2 a d (hL1 a d L))
    · intro a ha hb
      exact Or.inr ⟨cb, hk2 _ (hk1 _ hcb.1), b, hk2 _ hb1, by show (c2.insts cb).getLast? = _; rw [hcbi2, ha],
        by show (c2.insts b).head? = _; rw [hbi2]; rfl,
        Or.inr ⟨n, hkn, s5 _ (f4 (hnb _ hcbi2 a ha hb)), s5 _ (s4 _ (by show (n, b) ∈ c2.edges ++ [(n, b)]; simp))⟩⟩
  · obtain ⟨es4, e4, I4, k4, s4, f4⟩ := fallThrough_ok (cb := cb) (n := b) I1 ⟨hk1 _ hcb.1, hcb.2⟩ ⟨hb1, hne1⟩ (hbin cb)
    obtain ⟨es5, e5, I5, k5, s5⟩ := fromCond_ok (last := last) (n := b) I4 (fun l h => ⟨hk1 _ (hl l h).1, (hl l h).2⟩) ⟨hb1, hne1⟩
    refine ⟨_, b, none, ?_, I5, hb1, hne2, hbi, ?_, hpc, fun l h => (by cases h),
      fun a d L => CfgLinked.edges I1 (fun e he => s5 e (s4 e he)) (hL1 a d L), fun a ha hb =>
        Or.inr ⟨cb, hk1 _ hcb.1, b, hb1, by show (c1.insts cb).getLast? = _; rw [hcbi, ha], by show (c1.insts b).head? = _; rw [hbi]; rfl,
          Or.inl (s5 _ (f4 (hnb _ hcbi a ha hb)))⟩⟩
    · show (if (prog[i]?.map (·.cond)).getD 0 ≠ condAlways then _ else _) = _
      rw [if_neg hcond]
      show (Cfg.fallThrough prog c1 cb b >>= _) = _
      rw [e4]
      show (Cfg.fromCond _ last b >>= _) = _
      rw [e5]
      rfl
    · intro v h
      rcases k5 b v h with h | h
      · rcases k4 b v h with h | h
        · exact hbo v h
        · exact hcbb h.symm
      · exact hlb b h rfl

end Verif
