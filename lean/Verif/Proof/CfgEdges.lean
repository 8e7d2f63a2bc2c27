import Verif.Proof.CfgBuild
import Verif.Spec.CfgEdges

/-! # What the edges of the control flow graph stand for -/

namespace Verif

open Spec

/-- The line of a program. -/
def lineOf (prog : List CfgInst) (D : List Nat) : Line where
  line := D
  cond := fun i => (prog[i]?.getD {}).cond
  branch := fun i => (prog[i]?.getD {}).branch
  link := fun i => (prog[i]?.getD {}).link
  target := fun i => (prog[i]?.getD {}).target

theorem opens_iff (prog : List CfgInst) (D d : List Nat) (k : Nat) :
    (lineOf prog D).opens d k = true ↔ lastCondOf prog d ≠ some (prog[k]?.getD {}).cond := by
  induction d using List.reverseRecOn generalizing k with
  | nil => simp [Line.opens, Opens, lastCondOf]
  | append_singleton d j ih =>
    rw [lastCondOf_snoc]
    unfold Line.opens at ih ⊢
    rw [List.reverse_append, List.reverse_singleton]
    show ((lineOf prog D).cond j != (lineOf prog D).cond k || ((lineOf prog D).branch j && !Opens _ _ d.reverse j)) = true ↔ _
    have ihj := ih j
    have e1 : (lineOf prog D).cond j = (prog[j]?.getD {}).cond := rfl
    have e2 : (lineOf prog D).cond k = (prog[k]?.getD {}).cond := rfl
    have e3 : (lineOf prog D).branch j = (prog[j]?.getD {}).branch := rfl
    rw [e1, e2, e3]
    by_cases h : lastCondOf prog d = some (prog[j]?.getD {}).cond
    · have ho : Opens (lineOf prog D).cond (lineOf prog D).branch d.reverse j = false := by
        cases hx : Opens (lineOf prog D).cond (lineOf prog D).branch d.reverse j with
        | false => rfl
        | true => exact absurd h (ihj.1 hx)
      rw [ho]
      cases hb : (prog[j]?.getD {}).branch <;> simp [h]
    · have ho : Opens (lineOf prog D).cond (lineOf prog D).branch d.reverse j = true := ihj.2 h
      rw [ho]
      simp [h]

theorem opens_false_iff (prog : List CfgInst) (D d : List Nat) (k : Nat) :
    (lineOf prog D).opens d k = false ↔ lastCondOf prog d = some (prog[k]?.getD {}).cond := by
  have := opens_iff prog D d k
  cases h : (lineOf prog D).opens d k with
  | false => rw [h] at this; simpa using this
  | true => rw [h] at this; simpa using this

section congr
variable {L : Line} {kind kind' : Nat → BlockKind} {insts insts' : Nat → List Nat} {first first' : Nat → Nat} {u v : Nat}

theorem enters_congr (hk : kind' v = kind v) (hi : (insts' v).head? = (insts v).head?) (hf : first' v = first v) {k : Nat}
    (h : Enters kind insts first v k) : Enters kind' insts' first' v k := by
  unfold Enters at *
  rw [hk, hi, hf]
  exact h

theorem edgeMeans_congr (hku : kind' u = kind u) (hkv : kind' v = kind v) (hl : (insts' u).getLast? = (insts u).getLast?)
    (hh : (insts' v).head? = (insts v).head?) (hfu : first' u = first u) (hfv : first' v = first v)
    (h : EdgeMeans L kind insts first u v) : EdgeMeans L kind' insts' first' u v := by
  cases h with
  | start a b c => exact .start (hku.trans a) b (enters_congr hkv hh hfv c)
  | empty a b c => exact .empty (hku.trans a) (hkv.trans b) c
  | leave a b c d e f =>
    exact .leave (hku.trans a) (hkv.trans b) (by rw [hfv]; exact c) (by rw [hfv]; exact d) (hl.trans e) (by rw [hfv]; exact f)
  | away a b => exact .away (hku.trans a) (hkv.trans b)
  | back a b c d => exact .back (hku.trans a) (by rw [hfu]; exact b) (by rw [hfu]; exact c) (enters_congr hkv hh hfv d)
  | holds a b => exact .holds (hku.trans a) (by rw [hfu]; exact enters_congr hkv hh hfv b)
  | fails a b c => exact .fails (hku.trans a) (by rw [hfu]; exact b) (enters_congr hkv hh hfv c)
  | next a b c d e => exact .next (hku.trans a) (hl.trans b) c d (enters_congr hkv hh hfv e)
  | over a b c d e f g h => exact .over (hku.trans a) (hl.trans b) c d e f g (enters_congr hkv hh hfv h)
  | jump a b c d e f g h => exact .jump (hku.trans a) (hl.trans b) c d e f (hkv.trans g) (hh.trans h)
  | stop a b c d => exact .stop (hku.trans a) (hkv.trans b) (hl.trans c) d
  | stopOver a b c d e f g => exact .stopOver (hku.trans a) (hkv.trans b) (hl.trans c) d e f g

/-- The edges into a block may be led to another block with the same start. -/
theorem edgeMeans_redirect {w : Nat} (hku : kind' u = kind u) (hkv : kind v = .block) (hkw : kind' w = .block)
    (hl : (insts' u).getLast? = (insts u).getLast?) (hh : (insts' w).head? = (insts v).head?) (hfu : first' u = first u)
    (h : EdgeMeans L kind insts first u v) : EdgeMeans L kind' insts' first' u w := by
  have key : ∀ k, Enters kind insts first v k → Enters kind' insts' first' w k := by
    rintro k (h | h)
    · exact Or.inl ⟨hkw, hh.trans h.2⟩
    · rw [hkv] at h; cases h.1
  cases h with
  | start a b c => exact .start (hku.trans a) b (key _ c)
  | empty a b c => rw [hkv] at b; cases b
  | leave a b c d e f => rw [hkv] at b; cases b
  | away a b => rw [hkv] at b; cases b
  | back a b c d => exact .back (hku.trans a) (by rw [hfu]; exact b) (by rw [hfu]; exact c) (key _ d)
  | holds a b => exact .holds (hku.trans a) (by rw [hfu]; exact key _ b)
  | fails a b c => exact .fails (hku.trans a) (by rw [hfu]; exact b) (key _ c)
  | next a b c d e => exact .next (hku.trans a) (hl.trans b) c d (key _ e)
  | over a b c d e f g h => exact .over (hku.trans a) (hl.trans b) c d e f g (key _ h)
  | jump a b c d e f g h => exact .jump (hku.trans a) (hl.trans b) c d e f hkw (hh.trans h)
  | stop a b c d => rw [hkv] at b; cases b
  | stopOver a b c d e f g => rw [hkv] at b; cases b

end congr

/-- The invariant of the graph.  `ex` are conditional nodes that are not linked yet. -/
structure EInv (prog : List CfgInst) (D done : List Nat) (first : Nat → Nat) (ex : List Nat) (c : Cfg) : Prop where
  bound : ∀ n ∈ c.nodes, n ≤ c.lastIdx
  ends : ∀ u v, (u, v) ∈ c.edges → u ∈ c.nodes ∧ v ∈ c.nodes
  nodup : c.edges.Nodup
  two : 2 ∈ c.nodes ∧ c.kind 2 = .fin
  sub : ∀ n ∈ c.nodes, ∀ x ∈ c.insts n, x ∈ done
  hollow : ∀ n ∈ c.nodes, c.kind n ≠ .block → c.insts n = []
  contig : ∀ n ∈ c.nodes, ∃ d r, D = d ++ (c.insts n ++ r)
  inner : ∀ n ∈ c.nodes, ∀ x ∈ (c.insts n).tail, ¬ ∃ d r, D = d ++ x :: r ∧ (lineOf prog D).opens d x = true
  fst : ∀ n ∈ c.nodes, c.kind n = .cond ∨ c.kind n = .unknown → first n ∈ done
  pend : ∀ k, k ∉ done → dictGet c.pending k = none
  edge : ∀ u v, (u, v) ∈ c.edges → EdgeMeans (lineOf prog D) c.kind c.insts first u v
  guard : ∀ n ∈ c.nodes, c.kind n = .cond → (prog[first n]?.getD {}).cond ≠ condAlways ∧
    ∃ d r, D = d ++ first n :: r ∧ (lineOf prog D).opens d (first n) = true
  linked : ∀ n ∈ c.nodes, n ∉ ex → c.kind n = .cond →
    ∃ b ∈ c.nodes, c.kind b = .block ∧ (c.insts b).head? = some (first n) ∧ (n, b) ∈ c.edges

section inv
variable {prog : List CfgInst} {D done : List Nat} {first : Nat → Nat} {ex : List Nat} {c : Cfg}

theorem EInv.fresh (I : EInv prog D done first ex c) : c.lastIdx + 1 ∉ c.nodes := by
  intro h
  have := I.bound _ h
  omega

theorem EInv.ne_new (I : EInv prog D done first ex c) {n : Nat} (hn : n ∈ c.nodes) : n ≠ c.lastIdx + 1 := by
  rintro rfl
  exact I.fresh hn

theorem EInv.addBlock (I : EInv prog D done first ex c) {kind : BlockKind} {insts : List Nat} {r : Nat × Cfg}
    (h : c.addBlock kind insts = .ok r) : r = (c.lastIdx + 1, c.withBlock kind insts) := by
  unfold Cfg.addBlock at h
  split at h
  · cases h
  · have := Except.ok.inj h
    rw [← this]
    simp only [I.fresh, if_false, Cfg.withBlock]

theorem EInv.exMono (I : EInv prog D done first ex c) {ex' : List Nat} (h : ∀ n ∈ ex, n ∈ ex') : EInv prog D done first ex' c :=
  ⟨I.bound, I.ends, I.nodup, I.two, I.sub, I.hollow, I.contig, I.inner, I.fst, I.pend, I.edge, I.guard, fun n hn he => I.linked n hn fun h' => he (h n h')⟩

/-- A new node. -/
theorem EInv.withBlock (I : EInv prog D done first ex c) {kind : BlockKind} {insts done' : List Nat} {f : Nat}
    (hd : ∀ x ∈ done, x ∈ done') (hi : ∀ x ∈ insts, x ∈ done') (ht : insts.tail = []) (hk : kind ≠ .block → insts = [])
    (hc : ∃ d r, D = d ++ (insts ++ r)) (hf : kind = .cond ∨ kind = .unknown → f ∈ done')
    (hg : kind = .cond → (prog[f]?.getD {}).cond ≠ condAlways ∧ ∃ d r, D = d ++ f :: r ∧ (lineOf prog D).opens d f = true) :
    EInv prog D done' (setAt first (c.lastIdx + 1) f) ((c.lastIdx + 1) :: ex) (c.withBlock kind insts) := by
  have hin : ∀ n, n ∈ (c.withBlock kind insts).nodes ↔ n ∈ c.nodes ∨ n = c.lastIdx + 1 := fun n => by
    show n ∈ c.nodes ++ [c.lastIdx + 1] ↔ _
    rw [List.mem_append, List.mem_singleton]
  have hkind : ∀ n ∈ c.nodes, (c.withBlock kind insts).kind n = c.kind n := fun n hn => setAt_ne _ _ (I.ne_new hn)
  have hinst : ∀ n ∈ c.nodes, (c.withBlock kind insts).insts n = c.insts n := fun n hn => setAt_ne _ _ (I.ne_new hn)
  have hfst : ∀ n ∈ c.nodes, setAt first (c.lastIdx + 1) f n = first n := fun n hn => setAt_ne _ _ (I.ne_new hn)
  have hnk : (c.withBlock kind insts).kind (c.lastIdx + 1) = kind := setAt_same _ _ _
  have hni : (c.withBlock kind insts).insts (c.lastIdx + 1) = insts := setAt_same _ _ _
  have hnf : setAt first (c.lastIdx + 1) f (c.lastIdx + 1) = f := setAt_same _ _ _
  refine ⟨?_, ?_, I.nodup, ?_, ?_, ?_, ?_, ?_, ?_, ?_, ?_, ?_, ?_⟩
  · intro n hn
    rcases (hin n).1 hn with h | rfl
    · exact Nat.le_succ_of_le (I.bound n h)
    · exact Nat.le_refl _
  · intro u v huv
    have := I.ends u v huv
    exact ⟨(hin u).2 (Or.inl this.1), (hin v).2 (Or.inl this.2)⟩
  · exact ⟨(hin 2).2 (Or.inl I.two.1), by rw [hkind 2 I.two.1]; exact I.two.2⟩
  · intro n hn x hx
    rcases (hin n).1 hn with h | rfl
    · rw [hinst n h] at hx; exact hd x (I.sub n h x hx)
    · rw [hni] at hx; exact hi x hx
  · intro n hn hb
    rcases (hin n).1 hn with h | rfl
    · rw [hinst n h]; rw [hkind n h] at hb; exact I.hollow n h hb
    · rw [hni]; rw [hnk] at hb; exact hk hb
  · intro n hn
    rcases (hin n).1 hn with h | rfl
    · rw [hinst n h]; exact I.contig n h
    · rw [hni]; exact hc
  · intro n hn x hx
    rcases (hin n).1 hn with h | rfl
    · rw [hinst n h] at hx; exact I.inner n h x hx
    · rw [hni, ht] at hx; cases hx
  · intro n hn hb
    rcases (hin n).1 hn with h | rfl
    · rw [hfst n h]; rw [hkind n h] at hb; exact hd _ (I.fst n h hb)
    · rw [hnf]; rw [hnk] at hb; exact hf hb
  · intro k hk'
    exact I.pend k fun h => hk' (hd k h)
  · intro u v huv
    obtain ⟨hu, hv⟩ := I.ends u v huv
    exact edgeMeans_congr (hkind u hu) (hkind v hv) (by rw [hinst u hu]) (by rw [hinst v hv]) (hfst u hu) (hfst v hv)
      (I.edge u v huv)
  · intro n hn hb
    rcases (hin n).1 hn with h | rfl
    · rw [hfst n h]; rw [hkind n h] at hb; exact I.guard n h hb
    · rw [hnf]; rw [hnk] at hb; exact hg hb
  · intro n hn he hb
    rcases (hin n).1 hn with h | rfl
    · rw [hkind n h] at hb
      obtain ⟨b, h1, h2, h3, h4⟩ := I.linked n h (fun h' => he (by simp [h'])) hb
      exact ⟨b, (hin b).2 (Or.inl h1), by rw [hkind b h1]; exact h2, by rw [hinst b h1, hfst n h]; exact h3, h4⟩
    · exact absurd (by simp) he

/-- A new edge. -/
theorem EInv.addEdge (I : EInv prog D done first ex c) {u v : Nat} {c' : Cfg} (h : c.addEdge u v = .ok c')
    (hm : EdgeMeans (lineOf prog D) c.kind c.insts first u v) :
    c' = { c with edges := c.edges ++ [(u, v)] } ∧ EInv prog D done first ex c' := by
  unfold Cfg.addEdge at h
  split at h
  · rename_i hc
    have := Except.ok.inj h
    subst this
    refine ⟨rfl, ⟨I.bound, ?_, ?_, I.two, I.sub, I.hollow, I.contig, I.inner, I.fst, I.pend, ?_, I.guard, ?_⟩⟩
    · intro a b hab
      have hab : (a, b) ∈ c.edges ++ [(u, v)] := hab
      rw [List.mem_append, List.mem_singleton, Prod.mk.injEq] at hab
      rcases hab with hab | ⟨rfl, rfl⟩
      · exact I.ends a b hab
      · exact ⟨hc.1, hc.2.1⟩
    · show (c.edges ++ [(u, v)]).Nodup
      rw [List.nodup_append]
      exact ⟨I.nodup, by simp, fun a ha b hb => by
        rw [List.mem_singleton] at hb; rw [hb]; rintro rfl; exact hc.2.2 ha⟩
    · intro a b hab
      have hab : (a, b) ∈ c.edges ++ [(u, v)] := hab
      rw [List.mem_append, List.mem_singleton, Prod.mk.injEq] at hab
      rcases hab with hab | ⟨rfl, rfl⟩
      · exact I.edge a b hab
      · exact hm
    · intro n hn he hk
      obtain ⟨b, h1, h2, h3, h4⟩ := I.linked n hn he hk
      exact ⟨b, h1, h2, h3, List.mem_append_left _ h4⟩
  · cases h

theorem EInv.needEdge (I : EInv prog D done first ex c) {u v : Nat} {c' : Cfg} (h : c.needEdge u v = .ok c')
    (hm : EdgeMeans (lineOf prog D) c.kind c.insts first u v) :
    (∃ es, c' = { c with edges := es } ∧ ∀ e ∈ c.edges, e ∈ es) ∧ EInv prog D done first ex c' := by
  unfold Cfg.needEdge at h
  split at h
  · have := Except.ok.inj h
    subst this
    exact ⟨⟨c.edges, rfl, fun e he => he⟩, I⟩
  · obtain ⟨h1, h2⟩ := I.addEdge h hm
    exact ⟨⟨_, h1, fun e he => List.mem_append_left _ he⟩, h2⟩

theorem two_at {l : List Nat} {k : Nat} (h : k + 1 < l.length) : ∃ p x y q, l = p ++ x :: y :: q ∧ p.length = k := by
  refine ⟨l.take k, l[k], l[k + 1], l.drop (k + 2), ?_, by rw [List.length_take]; omega⟩
  rw [← List.drop_eq_getElem_cons h, ← List.drop_eq_getElem_cons (by omega), List.take_append_drop]

/-- The instruction after one of a block is the next one. -/
theorem contig_next {l d r p q : List Nat} {a b : Nat} (h : D = d ++ (l ++ r)) (hl : l = p ++ a :: b :: q) :
    D = (d ++ p) ++ a :: b :: (q ++ r) := by
  rw [h, hl]
  simp

theorem move_inv {split up : Nat} (hne : up ≠ split) : ∀ (l : List Nat) (c c' : Cfg), c.edges.Nodup →
    l.foldlM (Cfg.moveEdge split up) c = .ok c' →
    ∃ es, c' = { c with edges := es } ∧ es.Nodup ∧ (∀ i ∈ l, up ∈ c.nodes ∧ i ∈ c.nodes) ∧
      ∀ a b, (a, b) ∈ es ↔ ((a, b) ∈ c.edges ∧ ¬ (b = split ∧ a ∈ l)) ∨ (b = up ∧ a ∈ l) := by
  intro l
  induction l with
  | nil =>
    intro c c' hn h
    cases h
    exact ⟨c.edges, rfl, hn, by simp, fun a b => by simp⟩
  | cons i l ih =>
    intro c c' hn h
    rw [List.foldlM_cons] at h
    unfold Cfg.moveEdge Cfg.delEdge at h
    split at h
    · rename_i hin
      have h : ((Cfg.addEdge { c with edges := c.edges.erase (i, split) } i up) >>= fun d =>
        l.foldlM (Cfg.moveEdge split up) d) = .ok c' := h
      unfold Cfg.addEdge at h
      split at h
      · rename_i hadd
        obtain ⟨g1, g2, g3⟩ := hadd
        have h : l.foldlM (Cfg.moveEdge split up) { c with edges := c.edges.erase (i, split) ++ [(i, up)] } = .ok c' := h
        have hm : ∀ a b, (a, b) ∈ c.edges.erase (i, split) ++ [(i, up)] ↔ ((a, b) ∈ c.edges ∧ ¬ (a = i ∧ b = split)) ∨ (a = i ∧ b = up) := by
          intro a b
          rw [List.mem_append, List.mem_singleton, hn.mem_erase_iff, Prod.mk.injEq, ne_eq, Prod.mk.injEq]
          tauto
        have hn1 : (c.edges.erase (i, split) ++ [(i, up)]).Nodup := by
          rw [List.nodup_append]
          exact ⟨hn.erase _, by simp, fun a ha b hb => by
            rw [List.mem_singleton] at hb; rw [hb]; rintro rfl; exact g3 ha⟩
        obtain ⟨es, e1, e2, e4, e3⟩ := ih _ _ hn1 h
        refine ⟨es, e1, e2, ?_, fun a b => ?_⟩
        · intro j hj
          rcases List.mem_cons.1 hj with rfl | hj
          · exact ⟨g2, g1⟩
          · exact e4 j hj
        · rw [e3]
          show ((a, b) ∈ c.edges.erase (i, split) ++ [(i, up)] ∧ _) ∨ _ ↔ _
          rw [hm, List.mem_cons]
          constructor
          · rintro (⟨⟨h1, h2⟩ | ⟨rfl, rfl⟩, h3⟩ | ⟨rfl, h9⟩)
            · refine Or.inl ⟨h1, ?_⟩
              rintro ⟨rfl, rfl | h9⟩
              · exact h2 ⟨rfl, rfl⟩
              · exact h3 ⟨rfl, h9⟩
            · exact Or.inr ⟨rfl, Or.inl rfl⟩
            · exact Or.inr ⟨rfl, Or.inr h9⟩
          · rintro (⟨h1, h2⟩ | ⟨rfl, rfl | h9⟩)
            · refine Or.inl ⟨Or.inl ⟨h1, ?_⟩, ?_⟩
              · rintro ⟨rfl, rfl⟩; exact h2 ⟨rfl, Or.inl rfl⟩
              · rintro ⟨rfl, h9⟩; exact h2 ⟨rfl, Or.inr h9⟩
            · refine Or.inl ⟨Or.inr ⟨rfl, rfl⟩, ?_⟩
              rintro ⟨h9, _⟩; exact hne h9
            · exact Or.inr ⟨rfl, h9⟩
      · cases h
    · cases h

/-- What splitting and other steps keep of the nodes that are there. -/
structure EKeeps (c c' : Cfg) : Prop where
  nodes : ∀ n ∈ c.nodes, n ∈ c'.nodes ∧ c'.kind n = c.kind n ∧ (c'.insts n).getLast? = (c.insts n).getLast?

theorem EKeeps.refl (c : Cfg) : EKeeps c c := ⟨fun _ hn => ⟨hn, rfl, rfl⟩⟩

theorem EKeeps.trans {a b d : Cfg} (h1 : EKeeps a b) (h2 : EKeeps b d) : EKeeps a d :=
  ⟨fun n hn => by
    obtain ⟨g1, g2, g3⟩ := h1.nodes n hn
    obtain ⟨k1, k2, k3⟩ := h2.nodes n g1
    exact ⟨k1, k2.trans g2, k3.trans g3⟩⟩

theorem EInv.splitUp (I : EInv prog D done first ex c) {split index : Nat} {c' : Cfg} (hs : split ∈ c.nodes)
    (hsk : c.kind split = .block) (hi : 0 < index) (hlt : index < (c.insts split).length)
    (h : c.splitUp split index = .ok c') :
    EInv prog D done first ex c' ∧ EKeeps c c' ∧ c'.insts split = (c.insts split).drop index := by
  have hsn := I.ne_new hs
  unfold Cfg.splitUp at h
  cases hadd : c.addBlock .block ((c.insts split).take index) with
  | error e => rw [hadd] at h; cases h
  | ok r =>
    rw [hadd] at h
    have hr := I.addBlock hadd
    subst hr
    have hgi : (c.withBlock .block ((c.insts split).take index)).insts split = c.insts split := setAt_ne _ _ hsn
    have h : ((Cfg.incidents { c.withBlock .block ((c.insts split).take index) with
        insts := setAt (c.withBlock .block ((c.insts split).take index)).insts split
          (((c.withBlock .block ((c.insts split).take index)).insts split).drop index) } split).foldlM
          (Cfg.moveEdge split (c.lastIdx + 1)) { c.withBlock .block ((c.insts split).take index) with
        insts := setAt (c.withBlock .block ((c.insts split).take index)).insts split
          (((c.withBlock .block ((c.insts split).take index)).insts split).drop index) }
          >>= fun d => d.addEdge (c.lastIdx + 1) split) = .ok c' := h
    rw [hgi] at h
    generalize hm : (Cfg.incidents { c.withBlock .block ((c.insts split).take index) with
        insts := setAt (c.withBlock .block ((c.insts split).take index)).insts split ((c.insts split).drop index) } split).foldlM
          (Cfg.moveEdge split (c.lastIdx + 1)) { c.withBlock .block ((c.insts split).take index) with
        insts := setAt (c.withBlock .block ((c.insts split).take index)).insts split ((c.insts split).drop index) } = mv at h
    cases mv with
    | error e => cases h
    | ok c1 =>
      have h : c1.addEdge (c.lastIdx + 1) split = .ok c' := h
      obtain ⟨es, e1, e2, _, e3⟩ := move_inv (split := split) (up := c.lastIdx + 1) hsn.symm _ _ _ (by exact I.nodup) hm
      subst e1
      unfold Cfg.addEdge at h
      split at h
      · rename_i hc
        obtain ⟨_, _, hnew⟩ := hc
        have h := Except.ok.inj h
        subst h
        have hes : ∀ a b, (a, b) ∈ es ++ [(c.lastIdx + 1, split)] ↔ ((a, b) ∈ c.edges ∧ b ≠ split) ∨
            (b = c.lastIdx + 1 ∧ (a, split) ∈ c.edges) ∨ (a = c.lastIdx + 1 ∧ b = split) := by
          intro a b
          rw [List.mem_append, List.mem_singleton, e3, Prod.mk.injEq]
          simp only [mem_incidents]
          show (((a, b) ∈ c.edges ∧ ¬ (b = split ∧ (a, split) ∈ c.edges)) ∨ (b = c.lastIdx + 1 ∧ (a, split) ∈ c.edges)) ∨ _ ↔ _
          constructor
          · rintro ((⟨h1, h2⟩ | h) | h)
            · exact Or.inl ⟨h1, fun h => h2 ⟨h, h ▸ h1⟩⟩
            · exact Or.inr (Or.inl h)
            · exact Or.inr (Or.inr h)
          · rintro (⟨h1, h2⟩ | h | h)
            · exact Or.inl (Or.inl ⟨h1, fun h => h2 h.1⟩)
            · exact Or.inl (Or.inr h)
            · exact Or.inr h
        let up := c.lastIdx + 1
        let insts' := setAt (setAt c.insts up ((c.insts split).take index)) split ((c.insts split).drop index)
        let kind' := setAt c.kind up .block
        have hin : ∀ n, n ∈ c.nodes ++ [c.lastIdx + 1] ↔ n ∈ c.nodes ∨ n = up := fun n => by
          rw [List.mem_append, List.mem_singleton]
        have hkind : ∀ n ∈ c.nodes, kind' n = c.kind n := fun n hn => setAt_ne _ _ (I.ne_new hn)
        have hku : kind' up = .block := setAt_same _ _ _
        have hinst : ∀ n, n ≠ split → n ∈ c.nodes → insts' n = c.insts n := fun n h1 h2 =>
          (setAt_ne _ _ h1).trans (setAt_ne _ _ (I.ne_new h2))
        have his : insts' split = (c.insts split).drop index := setAt_same _ _ _
        have hiu : insts' up = (c.insts split).take index := (setAt_ne _ _ hsn.symm).trans (setAt_same _ _ _)
        have hlast : ∀ n ∈ c.nodes, (insts' n).getLast? = (c.insts n).getLast? := by
          intro n hn
          by_cases hns : n = split
          · subst hns
            rw [his, List.getLast?_drop, if_neg (by omega)]
          · rw [hinst n hns hn]
        have hhead : (insts' up).head? = (c.insts split).head? := by
          rw [hiu, List.head?_take, if_neg (by omega)]
        obtain ⟨d, r, hdr⟩ := I.contig split hs
        refine ⟨⟨?_, ?_, ?_, ?_, ?_, ?_, ?_, ?_, ?_, I.pend, ?_, ?_, ?_⟩, ⟨?_⟩, his⟩
        · intro n hn
          rcases (hin n).1 hn with h | h
          · exact Nat.le_succ_of_le (I.bound n h)
          · exact Nat.le_of_eq h
        · intro a b hab
          show a ∈ c.nodes ++ [c.lastIdx + 1] ∧ b ∈ c.nodes ++ [c.lastIdx + 1]
          rw [hin, hin]
          rcases (hes a b).1 hab with ⟨h, _⟩ | ⟨h1, h⟩ | ⟨h1, h2⟩
          · exact ⟨Or.inl (I.ends a b h).1, Or.inl (I.ends a b h).2⟩
          · exact ⟨Or.inl (I.ends a _ h).1, Or.inr h1⟩
          · exact ⟨Or.inr h1, Or.inl (h2 ▸ hs)⟩
        · show (es ++ [(c.lastIdx + 1, split)]).Nodup
          rw [List.nodup_append]
          exact ⟨e2, by simp, fun a ha b hb => by
            rw [List.mem_singleton] at hb; rw [hb]; rintro rfl; exact hnew ha⟩
        · exact ⟨(hin 2).2 (Or.inl I.two.1), (hkind 2 I.two.1).trans I.two.2⟩
        · intro n hn x hx
          have hx : x ∈ insts' n := hx
          rcases (hin n).1 hn with h | rfl
          · by_cases hns : n = split
            · rw [hns, his] at hx
              exact I.sub split hs x (List.mem_of_mem_drop hx)
            · rw [hinst n hns h] at hx
              exact I.sub n h x hx
          · rw [hiu] at hx
            exact I.sub split hs x (List.mem_of_mem_take hx)
        · intro n hn hk
          show insts' n = []
          have hk2 : kind' n ≠ .block := hk
          clear hk
          rcases (hin n).1 hn with h | rfl
          · rw [hkind n h] at hk2
            rw [hinst n (fun h' => hk2 (by rw [h']; exact hsk)) h]
            exact I.hollow n h hk2
          · exact absurd hku hk2
        · intro n hn
          show ∃ d r, D = d ++ (insts' n ++ r)
          rcases (hin n).1 hn with h | rfl
          · by_cases hns : n = split
            · rw [hns, his]
              refine ⟨d ++ (c.insts split).take index, r, ?_⟩
              rw [List.append_assoc, ← List.append_assoc ((c.insts split).take index), List.take_append_drop, hdr]
            · rw [hinst n hns h]
              exact I.contig n h
          · rw [hiu]
            refine ⟨d, (c.insts split).drop index ++ r, ?_⟩
            rw [← List.append_assoc ((c.insts split).take index), List.take_append_drop, hdr]
        · intro n hn x hx
          have hx : x ∈ (insts' n).tail := hx
          rcases (hin n).1 hn with h | rfl
          · by_cases hns : n = split
            · rw [hns, his] at hx
              refine I.inner split hs x ?_
              have h2 := List.mem_of_mem_tail hx
              rw [← List.drop_one]
              have e : (c.insts split).drop index = ((c.insts split).drop 1).drop (index - 1) := by
                rw [List.drop_drop]
                congr 1
                omega
              rw [e] at h2
              exact List.mem_of_mem_drop h2
            · rw [hinst n hns h] at hx
              exact I.inner n h x hx
          · rw [hiu] at hx
            exact I.inner split hs x ((List.take_sublist index (c.insts split)).tail.subset hx)
        · intro n hn hk
          have hk : kind' n = .cond ∨ kind' n = .unknown := hk
          rcases (hin n).1 hn with h | rfl
          · rw [hkind n h] at hk
            exact I.fst n h hk
          · rw [hku] at hk
            rcases hk with hk | hk <;> cases hk
        · intro a b hab
          show EdgeMeans _ kind' insts' first a b
          rcases (hes a b).1 hab with ⟨h, hb⟩ | ⟨h1, h⟩ | ⟨h1, h2⟩
          · obtain ⟨ha, hbn⟩ := I.ends a b h
            exact edgeMeans_congr (hkind a ha) (hkind b hbn) (hlast a ha) (by rw [hinst b hb hbn]) rfl rfl (I.edge a b h)
          · obtain ⟨ha, _⟩ := I.ends a _ h
            rw [h1]
            exact edgeMeans_redirect (hkind a ha) hsk hku (hlast a ha) hhead rfl (I.edge a split h)
          · rw [h1, h2]
            obtain ⟨p, x, y, q, hpq, hpl⟩ : ∃ p x y q, c.insts split = p ++ x :: y :: q ∧ p.length + 1 = index := by
              obtain ⟨p, x, y, q, h1, h2⟩ := two_at (l := c.insts split) (k := index - 1) (by omega)
              exact ⟨p, x, y, q, h1, by omega⟩
            refine .next (d := d ++ p) (r := q ++ r) (i := x) (k := y) hku ?_ ?_ ?_ (Or.inl ⟨(hkind split hs).trans hsk, ?_⟩)
            · rw [hiu, hpq, ← hpl]
              have : (p ++ x :: y :: q).take (p.length + 1) = p ++ [x] := by
                rw [List.take_length_add_append]; rfl
              rw [this]; simp
            · exact contig_next hdr hpq
            · intro _
              cases ho : (lineOf prog D).opens ((d ++ p) ++ [x]) y with
              | false => rfl
              | true =>
                refine absurd ⟨(d ++ p) ++ [x], q ++ r, by rw [contig_next hdr hpq]; simp, ho⟩ (I.inner split hs y ?_)
                rw [hpq]
                cases p <;> simp
            · rw [his, hpq, ← hpl, List.drop_length_add_append]; rfl
        · intro n hn hk
          have hk : kind' n = .cond := hk
          rcases (hin n).1 hn with h | rfl
          · rw [hkind n h] at hk
            exact I.guard n h hk
          · rw [hku] at hk; cases hk
        · intro n hn he hk
          have hk : kind' n = .cond := hk
          show ∃ b ∈ c.nodes ++ [c.lastIdx + 1], kind' b = .block ∧ (insts' b).head? = some (first n) ∧ (n, b) ∈ es ++ [(c.lastIdx + 1, split)]
          rcases (hin n).1 hn with h | rfl
          · rw [hkind n h] at hk
            obtain ⟨b, h1, h2, h3, h4⟩ := I.linked n h he hk
            by_cases hb : b = split
            · refine ⟨up, (hin up).2 (Or.inr rfl), hku, ?_, (hes n up).2 (Or.inr (Or.inl ⟨rfl, hb ▸ h4⟩))⟩
              rw [hhead, ← hb]; exact h3
            · exact ⟨b, (hin b).2 (Or.inl h1), (hkind b h1).trans h2, by rw [hinst b hb h1]; exact h3, (hes n b).2 (Or.inl ⟨h4, hb⟩)⟩
          · rw [hku] at hk; cases hk
        · intro n hn
          exact ⟨(hin n).2 (Or.inl hn), hkind n hn, hlast n hn⟩
      · cases h

theorem EInv.setPending (I : EInv prog D done first ex c) {p : List (Nat × List Nat)}
    (h : ∀ k, k ∉ done → dictGet p k = none) : EInv prog D done first ex { c with pending := p } :=
  ⟨I.bound, I.ends, I.nodup, I.two, I.sub, I.hollow, I.contig, I.inner, I.fst, h, I.edge, I.guard, I.linked⟩

theorem nodup_cut {α : Type} {x : α} {a b p q : List α} (hn : (a ++ x :: b).Nodup) (h : a ++ x :: b = p ++ x :: q) :
    a = p ∧ b = q := by
  induction a generalizing p with
  | nil =>
    cases p with
    | nil => exact ⟨rfl, (List.cons.inj h).2⟩
    | cons y p =>
      have h := List.cons.inj h
      rw [List.nil_append, List.nodup_cons, h.2] at hn
      exact absurd (by simp) hn.1
  | cons y a ih =>
    cases p with
    | nil =>
      have h := List.cons.inj h
      rw [List.cons_append, List.nodup_cons, h.1] at hn
      exact absurd (by simp) hn.1
    | cons z p =>
      have h := List.cons.inj h
      rw [List.cons_append, List.nodup_cons] at hn
      obtain ⟨h1, h2⟩ := ih hn.2 h.2
      exact ⟨by rw [h.1, h1], h2⟩

/-- A run goes on with the next instruction. -/
theorem run_extend (hn : D.Nodup) {d0 rest : List Nat} {a i s : Nat} (hD : D = d0 ++ a :: i :: rest)
    (hb : (prog[i]?.getD {}).branch = false) (hc : (prog[i]?.getD {}).cond = (prog[a]?.getD {}).cond)
    (h : (lineOf prog D).Run s a) : (lineOf prog D).Run s i := by
  obtain ⟨d, m, r, h1, h2, h3⟩ := h
  have h1 : D = d ++ s :: (m ++ r) := h1
  obtain ⟨m', hm'⟩ := List.getLast?_eq_some_iff.1 h2
  have e : D = (d ++ m') ++ a :: r := by
    rw [h1, ← List.cons_append, hm']
    simp
  obtain ⟨_, e2⟩ := nodup_cut (by rw [← hD]; exact hn) (hD.symm.trans e)
  have hca : (prog[a]?.getD {}).cond = (prog[s]?.getD {}).cond := by
    have : a ∈ s :: m := by rw [hm']; simp
    rcases List.mem_cons.1 this with rfl | h
    · rfl
    · exact (h3 a h).2
  refine ⟨d, m ++ [i], rest, ?_, ?_, ?_⟩
  · show D = _
    rw [h1, ← e2]
    simp
  · rw [← List.cons_append, List.getLast?_append]
    rfl
  · intro x hx
    rcases List.mem_append.1 hx with hx | hx
    · exact h3 x hx
    · rw [List.mem_singleton] at hx
      rw [hx]
      exact ⟨hb, hc.trans hca⟩

/-- Another instruction in the current block. -/
theorem EInv.append (I : EInv prog D done first ex c) (hn : D.Nodup) {cb a i : Nat} {d0 rest : List Nat}
    (hdone : done = d0 ++ [a]) (hD : D = done ++ i :: rest) (hcb : cb ∈ c.nodes) (hk : c.kind cb = .block)
    (hl : (c.insts cb).getLast? = some a) (hb : (prog[i]?.getD {}).branch = false)
    (hlc : lastCondOf prog done = some (prog[i]?.getD {}).cond) :
    EInv prog D (done ++ [i]) first ex { c with insts := setAt c.insts cb (c.insts cb ++ [i]) } := by
  have hcond : (prog[i]?.getD {}).cond = (prog[a]?.getD {}).cond := by
    rw [hdone, lastCondOf_snoc] at hlc
    split at hlc
    · cases hlc
    · exact (Option.some.inj hlc).symm
  have hid : i ∉ done := by
    rw [hD, List.nodup_append] at hn
    exact fun h => hn.2.2 i h i (by simp) rfl
  have hD2 : D = d0 ++ a :: i :: rest := by rw [hD, hdone]; simp
  have hinst : ∀ n, n ≠ cb → setAt c.insts cb (c.insts cb ++ [i]) n = c.insts n := fun n hn => setAt_ne _ _ hn
  have hcbi : setAt c.insts cb (c.insts cb ++ [i]) cb = c.insts cb ++ [i] := setAt_same _ _ _
  have hne : c.insts cb ≠ [] := by
    intro h
    rw [h] at hl
    cases hl
  have hhead : ∀ n, (setAt c.insts cb (c.insts cb ++ [i]) n).head? = (c.insts n).head? := by
    intro n
    by_cases h : n = cb
    · subst h
      rw [hcbi, List.head?_append]
      cases hh : (c.insts n).head? with
      | none => exact absurd (List.head?_eq_none_iff.1 hh) hne
      | some x => rfl
    · rw [hinst n h]
  have hent : ∀ v k, v ∈ c.nodes → Enters c.kind c.insts first v k → k ∈ done := by
    rintro v k hv (h | h)
    · exact I.sub v hv k (List.mem_of_head? h.2)
    · rw [← h.2]; exact I.fst v hv (Or.inl h.1)
  refine ⟨I.bound, I.ends, I.nodup, I.two, ?_, ?_, ?_, ?_, ?_, ?_, ?_, I.guard, ?_⟩
  · intro n hnn x hx
    have hx : x ∈ setAt c.insts cb (c.insts cb ++ [i]) n := hx
    by_cases h : n = cb
    · subst h
      rw [hcbi] at hx
      rcases List.mem_append.1 hx with hx | hx
      · exact List.mem_append_left _ (I.sub n hnn x hx)
      · exact List.mem_append_right _ hx
    · rw [hinst n h] at hx
      exact List.mem_append_left _ (I.sub n hnn x hx)
  · intro n hnn hkk
    show setAt c.insts cb (c.insts cb ++ [i]) n = []
    rw [hinst n (by rintro rfl; exact hkk hk)]
    exact I.hollow n hnn hkk
  · intro n hnn
    show ∃ d r, D = d ++ (setAt c.insts cb (c.insts cb ++ [i]) n ++ r)
    by_cases h : n = cb
    · subst h
      rw [hcbi]
      obtain ⟨d, r, hdr⟩ := I.contig n hnn
      obtain ⟨p, hp⟩ := List.getLast?_eq_some_iff.1 hl
      have e : D = (d ++ p) ++ a :: r := by rw [hdr, hp]; simp
      obtain ⟨e1, e2⟩ := nodup_cut (by rw [← hD2]; exact hn) (hD2.symm.trans e)
      exact ⟨d, rest, by rw [hdr, ← e2]; simp⟩
    · rw [hinst n h]
      exact I.contig n hnn
  · intro n hnn x hx
    have hx : x ∈ (setAt c.insts cb (c.insts cb ++ [i]) n).tail := hx
    by_cases h : n = cb
    · subst h
      rw [hcbi, List.tail_append_of_ne_nil hne] at hx
      rcases List.mem_append.1 hx with hx | hx
      · exact I.inner n hnn x hx
      · rw [List.mem_singleton] at hx
        subst hx
        rintro ⟨d, r, h1, h2⟩
        obtain ⟨e1, _⟩ := nodup_cut (by rw [← hD]; exact hn) (hD.symm.trans h1)
        rw [← e1] at h2
        exact (opens_iff prog D done x).1 h2 hlc
    · rw [hinst n h] at hx
      exact I.inner n hnn x hx
  · intro n hnn hkk
    exact List.mem_append_left _ (I.fst n hnn hkk)
  · intro k hkk
    exact I.pend k fun h => hkk (List.mem_append_left _ h)
  · intro u v huv
    obtain ⟨hu, hv⟩ := I.ends u v huv
    have E := I.edge u v huv
    by_cases hucb : u = cb
    · subst hucb
      have hlast : (setAt c.insts u (c.insts u ++ [i]) u).getLast? = some i := by rw [hcbi]; simp
      have hnext : ∀ {d r : List Nat} {k : Nat}, D = d ++ a :: k :: r → k = i := by
        intro d r k h
        obtain ⟨_, e2⟩ := nodup_cut (by rw [← hD2]; exact hn) (hD2.symm.trans h)
        exact (List.cons.inj e2).1.symm
      have hE2 : ∀ k, Enters c.kind c.insts first v k → Enters c.kind (setAt c.insts u (c.insts u ++ [i])) first v k :=
        fun k => enters_congr rfl (hhead v) rfl
      show EdgeMeans _ c.kind (setAt c.insts u (c.insts u ++ [i])) first u v
      cases E with
      | start a b c => rw [hk] at a; cases a
      | empty a b c => rw [hk] at a; cases a
      | leave e1 e2 e3 e4 e5 e6 =>
        rw [hl] at e5
        cases e5
        exact .leave e1 e2 e3 e4 hlast (run_extend hn hD2 hb hcond e6)
      | away a b => rw [hk] at a; cases a
      | back a b c d => rw [hk] at a; cases a
      | holds a b => rw [hk] at a; cases a
      | fails a b c => rw [hk] at a; cases a
      | next e1 e2 e3 e4 e5 =>
        rw [hl] at e2
        cases e2
        exact absurd (hnext e3 ▸ hent v _ hv e5) hid
      | over e1 e2 e3 e4 e5 e6 e7 e8 =>
        rw [hl] at e2
        cases e2
        rw [hnext e3] at e5
        exact absurd (hb.symm.trans e5) (by decide)
      | jump e1 e2 e3 e4 e5 e6 e7 e8 =>
        rw [hl] at e2
        cases e2
        exact .jump e1 hlast (run_extend hn hD2 hb hcond e3) e4 e5 e6 e7 ((hhead v).trans e8)
      | stop e1 e2 e3 e4 =>
        rw [hl] at e3
        cases e3
        have e4 : D = _ ++ a :: [] := e4
        obtain ⟨_, h⟩ := nodup_cut (by rw [← hD2]; exact hn) (hD2.symm.trans e4)
        cases h
      | stopOver e1 e2 e3 e4 e5 e6 e7 =>
        rw [hl] at e3
        cases e3
        rw [hnext e4] at e5
        exact absurd (hb.symm.trans e5) (by decide)
    · exact edgeMeans_congr rfl rfl (by show (setAt c.insts cb _ u).getLast? = _; rw [hinst u hucb]) (hhead v) rfl rfl E
  · intro n hnn he hkk
    obtain ⟨b, h1, h2, h3, h4⟩ := I.linked n hnn he hkk
    exact ⟨b, h1, h2, (hhead b).trans h3, h4⟩

end inv

end Verif
