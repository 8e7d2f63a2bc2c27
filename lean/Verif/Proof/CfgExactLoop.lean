import Verif.Proof.CfgExact

/-! # The loop, and the whole graph -/

namespace Verif

open Spec

/-- What the graph of a sequence looks like. -/
def picOf (prog : List CfgInst) (l : List Nat) : Picture where
  ins := fun x => x ∈ l
  heads := (lineOf prog l).Starts
  conds := (lineOf prog l).Guarded
  unks := (lineOf prog l).Leaves
  edge := (lineOf prog l).Edge

section
variable {prog : List CfgInst} {D : List Nat} {first : Nat → Nat} {A : Picture} {c : Cfg}

theorem XInv.setPending (I : XInv D first A c) (p : List (Nat × List Nat)) : XInv D first A { c with pending := p } :=
  ⟨I.bound, I.ends, I.nodup, I.one, I.two, I.fin, I.hollow, I.full, I.contig, I.ins, I.disj, I.heads, I.conds, I.unks, I.inj, I.edge⟩

theorem XInv.branchOut (I : XInv D first A c) (hn : D.Nodup) {l rest : List Nat} {branch i : Nat} {q : Cfg × Option Nat}
    (hD : D = l ++ i :: rest) (hbn : branch ∈ c.nodes) (hbi : c.insts branch = [i]) (hins : ∀ x, A.ins x ↔ x ∈ l ++ [i])
    (hunk : ¬ A.unks i) (hib : (lineOf prog l).branch i = true)
    (hcut : ∀ d a k r, l = d ++ a :: k :: r → (lineOf prog l).opens (d ++ [a]) k = false → A.heads k → A.edge (.block a) (.block k))
    (hop : ∀ d a k r, l = d ++ a :: k :: r → (lineOf prog l).opens (d ++ [a]) k = true → A.heads k) (hii : A.heads i)
    (h : c.branchOut prog branch i 2 = .ok q) :
    ∃ first', XInv D first' { A with heads := fun x => A.heads x ∨ ((lineOf prog l).target i = some x ∧ x ∈ l ++ [i])
                                     unks := fun x => A.unks x ∨ (x = i ∧ (lineOf prog l).target i = none)
                                     edge := fun s t => A.edge s t ∨ NewBranch prog l i s t } q.1 ∧ XKeeps first c first' q.1 ∧
      ((q.2 = none ∧ (lineOf prog l).link i = false) ∨ ∃ n, q.2 = some n ∧ n ∈ q.1.nodes ∧ (lineOf prog l).link i = true ∧
        q.1.src first' n = match (lineOf prog l).target i with
          | none => .unknown i
          | some _ => .block i) := by
  have hbk := I.isBlock hbn (by rw [hbi]; simp : i ∈ c.insts branch)
  have hbs : c.src first branch = .block i := src_eq_last hbk (by rw [hbi]; rfl)
  have hnl : (l ++ [i]).Nodup := by
    rw [hD, show l ++ i :: rest = (l ++ [i]) ++ rest by simp, List.nodup_append] at hn
    exact hn.1
  unfold Cfg.branchOut at h
  have hT : (lineOf prog l).target i = (prog[i]?.getD {}).target := rfl
  have hL : (lineOf prog l).link i = (prog[i]?.getD {}).link := rfl
  rw [hT, hL]
  cases htt : (prog[i]?.getD {}).target with
  | none =>
    simp only [htt] at h
    obtain ⟨p, h1, h2⟩ := py_bind_ok h
    unfold Cfg.toUnknown at h1
    obtain ⟨b, h3, h4⟩ := py_bind_ok h1
    have hb := I.addBlock h3
    subst hb
    obtain ⟨c1, h5, h6⟩ := py_bind_ok h4
    obtain ⟨c2, h7, h8⟩ := py_bind_ok h6
    cases h8
    cases h2
    have J := I.withBlock (kind := .unknown) (insts := []) (f := i) (Or.inr ⟨Or.inr rfl, rfl⟩) ⟨D, [], by simp⟩ (by simp)
      (fun h => by cases h) (fun _ => hunk)
    have K := I.keepsBlock .unknown [] i
    obtain ⟨b1, b2, b3, _, _⟩ := K.nodes branch hbn
    obtain ⟨e1, J1⟩ := J.addEdge h5
    subst e1
    obtain ⟨e2, J2⟩ := J1.addEdge h7
    subst e2
    have hnk : (c.withBlock .unknown []).kind (c.lastIdx + 1) = .unknown := setAt_same _ _ _
    have hnf : setAt first (c.lastIdx + 1) i (c.lastIdx + 1) = i := setAt_same _ _ _
    have hnn : c.lastIdx + 1 ∈ (c.withBlock .unknown []).nodes := by
      show _ ∈ c.nodes ++ [c.lastIdx + 1]
      simp
    have hs : (c.withBlock .unknown []).src (setAt first (c.lastIdx + 1) i) (c.lastIdx + 1) = .unknown i := by
      unfold Cfg.src leavesBy
      rw [hnk, hnf]
    have hd : (c.withBlock .unknown []).dst (setAt first (c.lastIdx + 1) i) (c.lastIdx + 1) = .unknown i := by
      unfold Cfg.dst entersBy
      rw [hnk, hnf]
    have hf : (c.withBlock .unknown []).dst (setAt first (c.lastIdx + 1) i) 2 = .fin := by
      unfold Cfg.dst entersBy
      rw [(K.nodes 2 I.fin.1).2.1, I.fin.2]
    refine ⟨_, J2.congr (fun x => ?_) (fun x => ?_) (fun x => ?_) (fun x => ?_) fun s t => ?_, ⟨K.nodes⟩, ?_⟩
    · show A.ins x ↔ A.ins x ∨ x ∈ []
      simp
    · show A.heads x ∨ _ ↔ A.heads x ∨ [].head? = some x
      simp
    · show A.conds x ↔ A.conds x ∨ _
      simp
    · show A.unks x ∨ _ ↔ A.unks x ∨ _
      refine or_congr_right ⟨fun h => ⟨rfl, h.1⟩, fun h => ⟨h.2, rfl⟩⟩
    · show A.edge s t ∨ NewBranch prog l i s t ↔ (A.edge s t ∨ (s = (c.withBlock .unknown []).src (setAt first (c.lastIdx + 1) i) branch ∧
        t = (c.withBlock .unknown []).dst (setAt first (c.lastIdx + 1) i) (c.lastIdx + 1))) ∨
        (s = (c.withBlock .unknown []).src (setAt first (c.lastIdx + 1) i) (c.lastIdx + 1) ∧
          t = (c.withBlock .unknown []).dst (setAt first (c.lastIdx + 1) i) 2)
      rw [b3, hbs, hs, hd, hf, or_assoc]
      refine or_congr_right ⟨fun h => ?_, fun h => ⟨hib, Or.inl ⟨htt, h⟩⟩⟩
      rcases h.2 with h | ⟨k, hk, _⟩
      · exact h.2
      · rw [hT, htt] at hk
        cases hk
    · cases hl : (prog[i]?.getD {}).link with
      | false => exact Or.inl ⟨by simp, rfl⟩
      | true => exact Or.inr ⟨_, by simp, hnn, rfl, hs⟩
  | some t =>
    simp only [htt] at h
    obtain ⟨c1, h1, h2⟩ := py_bind_ok h
    cases h2
    unfold Cfg.toInst at h1
    have key : XInv D first { A with heads := fun x => A.heads x ∨ (some t = some x ∧ x ∈ l ++ [i])
                                     unks := fun x => A.unks x ∨ (x = i ∧ some t = none)
                                     edge := fun s t => A.edge s t ∨ NewBranch prog l i s t } c1 ∧ XKeeps first c first c1 := by
      cases hw : c.nodeWith t with
      | none =>
        rw [hw] at h1
        cases h1
        have hnt : t ∉ l ++ [i] := by
          rw [← hins, I.ins]
          rintro ⟨n, hn', hx⟩
          unfold Cfg.nodeWith at hw
          rw [List.find?_eq_none] at hw
          exact hw n hn' (by simpa using hx)
        refine ⟨(I.setPending _).congr (fun _ => Iff.rfl) (fun x => ?_) (fun _ => Iff.rfl) (fun x => ?_) fun s e => ?_,
          ⟨fun _ hn => ⟨hn, rfl, rfl, rfl, rfl⟩⟩⟩
        · refine ⟨fun h => ?_, Or.inl⟩
          rcases h with h | ⟨h1, h2⟩
          · exact h
          · cases h1
            exact absurd h2 hnt
        · refine ⟨fun h => ?_, Or.inl⟩
          rcases h with h | ⟨_, h2⟩
          · exact h
          · cases h2
        · refine ⟨fun h => ?_, Or.inl⟩
          rcases h with h | ⟨_, h | ⟨k, h1, h2, _⟩⟩
          · exact h
          · rw [hT, htt] at h
            cases h.1
          · rw [hT, htt] at h1
            cases h1
            exact absurd h2 hnt
      | some n =>
        rw [hw] at h1
        simp only at h1
        split at h1
        · cases h1
        · obtain ⟨hnn, htn⟩ := nodeWith_some hw
          have hti : t ∈ l ++ [i] := (hins t).1 ((I.ins t).2 ⟨n, hnn, htn⟩)
          obtain ⟨J, K⟩ := I.splitNode hn hnn hbn h1
          refine ⟨J.congr (fun _ => Iff.rfl) (fun x => ?_) (fun _ => Iff.rfl) (fun x => ?_) fun s e => ?_, K⟩
          · refine or_congr_right ⟨fun h => (Option.some.inj h.1).symm, fun h => ⟨by rw [h], h ▸ hti⟩⟩
          · refine ⟨fun h => ?_, Or.inl⟩
            rcases h with h | ⟨_, h2⟩
            · exact h
            · cases h2
          · show A.edge s e ∨ _ ↔ A.edge s e ∨ (s = c.src first branch ∧ _) ∨ _
            rw [hbs]
            constructor
            · rintro (h | ⟨_, h | ⟨k, h1, h2, h3⟩⟩)
              · exact Or.inl h
              · rw [hT, htt] at h
                cases h.1
              · rw [hT, htt] at h1
                cases h1
                rcases h3 with h3 | ⟨d, a, r, e1, e2, rfl, rfl⟩
                · exact Or.inr (Or.inl h3)
                · by_cases hh : A.heads t
                  · exact Or.inl (hcut d a t r e1 e2 hh)
                  · exact Or.inr (Or.inr ⟨hh, d, a, r ++ i :: rest, by rw [hD, e1]; simp, rfl, rfl⟩)
            · rintro (h | h | ⟨hh, d, a, r, e1, e2⟩)
              · exact Or.inl h
              · exact Or.inr ⟨hib, Or.inr ⟨t, htt, hti, Or.inl h⟩⟩
              · -- the instruction before is among those so far
                have htl : t ∈ l := by
                  rcases List.mem_append.1 hti with h | h
                  · exact h
                  · rw [List.mem_singleton] at h
                    rw [h] at hh
                    exact absurd hii hh
                obtain ⟨p, q, hpq⟩ := List.append_of_mem htl
                have e3 : p ++ t :: (q ++ i :: rest) = (d ++ [a]) ++ t :: r := by
                  rw [show p ++ t :: (q ++ i :: rest) = (p ++ t :: q) ++ i :: rest by simp, ← hpq, ← hD, e1]
                  simp
                obtain ⟨e4, e5⟩ := nodup_cut (by
                  rw [show p ++ t :: (q ++ i :: rest) = (p ++ t :: q) ++ i :: rest by simp, ← hpq, ← hD]; exact hn) e3
                have e6 : l = d ++ a :: t :: q := by rw [hpq, e4]; simp
                cases ho : (lineOf prog l).opens (d ++ [a]) t with
                | true => exact absurd (hop d a t q e6 ho) hh
                | false => exact Or.inr ⟨hib, Or.inr ⟨t, htt, hti, Or.inr ⟨d, a, q, e6, ho, e2⟩⟩⟩
    obtain ⟨J, K⟩ := key
    refine ⟨first, J, K, ?_⟩
    obtain ⟨b1, b2, b3, _, _⟩ := K.nodes branch hbn
    cases hl : (prog[i]?.getD {}).link with
    | false => exact Or.inl ⟨by simp, rfl⟩
    | true => exact Or.inr ⟨branch, by simp, b1, rfl, b3.trans hbs⟩

theorem XInv.passes_iff (I : XInv D first A c) {n : Nat} (hn : n ∈ c.nodes) (l : List Nat) :
    c.lastIsBranch prog n = false ↔ (lineOf prog l).passes (c.src first n) := by
  by_cases hk : c.kind n = .block
  · cases hl : (c.insts n).getLast? with
    | none =>
      rw [List.getLast?_eq_none_iff] at hl
      exact absurd hl (I.full n hn hk)
    | some z =>
      rw [src_eq_last hk hl, lastIsBranch_eq hl]
      exact Iff.rfl
  · have h1 : c.lastIsBranch prog n = false := by
      unfold Cfg.lastIsBranch
      rw [I.hollow n hn hk]
      rfl
    rw [h1]
    unfold Cfg.src leavesBy
    cases hk' : c.kind n with
    | block => exact absurd hk' hk
    | root => exact ⟨fun _ => trivial, fun _ => rfl⟩
    | fin => exact ⟨fun _ => trivial, fun _ => rfl⟩
    | cond => exact ⟨fun _ => trivial, fun _ => rfl⟩
    | unknown => exact ⟨fun _ => trivial, fun _ => rfl⟩

theorem XInv.fallThrough (I : XInv D first A c) {cb n : Nat} {c' : Cfg} (l : List Nat) (hcb : cb ∈ c.nodes)
    (h : c.fallThrough prog cb n = .ok c') :
    (∃ es, c' = { c with edges := es }) ∧ XInv D first { A with edge := fun s t => A.edge s t ∨
      (t = c.dst first n ∧ s = c.src first cb ∧ (lineOf prog l).passes s) } c' := by
  unfold Cfg.fallThrough at h
  split at h
  · rename_i hb
    cases h
    refine ⟨⟨_, rfl⟩, I.congr (fun _ => Iff.rfl) (fun _ => Iff.rfl) (fun _ => Iff.rfl) (fun _ => Iff.rfl) fun s t => ?_⟩
    refine ⟨fun h => ?_, Or.inl⟩
    rcases h with h | ⟨_, rfl, h3⟩
    · exact h
    · rw [← I.passes_iff hcb l, hb] at h3
      cases h3
  · rename_i hb
    have hb : c.lastIsBranch prog cb = false := by simpa using hb
    obtain ⟨e, J⟩ := I.addEdge h
    refine ⟨⟨_, e⟩, J.congr (fun _ => Iff.rfl) (fun _ => Iff.rfl) (fun _ => Iff.rfl) (fun _ => Iff.rfl) fun s t => ?_⟩
    refine or_congr_right ⟨fun h => ⟨h.2.1, h.1⟩, ?_⟩
    rintro ⟨rfl, rfl⟩
    exact ⟨rfl, rfl, (I.passes_iff hcb l).1 hb⟩

theorem XInv.fromCond (I : XInv D first A c) {last : Option Nat} {n : Nat} {c' : Cfg} (h : c.fromCond last n = .ok c') :
    (∃ es, c' = { c with edges := es }) ∧ XInv D first { A with edge := fun s t => A.edge s t ∨
      (t = c.dst first n ∧ ∃ m, last = some m ∧ s = c.src first m) } c' := by
  unfold Cfg.fromCond at h
  cases last with
  | none =>
    cases h
    refine ⟨⟨_, rfl⟩, I.congr (fun _ => Iff.rfl) (fun _ => Iff.rfl) (fun _ => Iff.rfl) (fun _ => Iff.rfl) fun s t => ?_⟩
    refine ⟨fun h => ?_, Or.inl⟩
    rcases h with h | ⟨_, m, h, _⟩
    · exact h
    · cases h
  | some m =>
    obtain ⟨e, J⟩ := I.needEdge h
    refine ⟨e, J.congr (fun _ => Iff.rfl) (fun _ => Iff.rfl) (fun _ => Iff.rfl) (fun _ => Iff.rfl) fun s t => ?_⟩
    refine or_congr_right ⟨?_, ?_⟩
    · rintro ⟨rfl, m', h, rfl⟩
      cases h
      exact ⟨rfl, rfl⟩
    · rintro ⟨rfl, rfl⟩
      exact ⟨rfl, m, rfl, rfl⟩

/-- The last conditional node is the one of the current group. -/
def LastIs (first : Nat → Nat) (c : Cfg) (g : Option Nat) (last : Option Nat) : Prop :=
  (last = none ∧ g = none) ∨ ∃ n x, last = some n ∧ g = some x ∧ n ∈ c.nodes ∧ c.src first n = .cond x

theorem LastIs.keep {first' : Nat → Nat} {c' : Cfg} {g last : Option Nat} (K : XKeeps first c first' c') (h : LastIs first c g last) :
    LastIs first' c' g last := by
  rcases h with h | ⟨n, x, h1, h2, h3, h4⟩
  · exact Or.inl h
  · exact Or.inr ⟨n, x, h1, h2, (K.nodes n h3).1, (K.nodes n h3).2.2.1.trans h4⟩

theorem XInv.branchConditional {l rest : List Nat} (I : XInv D first (picOf prog l) c) (hn : D.Nodup) {i cb : Nat} {last : Option Nat}
    {q : Cfg × Nat × Option Nat} (hip : i < prog.length) (hD : D = l ++ i :: rest) (hcb : cb ∈ c.nodes)
    (hC : c.src first cb = (lineOf prog l).place l) (hL : LastIs first c ((lineOf prog l).guard l) last)
    (hop : (lineOf prog l).opens l i = true) (hp : dictGet c.pending i = none) (h : c.branchConditional prog i cb last = .ok q) :
    ∃ first', XInv D first' { ins := fun x => x ∈ l ++ [i]
                              heads := fun x => (lineOf prog l).Starts x ∨ x = i
                              conds := (lineOf prog (l ++ [i])).Guarded
                              unks := (lineOf prog l).Leaves
                              edge := fun s t => (lineOf prog l).Edge s t ∨ NewGroup prog l i s t } q.1 ∧
      q.2.1 ∈ q.1.nodes ∧ q.1.insts q.2.1 = [i] ∧ LastIs first' q.1 ((lineOf prog (l ++ [i])).guard (l ++ [i])) q.2.2 := by
  have hil : i ∉ l := by
    rw [hD, List.nodup_append] at hn
    exact fun h => hn.2.2 i h i (by simp) rfl
  unfold Cfg.branchConditional at h
  obtain ⟨b, h1, h2⟩ := py_bind_ok h
  have hb := I.addBlock h1
  subst hb
  have hcond : (prog[i]?.map (·.cond)).getD 0 = (lineOf prog l).cond i := by
    show _ = (prog[i]?.getD {}).cond
    rw [List.getElem?_eq_getElem hip]
    rfl
  rw [hcond] at h2
  have J0 := I.withBlock (kind := .block) (insts := [i]) (f := first (c.lastIdx + 1)) (Or.inl ⟨rfl, by simp⟩)
    ⟨l, rest, by rw [hD]; rfl⟩ (by simpa [picOf] using hil) (fun h => by cases h) (fun h => by cases h)
  have K0 := I.keepsBlock .block [i] (first (c.lastIdx + 1))
  have hff : setAt first (c.lastIdx + 1) (first (c.lastIdx + 1)) = first := by
    funext x
    unfold setAt
    split
    · rename_i h; rw [h]
    · rfl
  rw [hff] at J0 K0
  generalize hc1 : c.withBlock .block [i] = c1 at *
  have hbk : c1.kind (c.lastIdx + 1) = .block := by rw [← hc1]; exact setAt_same _ _ _
  have hbi : c1.insts (c.lastIdx + 1) = [i] := by rw [← hc1]; exact setAt_same _ _ _
  have hbn : c.lastIdx + 1 ∈ c1.nodes := by
    rw [← hc1]
    show _ ∈ c.nodes ++ [c.lastIdx + 1]
    simp
  have hbd : c1.dst first (c.lastIdx + 1) = .block i := dst_eq_head hbk (by rw [hbi]; rfl)
  obtain ⟨k1, k2, k3, _, _⟩ := K0.nodes cb hcb
  have hL0 := hL.keep K0
  have hp1 : dictGet c1.pending i = none := by rw [← hc1]; exact hp
  have hgs := guard_snoc prog (l ++ [i]) l i
  rw [if_pos (show (lineOf prog (l ++ [i])).opens l i = true from hop)] at hgs
  by_cases hal : (lineOf prog l).cond i = condAlways
  · rw [if_neg (by simpa using hal)] at h2
    rw [if_pos (show (lineOf prog (l ++ [i])).cond i = condAlways from hal)] at hgs
    obtain ⟨c2, h3, h4⟩ := py_bind_ok h2
    obtain ⟨c3, h5, h6⟩ := py_bind_ok h4
    cases h6
    obtain ⟨⟨es, e1⟩, J1⟩ := J0.fallThrough l k1 h3
    subst e1
    obtain ⟨⟨es', e2⟩, J2⟩ := J1.fromCond h5
    subst e2
    have hent : (lineOf prog l).entry i = .block i := if_pos hal
    refine ⟨first, J2.congr (fun x => ?_) (fun x => ?_) (fun x => ?_) (fun x => ?_) fun s t => ?_, hbn, hbi, Or.inl ⟨rfl, hgs⟩⟩
    · show x ∈ l ++ [i] ↔ x ∈ l ∨ x ∈ [i]
      exact List.mem_append
    · show _ ∨ x = i ↔ (lineOf prog l).Starts x ∨ [i].head? = some x
      refine or_congr_right ⟨fun h => by rw [h]; rfl, fun h => ?_⟩
      cases h
      rfl
    · show (lineOf prog (l ++ [i])).Guarded x ↔ (lineOf prog l).Guarded x ∨ (BlockKind.block = .cond ∧ _)
      rw [guarded_snoc]
      refine or_congr_right ⟨fun h => absurd hal h.2.2, fun h => by cases h.1⟩
    · show _ ↔ (lineOf prog l).Leaves x ∨ (BlockKind.block = .unknown ∧ _)
      refine ⟨Or.inl, fun h => ?_⟩
      rcases h with h | h
      · exact h
      · cases h.1
    · show (lineOf prog l).Edge s t ∨ NewGroup prog l i s t ↔ ((lineOf prog l).Edge s t ∨ (t = c1.dst first (c.lastIdx + 1) ∧
        s = c1.src first cb ∧ _)) ∨ (t = c1.dst first (c.lastIdx + 1) ∧ ∃ m, last = some m ∧ s = c1.src first m)
      rw [hbd, k3, hC, or_assoc]
      refine or_congr_right ?_
      unfold NewGroup
      rw [hent]
      constructor
      · rintro ⟨_, h | ⟨rfl, x, h, rfl⟩ | h⟩
        · exact Or.inl h
        · rcases hL0 with ⟨_, h'⟩ | ⟨n, y, g1, g2, g3, g4⟩
          · rw [h] at h'; cases h'
          · rw [h] at g2
            cases g2
            exact Or.inr ⟨rfl, n, g1, g4.symm⟩
        · exact absurd hal h.2.2
      · rintro (h | ⟨rfl, m, h, rfl⟩)
        · exact ⟨hop, Or.inl h⟩
        · rcases hL0 with ⟨h', _⟩ | ⟨n, y, g1, g2, g3, g4⟩
          · rw [h] at h'; cases h'
          · rw [h] at g1
            cases g1
            exact ⟨hop, Or.inr (Or.inl ⟨rfl, y, g2, g4⟩)⟩
  · rw [if_pos (by simpa using hal)] at h2
    rw [if_neg (show ¬ (lineOf prog (l ++ [i])).cond i = condAlways from hal)] at hgs
    obtain ⟨nn, h3, h4⟩ := py_bind_ok h2
    have hb := J0.addBlock h3
    subst hb
    have J1 := J0.withBlock (kind := .cond) (insts := []) (f := i) (Or.inr ⟨Or.inl rfl, rfl⟩)
      ⟨D, [], by simp⟩ (by simp) (fun _ h => by
        rcases h with ⟨d, r, h, _⟩ | ⟨h, _⟩
        · have h : l = d ++ i :: r := h
          exact hil (by rw [h]; simp)
        · cases h) (fun h => by cases h)
    have K1 := J0.keepsBlock .cond [] i
    have hnk : (c1.withBlock .cond []).kind (c1.lastIdx + 1) = .cond := setAt_same _ _ _
    have hnf : setAt first (c1.lastIdx + 1) i (c1.lastIdx + 1) = i := setAt_same _ _ _
    have hnn : c1.lastIdx + 1 ∈ (c1.withBlock .cond []).nodes := by
      show _ ∈ c1.nodes ++ [c1.lastIdx + 1]
      simp
    generalize hf2 : setAt first (c1.lastIdx + 1) i = first2 at *
    have hbi2 : (c1.withBlock .cond []).insts (c.lastIdx + 1) = [i] := by
      rw [← hbi]; exact setAt_ne _ _ (J0.ne_new hbn)
    generalize hc2 : c1.withBlock .cond [] = c2 at *
    have hns : c2.src first2 (c1.lastIdx + 1) = .cond i := by
      unfold Cfg.src leavesBy
      rw [hnk, hnf]
    have hnd : c2.dst first2 (c1.lastIdx + 1) = .cond i := by
      unfold Cfg.dst entersBy
      rw [hnk, hnf]
    obtain ⟨b1, b2, b3, _, _⟩ := K1.nodes _ hbn
    have hbd2 : c2.dst first2 (c.lastIdx + 1) = .block i := dst_eq_head (b2.trans hbk) (by rw [hbi2]; rfl)
    obtain ⟨m1, m2, m3, _, _⟩ := K1.nodes cb k1
    have hL1 := hL0.keep K1
    have hp2 : dictGet c2.pending i = none := by rw [← hc2]; exact hp1
    obtain ⟨c3, h5, h6⟩ := py_bind_ok h4
    obtain ⟨c4, h7, h8⟩ := py_bind_ok h6
    obtain ⟨c5, h9, h10⟩ := py_bind_ok h8
    obtain ⟨c6, h11, h12⟩ := py_bind_ok h10
    cases h12
    obtain ⟨e3, J3⟩ := J1.addEdge h5
    subst e3
    obtain ⟨⟨es, e4⟩, J4⟩ := J3.fallThrough l m1 h7
    subst e4
    obtain ⟨⟨es', e5⟩, J5⟩ := J4.fromCond h9
    subst e5
    rw [fromPending_none (by exact hp2)] at h11
    cases h11
    have hent : (lineOf prog l).entry i = .cond i := if_neg hal
    refine ⟨first2, J5.congr (fun x => ?_) (fun x => ?_) (fun x => ?_) (fun x => ?_) fun s t => ?_, b1, hbi2,
      Or.inr ⟨_, _, rfl, hgs, hnn, hns⟩⟩
    · show x ∈ l ++ [i] ↔ (x ∈ l ∨ x ∈ [i]) ∨ x ∈ []
      simp
    · show _ ∨ x = i ↔ ((lineOf prog l).Starts x ∨ [i].head? = some x) ∨ [].head? = some x
      simp [eq_comm]
    · show (lineOf prog (l ++ [i])).Guarded x ↔ ((lineOf prog l).Guarded x ∨ (BlockKind.block = .cond ∧ _)) ∨ (BlockKind.cond = .cond ∧ x = i)
      rw [guarded_snoc]
      constructor
      · rintro (h | h)
        · exact Or.inl (Or.inl h)
        · exact Or.inr ⟨rfl, h.1⟩
      · rintro ((h | h) | h)
        · exact Or.inl h
        · cases h.1
        · exact Or.inr ⟨h.2, hop, hal⟩
    · show _ ↔ ((lineOf prog l).Leaves x ∨ (BlockKind.block = .unknown ∧ _)) ∨ (BlockKind.cond = .unknown ∧ _)
      refine ⟨fun h => Or.inl (Or.inl h), fun h => ?_⟩
      rcases h with (h | h) | h
      · exact h
      · cases h.1
      · cases h.1
    · show (lineOf prog l).Edge s t ∨ NewGroup prog l i s t ↔ (((lineOf prog l).Edge s t ∨
        (s = c2.src first2 (c1.lastIdx + 1) ∧ t = c2.dst first2 (c.lastIdx + 1))) ∨ (t = c2.dst first2 (c1.lastIdx + 1) ∧
        s = c2.src first2 cb ∧ _)) ∨ (t = c2.dst first2 (c1.lastIdx + 1) ∧ ∃ m, last = some m ∧ s = c2.src first2 m)
      rw [hbd2, hns, hnd, m3, k3, hC]
      unfold NewGroup
      rw [hent]
      constructor
      · rintro (h | ⟨_, h | ⟨rfl, x, h, rfl⟩ | h⟩)
        · exact Or.inl (Or.inl (Or.inl h))
        · exact Or.inl (Or.inr h)
        · rcases hL1 with ⟨_, h'⟩ | ⟨n, y, g1, g2, g3, g4⟩
          · rw [h] at h'; cases h'
          · rw [h] at g2
            cases g2
            exact Or.inr ⟨rfl, n, g1, g4.symm⟩
        · exact Or.inl (Or.inl (Or.inr ⟨h.1, h.2.1⟩))
      · rintro (((h | h) | h) | ⟨rfl, m, h, rfl⟩)
        · exact Or.inl h
        · exact Or.inr ⟨hop, Or.inr (Or.inr ⟨h.1, h.2, hal⟩)⟩
        · exact Or.inr ⟨hop, Or.inl h⟩
        · rcases hL1 with ⟨h', _⟩ | ⟨n, y, g1, g2, g3, g4⟩
          · rw [h] at h'; cases h'
          · rw [h] at g1
            cases g1
            exact Or.inr ⟨hop, Or.inr (Or.inl ⟨rfl, y, g2, g4⟩)⟩

/-- The invariant of the loop. -/
def XSt (prog : List CfgInst) (D done : List Nat) (s : CfgSt) : Prop :=
  ∃ first, XInv D first (picOf prog done) s.cfg ∧ s.cb ∈ s.cfg.nodes ∧ s.cfg.src first s.cb = (lineOf prog done).place done ∧
    LastIs first s.cfg ((lineOf prog done).guard done) s.lastNode

theorem src_cond {n x : Nat} (h : c.src first n = .cond x) : c.kind n = .cond ∧ first n = x := by
  unfold Cfg.src leavesBy at h
  cases hk : c.kind n <;> rw [hk] at h <;> cases h
  exact ⟨rfl, rfl⟩

theorem XSt.step {done rest : List Nat} {s s' : CfgSt} {i : Nat} (X : XSt prog D done s) (E : ESt prog D done s) (hs : D.Pairwise (· < ·))
    (hip : i < prog.length) (hD : D = done ++ i :: rest) (h : cfgDefined prog 2 s i (prog[i]?.getD {}) = .ok s') :
    XSt prog D (done ++ [i]) s' := by
  obtain ⟨first, I, hcb, hC, hL⟩ := X
  obtain ⟨_, I', _, _, _, hlc⟩ := E
  have hn : D.Nodup := hs.imp fun h => Nat.ne_of_lt h
  have hid : i ∉ done := by
    rw [hD, List.nodup_append] at hn
    exact fun h => hn.2.2 i h i (by simp) rfl
  have hnl : (done ++ [i]).Nodup := by
    rw [hD, show done ++ i :: rest = (done ++ [i]) ++ rest by simp, List.nodup_append] at hn
    exact hn.1
  have hpend := I'.pend i hid
  have hleave : ¬ (lineOf prog done).Leaves i := fun h => hid h.1
  have hpl := place_snoc prog (done ++ [i]) done i
  have hgu := guard_snoc prog (done ++ [i]) done i
  unfold cfgDefined at h
  split at h
  · rename_i hc
    have ho : (lineOf prog done).opens done i = false := (opens_false_iff prog done done i).2 (hlc ▸ hc)
    rw [if_neg (by rw [show (lineOf prog (done ++ [i])).opens done i = false from ho]; decide)] at hgu
    obtain ⟨d, a, hda⟩ : ∃ d a, done = d ++ [a] := by
      rcases List.eq_nil_or_concat done with rfl | ⟨d, a, h⟩
      · cases ho
      · exact ⟨d, a, by rw [h, List.concat_eq_append]⟩
    have hga : done.getLast? = some a := by rw [hda]; simp
    have hpa : (lineOf prog done).place done = .block a := by
      have h1 := place_snoc prog done d a
      rw [← hda] at h1
      rw [h1, if_neg]
      intro h2
      have h3 : Opens (lineOf prog done).cond (lineOf prog done).branch done.reverse i = false := ho
      rw [hda, List.reverse_append, List.reverse_singleton, List.singleton_append, Opens, Bool.or_eq_false_iff] at h3
      have h4 : ((lineOf prog done).branch a && !(lineOf prog done).opens d a) = false := by rw [hda]; exact h3.2
      rw [h4] at h2
      cases h2
    rw [hpa] at hC
    obtain ⟨hbk, hla⟩ : s.cfg.kind s.cb = .block ∧ (s.cfg.insts s.cb).getLast? = some a := by
      unfold Cfg.src leavesBy at hC
      cases hk : s.cfg.kind s.cb <;> rw [hk] at hC <;> cases hC
      refine ⟨rfl, ?_⟩
      cases hl : (s.cfg.insts s.cb).getLast? with
      | none =>
        rw [List.getLast?_eq_none_iff] at hl
        exact absurd hl (I.full _ hcb hk)
      | some z => rfl
    split at h
    · rename_i hbr
      have hib : (lineOf prog done).branch i = true := hbr
      obtain ⟨b, h1, h2⟩ := py_bind_ok h
      have hb := I.addBlock h1
      subst hb
      obtain ⟨c1, h3, h4⟩ := py_bind_ok h2
      obtain ⟨r, h5, h6⟩ := py_bind_ok h4
      cases h6
      have J0 := I.withBlock (kind := .block) (insts := [i]) (f := first (s.cfg.lastIdx + 1)) (Or.inl ⟨rfl, by simp⟩)
        ⟨done, rest, by rw [hD]; rfl⟩ (by simpa [picOf] using hid) (fun h => by cases h) (fun h => by cases h)
      have K0 := I.keepsBlock .block [i] (first (s.cfg.lastIdx + 1))
      have hff : setAt first (s.cfg.lastIdx + 1) (first (s.cfg.lastIdx + 1)) = first := by
        funext x
        unfold setAt
        split
        · rename_i h; rw [h]
        · rfl
      rw [hff] at J0 K0
      have hbk' : (s.cfg.withBlock .block [i]).kind (s.cfg.lastIdx + 1) = .block := setAt_same _ _ _
      have hbi : (s.cfg.withBlock .block [i]).insts (s.cfg.lastIdx + 1) = [i] := setAt_same _ _ _
      have hbn : s.cfg.lastIdx + 1 ∈ (s.cfg.withBlock .block [i]).nodes := by
        show _ ∈ s.cfg.nodes ++ [s.cfg.lastIdx + 1]
        simp
      have hbd : (s.cfg.withBlock .block [i]).dst first (s.cfg.lastIdx + 1) = .block i := dst_eq_head hbk' (by rw [hbi]; rfl)
      obtain ⟨k1, k2, k3, _, _⟩ := K0.nodes s.cb hcb
      obtain ⟨e1, J1⟩ := J0.addEdge h3
      subst e1
      have J2 := J1.congr (B := { ins := fun x => x ∈ done ++ [i]
                                  heads := fun x => (lineOf prog done).Starts x ∨ x = i
                                  conds := (lineOf prog done).Guarded
                                  unks := (lineOf prog done).Leaves
                                  edge := fun s t => (lineOf prog done).Edge s t ∨ (s = .block a ∧ t = .block i) })
        (fun x => List.mem_append) (fun x => by
          show _ ∨ x = i ↔ (lineOf prog done).Starts x ∨ [i].head? = some x
          simp [eq_comm])
        (fun x => by
          show _ ↔ (lineOf prog done).Guarded x ∨ (BlockKind.block = .cond ∧ _)
          refine ⟨Or.inl, fun h => h.resolve_right fun h => by cases h.1⟩)
        (fun x => by
          show _ ↔ (lineOf prog done).Leaves x ∨ (BlockKind.block = .unknown ∧ _)
          refine ⟨Or.inl, fun h => h.resolve_right fun h => by cases h.1⟩)
        (fun s' t => by
          show _ ↔ (lineOf prog done).Edge s' t ∨ (s' = (s.cfg.withBlock .block [i]).src first s.cb ∧
            t = (s.cfg.withBlock .block [i]).dst first (s.cfg.lastIdx + 1))
          rw [k3, hC, hbd])
      obtain ⟨first', J3, K3, hr⟩ := J2.branchOut hn hD hbn hbi (fun _ => Iff.rfl) hleave hib
        (fun d' a' k r' e1 e2 e3 => Or.inl (by
          rcases e3 with e3 | e3
          · exact .cut e1 e2 e3
          · exact absurd (by rw [e1, ← e3]; simp) hid))
        (fun d' a' k r' e1 e2 => Or.inl ⟨d' ++ [a'], r', by show done = _; rw [e1]; simp, Or.inl e2⟩) (Or.inr rfl) h5
      have K := K0.trans ((XKeeps.edges first (s.cfg.withBlock .block [i]) _).trans K3)
      have J4 := J3.congr (B := picOf prog (done ++ [i])) (fun _ => Iff.rfl)
        (fun x => by
          show (lineOf prog (done ++ [i])).Starts x ↔ ((lineOf prog done).Starts x ∨ x = i) ∨ (_ ∧ x ∈ done ++ [i])
          rw [starts_snoc]
          constructor
          · rintro (h | h | h)
            · exact Or.inl (Or.inl h)
            · exact Or.inl (Or.inr h.1)
            · exact Or.inr ⟨h.2.2, h.1⟩
          · rintro ((h | h) | h)
            · exact Or.inl h
            · exact Or.inr (Or.inl ⟨h, Or.inr hib⟩)
            · exact Or.inr (Or.inr ⟨h.2, hib, h.1⟩))
        (fun x => by
          show (lineOf prog (done ++ [i])).Guarded x ↔ (lineOf prog done).Guarded x
          rw [guarded_snoc]
          refine ⟨fun h => h.resolve_right fun h => (by rw [ho] at h; cases h.2.1), Or.inl⟩)
        (fun x => by
          show (lineOf prog (done ++ [i])).Leaves x ↔ (lineOf prog done).Leaves x ∨ (x = i ∧ _)
          rw [leaves_snoc]
          exact or_congr_right ⟨fun h => ⟨h.1, h.2.2⟩, fun h => ⟨h.1, hib, h.2⟩⟩)
        (fun s' t => by
          show (lineOf prog (done ++ [i])).Edge s' t ↔ ((lineOf prog done).Edge s' t ∨ (s' = .block a ∧ t = .block i)) ∨ _
          rw [edge_snoc hnl (Or.inl hib), or_assoc]
          refine or_congr_right ?_
          constructor
          · rintro (h | h | h)
            · have := h.1
              rw [ho] at this
              cases this
            · obtain ⟨_, _, a', h1, h2⟩ := h
              rw [hga] at h1
              cases h1
              exact Or.inl h2
            · exact Or.inr h
          · rintro (h | h)
            · exact Or.inr (Or.inl ⟨ho, hib, a, hga, h⟩)
            · exact Or.inr (Or.inr h))
      rw [if_pos (by
        rw [show (lineOf prog (done ++ [i])).opens done i = false from ho, show (lineOf prog (done ++ [i])).branch i = true from hib]
        rfl)] at hpl
      have hL' : LastIs first' r.1 ((lineOf prog (done ++ [i])).guard (done ++ [i])) s.lastNode := by
        rw [hgu]
        exact hL.keep K
      rcases hr with ⟨hr, hl⟩ | ⟨n, hr, hnn, hl, hsn⟩
      · rw [if_neg (by rw [show (lineOf prog (done ++ [i])).link i = false from hl]; decide), hga] at hpl
        refine ⟨first', J4, ?_, ?_, hL'⟩
        · show r.2.getD s.cb ∈ r.1.nodes
          rw [hr]
          exact (K.nodes _ hcb).1
        · show r.1.src first' (r.2.getD s.cb) = _
          rw [hr, hpl]
          exact (K.nodes _ hcb).2.2.1.trans hC
      · rw [if_pos (show (lineOf prog (done ++ [i])).link i = true from hl)] at hpl
        refine ⟨first', J4, ?_, ?_, hL'⟩
        · show r.2.getD s.cb ∈ r.1.nodes
          rw [hr]
          exact hnn
        · show r.1.src first' (r.2.getD s.cb) = _
          rw [hr, hpl]
          exact hsn
    · rename_i hbr
      have hib : (lineOf prog done).branch i = false := by
        show (prog[i]?.getD {}).branch = false
        simpa using hbr
      rw [hpend] at h
      cases h
      have J := I.append hn (d := d) (rest := rest) (by rw [hD, hda]; simp) hcb hla hid
      rw [if_neg (by rw [show (lineOf prog (done ++ [i])).branch i = false from hib]; simp)] at hpl
      refine ⟨first, J.congr (fun x => ?_) (fun x => ?_) (fun x => ?_) (fun x => ?_) fun s' t => ?_, hcb, ?_, ?_⟩
      · show x ∈ done ++ [i] ↔ x ∈ done ∨ x = i
        rw [List.mem_append, List.mem_singleton]
      · show (lineOf prog (done ++ [i])).Starts x ↔ (lineOf prog done).Starts x
        rw [starts_snoc]
        refine ⟨fun h => h.resolve_right ?_, Or.inl⟩
        rintro (⟨_, h | h⟩ | ⟨_, h, _⟩)
        · rw [ho] at h; cases h
        · rw [hib] at h; cases h
        · rw [hib] at h; cases h
      · show (lineOf prog (done ++ [i])).Guarded x ↔ (lineOf prog done).Guarded x
        rw [guarded_snoc]
        refine ⟨fun h => h.resolve_right fun h => (by rw [ho] at h; cases h.2.1), Or.inl⟩
      · show (lineOf prog (done ++ [i])).Leaves x ↔ (lineOf prog done).Leaves x
        rw [leaves_snoc]
        refine ⟨fun h => h.resolve_right fun h => (by rw [hib] at h; cases h.2.1), Or.inl⟩
      · exact edge_join hnl hib ho hga s' t
      · rw [hpl]
        refine src_eq_last hbk ?_
        show (setAt s.cfg.insts s.cb (s.cfg.insts s.cb ++ [i]) s.cb).getLast? = _
        rw [setAt_same]
        simp
      · rw [hgu]
        rcases hL with h | ⟨n, x, h1, h2, h3, h4⟩
        · exact Or.inl h
        · obtain ⟨g1, g2⟩ := src_cond h4
          refine Or.inr ⟨n, x, h1, h2, h3, ?_⟩
          unfold Cfg.src leavesBy
          show (match s.cfg.kind n with
            | .root => CfgEnd.root
            | .fin => .fin
            | .block => _
            | .cond => .cond (first n)
            | .unknown => .unknown (first n)) = _
          rw [g1, g2]
  · rename_i hc
    have ho : (lineOf prog done).opens done i = true := (opens_iff prog done done i).2 (hlc ▸ hc)
    obtain ⟨r, h1, h2⟩ := py_bind_ok h
    obtain ⟨first', J, hn', hi', hl'⟩ := I.branchConditional hn hip hD hcb hC hL ho hpend h1
    have hbk := J.isBlock hn' (by rw [hi']; simp : i ∈ _)
    rw [if_neg (by rw [show (lineOf prog (done ++ [i])).opens done i = true from ho]; simp)] at hpl
    have hnp : ∀ s' t, ¬ NewPiece prog done i s' t := fun s' t h => by
      have := h.1
      rw [ho] at this
      cases this
    split at h2
    · rename_i hbr
      have hib : (lineOf prog done).branch i = true := hbr
      obtain ⟨q, h3, h4⟩ := py_bind_ok h2
      cases h4
      obtain ⟨first2, J2, K2, _⟩ := J.branchOut hn hD hn' hi' (fun _ => Iff.rfl) hleave hib
        (fun d' a' k r' e1 e2 e3 => Or.inl (by
          rcases e3 with e3 | e3
          · exact .cut e1 e2 e3
          · exact absurd (by rw [e1, ← e3]; simp) hid))
        (fun d' a' k r' e1 e2 => Or.inl ⟨d' ++ [a'], r', by show done = _; rw [e1]; simp, Or.inl e2⟩) (Or.inr rfl) h3
      obtain ⟨q1, q2, q3, _, _⟩ := K2.nodes _ hn'
      refine ⟨first2, J2.congr (fun _ => Iff.rfl) (fun x => ?_) (fun _ => Iff.rfl) (fun x => ?_) fun s' t => ?_, q1, ?_, hl'.keep K2⟩
      · show (lineOf prog (done ++ [i])).Starts x ↔ ((lineOf prog done).Starts x ∨ x = i) ∨ (_ ∧ x ∈ done ++ [i])
        rw [starts_snoc]
        constructor
        · rintro (h | h | h)
          · exact Or.inl (Or.inl h)
          · exact Or.inl (Or.inr h.1)
          · exact Or.inr ⟨h.2.2, h.1⟩
        · rintro ((h | h) | h)
          · exact Or.inl h
          · exact Or.inr (Or.inl ⟨h, Or.inr hib⟩)
          · exact Or.inr (Or.inr ⟨h.2, hib, h.1⟩)
      · show (lineOf prog (done ++ [i])).Leaves x ↔ (lineOf prog done).Leaves x ∨ (x = i ∧ _)
        rw [leaves_snoc]
        exact or_congr_right ⟨fun h => ⟨h.1, h.2.2⟩, fun h => ⟨h.1, hib, h.2⟩⟩
      · show (lineOf prog (done ++ [i])).Edge s' t ↔ ((lineOf prog done).Edge s' t ∨ NewGroup prog done i s' t) ∨ _
        rw [edge_snoc hnl (Or.inl hib), or_assoc]
        refine or_congr_right (or_congr_right ⟨fun h => h.resolve_left (hnp _ _), Or.inr⟩)
      · rw [hpl]
        exact q3.trans (src_eq_last hbk (by rw [hi']; rfl))
    · rename_i hbr
      have hib : (lineOf prog done).branch i = false := by
        show (prog[i]?.getD {}).branch = false
        simpa using hbr
      cases h2
      refine ⟨first', J.congr (fun _ => Iff.rfl) (fun x => ?_) (fun _ => Iff.rfl) (fun x => ?_) fun s' t => ?_, hn', ?_, hl'⟩
      · show (lineOf prog (done ++ [i])).Starts x ↔ (lineOf prog done).Starts x ∨ x = i
        rw [starts_snoc]
        constructor
        · rintro (h | h | ⟨_, h, _⟩)
          · exact Or.inl h
          · exact Or.inr h.1
          · rw [hib] at h; cases h
        · rintro (h | h)
          · exact Or.inl h
          · exact Or.inr (Or.inl ⟨h, Or.inl ho⟩)
      · show (lineOf prog (done ++ [i])).Leaves x ↔ (lineOf prog done).Leaves x
        rw [leaves_snoc]
        refine ⟨fun h => h.resolve_right fun h => (by rw [hib] at h; cases h.2.1), Or.inl⟩
      · show (lineOf prog (done ++ [i])).Edge s' t ↔ (lineOf prog done).Edge s' t ∨ NewGroup prog done i s' t
        rw [edge_snoc hnl (Or.inr ho)]
        refine or_congr_right ⟨fun h => h.resolve_right ?_, Or.inl⟩
        rintro (h | h)
        · exact hnp _ _ h
        · have := h.1
          rw [hib] at this
          cases this
      · rw [hpl]
        exact src_eq_last hbk (by rw [hi']; rfl)

theorem XSt.loop (hs : D.Pairwise (· < ·)) : ∀ (l done : List Nat) (s s' : CfgSt), D = done ++ definedOf prog l →
    XSt prog D done s → ESt prog D done s → l.foldlM (cfgStep prog 2) s = .ok s' → XSt prog D D s' := by
  intro l
  induction l with
  | nil =>
    intro done s s' hD X _ h
    cases h
    have : D = done := by simpa [definedOf] using hD
    rw [← this] at X
    exact X
  | cons i l ih =>
    intro done s s' hD X E h
    rw [List.foldlM_cons] at h
    obtain ⟨s1, h1, h2⟩ := py_bind_ok h
    unfold cfgStep at h1
    cases hp : prog[i]? with
    | none => rw [hp] at h1; cases h1
    | some info =>
      rw [hp] at h1
      have hget : prog[i]?.getD {} = info := by rw [hp]; rfl
      have hip : i < prog.length := (List.getElem?_eq_some_iff.1 hp).1
      have h1 : (if info.undefined = true then Except.ok s else cfgDefined prog 2 s i info) = .ok s1 := h1
      split at h1
      · rename_i hu
        cases h1
        exact ih done s s' (by rw [hD]; simp [definedOf, hp, hu]) X E h2
      · rename_i hu
        have hd : definedOf prog (i :: l) = i :: definedOf prog l := by simp [definedOf, hp, hu]
        rw [hd] at hD
        rw [← hget] at h1
        exact ih (done ++ [i]) s1 s' (by rw [hD]; simp) (X.step E hs hip hD h1) (E.step hs hip hD h1) h2

theorem edge_nil (s t : CfgEnd) : ¬ (lineOf prog []).Edge s t := by
  have h0 : (lineOf prog []).line = [] := rfl
  intro h
  cases h with
  | flow h1 => rw [h0] at h1; simp at h1
  | skip h1 => rw [h0] at h1; simp at h1
  | holds h1 => obtain ⟨d, r, h, _⟩ := h1; rw [h0] at h; simp at h
  | cut h1 => rw [h0] at h1; simp at h1
  | leave h1 => have := h1.1; rw [h0] at this; cases this
  | away h1 => have := h1.1; rw [h0] at this; cases this
  | jump h1 => rw [h0] at h1; simp at h1

theorem cfgStart_xst : XSt prog D [] { cfg := cfgStart, cb := 1 } := by
  have hi : ∀ n, cfgStart.insts n = [] := fun n => by
    unfold cfgStart setAt
    dsimp only
    split
    · rfl
    · split <;> rfl
  have h12 : ∀ n ∈ cfgStart.nodes, n = 1 ∨ n = 2 := fun n hn => by simpa [cfgStart] using hn
  have k1 : cfgStart.kind 1 = .root := by decide
  have k2 : cfgStart.kind 2 = .fin := by decide
  have hk : ∀ n ∈ cfgStart.nodes, cfgStart.kind n ≠ .cond ∧ cfgStart.kind n ≠ .unknown ∧ cfgStart.kind n ≠ .block := by
    intro n hn
    rcases h12 n hn with rfl | rfl <;> decide
  have hno : ∀ u v, (u, v) ∉ cfgStart.edges := fun u v h => by cases h
  have h0 : (lineOf prog []).line = [] := rfl
  refine ⟨fun _ => 0, ⟨?_, fun u v h => absurd h (hno u v), by decide, ?_, ?_, ⟨by decide, k2⟩, fun n _ _ => hi n,
    fun n hn h => absurd h (hk n hn).2.2, ?_, ?_, ?_, ?_, ?_, ?_, ?_, ?_⟩, by decide, ?_, Or.inl ⟨rfl, rfl⟩⟩
  · intro n hn
    rcases h12 n hn with rfl | rfl <;> decide
  · intro n hn h
    rcases h12 n hn with rfl | rfl
    · rfl
    · rw [k2] at h; cases h
  · intro n hn h
    rcases h12 n hn with rfl | rfl
    · rw [k1] at h; cases h
    · rfl
  · intro n _
    exact ⟨[], D, by rw [hi]; rfl⟩
  · intro x
    refine ⟨fun h => (by cases h), ?_⟩
    rintro ⟨n, _, h⟩
    rw [hi] at h
    cases h
  · intro n _ m _ x h
    rw [hi] at h
    cases h
  · intro x
    constructor
    · rintro ⟨d, r, h, _⟩
      rw [h0] at h
      simp at h
    · rintro ⟨n, _, h⟩
      rw [hi] at h
      cases h
  · intro x
    constructor
    · rintro ⟨d, r, h, _⟩
      rw [h0] at h
      simp at h
    · rintro ⟨n, hn, h, _⟩
      exact absurd h (hk n hn).1
  · intro x
    constructor
    · rintro ⟨h, _⟩
      rw [h0] at h
      cases h
    · rintro ⟨n, hn, h, _⟩
      exact absurd h (hk n hn).2.1
  · rintro n hn m _ _ (h | h)
    · exact absurd h (hk n hn).1
    · exact absurd h (hk n hn).2.1
  · intro s t
    refine ⟨fun h => absurd h (edge_nil s t), ?_⟩
    rintro ⟨u, v, h, _⟩
    exact absurd h (hno u v)
  · show cfgStart.src _ 1 = CfgEnd.root
    unfold Cfg.src leavesBy
    rw [k1]

/-- The whole graph. -/
theorem buildCfg_xinv {count : Int} {c : Cfg} (hne : prog ≠ []) (h : buildCfg prog count = .ok c) :
    let D := definedOf prog (List.range (if count = -1 then prog.length else count.toNat))
    ∃ first, XInv D first { picOf prog D with edge := fun s t => (lineOf prog D).Edge s t ∨ (s = (lineOf prog D).place D ∧ t = .fin) } c := by
  intro D
  unfold buildCfg at h
  rw [if_neg hne] at h
  have h : ((List.range (if count = -1 then prog.length else count.toNat)).foldlM (cfgStep prog 2) { cfg := cfgStart, cb := 1 } >>=
    fun s => s.cfg.needEdge s.cb 2) = .ok c := h
  obtain ⟨s, h1, h2⟩ := py_bind_ok h
  obtain ⟨first, I, hcb, hC, _⟩ := XSt.loop (definedOf_sorted prog _) _ [] _ s rfl cfgStart_xst cfgStart_est h1
  obtain ⟨_, J⟩ := I.needEdge h2
  refine ⟨first, J.congr (fun _ => Iff.rfl) (fun _ => Iff.rfl) (fun _ => Iff.rfl) (fun _ => Iff.rfl) fun s' t => ?_⟩
  show (lineOf prog D).Edge s' t ∨ _ ↔ (lineOf prog D).Edge s' t ∨ (s' = s.cfg.src first s.cb ∧ t = s.cfg.dst first 2)
  rw [hC]
  have : s.cfg.dst first 2 = .fin := by
    unfold Cfg.dst entersBy
    rw [I.fin.2]
  rw [this]

/-! ### Reading it off -/

theorem XInv.dst_inj (I : XInv D first A c) {n m : Nat} (hn : n ∈ c.nodes) (hm : m ∈ c.nodes) (h : c.dst first n = c.dst first m) : n = m := by
  unfold Cfg.dst entersBy at h
  cases hk : c.kind n <;> cases hk' : c.kind m <;> rw [hk, hk'] at h <;> simp only [CfgEnd.block.injEq, CfgEnd.cond.injEq, CfgEnd.unknown.injEq,
    reduceCtorEq] at h
  case root.root => exact (I.one n hn hk).trans (I.one m hm hk').symm
  case fin.fin => exact (I.two n hn hk).trans (I.two m hm hk').symm
  case block.block =>
    cases h1 : c.insts n with
    | nil => exact absurd h1 (I.full n hn hk)
    | cons x l =>
      cases h2 : c.insts m with
      | nil => exact absurd h2 (I.full m hm hk')
      | cons y l' =>
        rw [h1, h2] at h
        have h : x = y := h
        exact I.disj n hn m hm x (by rw [h1]; simp) (by rw [h2, h]; simp)
  case cond.cond => exact I.inj n hn m hm (hk.trans hk'.symm) (Or.inl hk) h
  case unknown.unknown => exact I.inj n hn m hm (hk.trans hk'.symm) (Or.inr hk) h

theorem XInv.src_inj (I : XInv D first A c) {n m : Nat} (hn : n ∈ c.nodes) (hm : m ∈ c.nodes) (h : c.src first n = c.src first m) : n = m := by
  unfold Cfg.src leavesBy at h
  cases hk : c.kind n <;> cases hk' : c.kind m <;> rw [hk, hk'] at h <;> simp only [CfgEnd.block.injEq, CfgEnd.cond.injEq, CfgEnd.unknown.injEq,
    reduceCtorEq] at h
  case root.root => exact (I.one n hn hk).trans (I.one m hm hk').symm
  case fin.fin => exact (I.two n hn hk).trans (I.two m hm hk').symm
  case block.block =>
    cases h1 : (c.insts n).getLast? with
    | none => exact absurd (List.getLast?_eq_none_iff.1 h1) (I.full n hn hk)
    | some x =>
      cases h2 : (c.insts m).getLast? with
      | none => exact absurd (List.getLast?_eq_none_iff.1 h2) (I.full m hm hk')
      | some y =>
        rw [h1, h2] at h
        have h : x = y := h
        exact I.disj n hn m hm x (List.mem_of_getLast? h1) (by rw [h]; exact List.mem_of_getLast? h2)
  case cond.cond => exact I.inj n hn m hm (hk.trans hk'.symm) (Or.inl hk) h
  case unknown.unknown => exact I.inj n hn m hm (hk.trans hk'.symm) (Or.inr hk) h

theorem XInv.edge_iff (I : XInv D first A c) {u v : Nat} (hu : u ∈ c.nodes) (hv : v ∈ c.nodes) :
    (u, v) ∈ c.edges ↔ A.edge (c.src first u) (c.dst first v) := by
  rw [I.edge]
  refine ⟨fun h => ⟨u, v, h, rfl, rfl⟩, ?_⟩
  rintro ⟨u', v', h, h1, h2⟩
  have := I.ends u' v' h
  rw [I.src_inj this.1 hu h1, I.dst_inj this.2 hv h2] at h
  exact h

/-- Two instructions in a row are in one block unless a block starts with the second. -/
theorem XInv.together (I : XInv D first A c) (hn : D.Nodup) {d r : List Nat} {a k : Nat} (hD : D = d ++ a :: k :: r) (hk : A.ins k) :
    (∃ n ∈ c.nodes, ∃ p q, c.insts n = p ++ a :: k :: q) ↔ ¬ A.heads k := by
  rw [I.heads]
  constructor
  · rintro ⟨n, hn', p, q, h⟩ ⟨m, hm, h'⟩
    have := I.disj n hn' m hm k (by rw [h]; simp) (List.mem_of_mem_head? h')
    subst this
    obtain ⟨e, f, hef⟩ := I.contig n hn'
    have hnn : (c.insts n).Nodup := by
      rw [hef, List.nodup_append, List.nodup_append] at hn
      exact hn.2.1.1
    cases p with
    | nil =>
      rw [h] at h'
      cases h'
      rw [h] at hnn
      simp at hnn
    | cons x p =>
      rw [h] at h'
      cases h'
      rw [h] at hnn
      simp at hnn
  · intro h
    obtain ⟨n, hn', hkn⟩ := (I.ins k).1 hk
    obtain ⟨p, q, hpq⟩ := List.append_of_mem hkn
    obtain ⟨e, f, hef⟩ := I.contig n hn'
    rcases List.eq_nil_or_concat p with rfl | ⟨p', x, rfl⟩
    · exact absurd ⟨n, hn', by rw [hpq]; rfl⟩ h
    · rw [List.concat_eq_append] at hpq
      have h1 : (d ++ [a]) ++ k :: r = (e ++ p' ++ [x]) ++ k :: (q ++ f) := by
        rw [show (d ++ [a]) ++ k :: r = d ++ a :: k :: r by simp, ← hD, hef, hpq]
        simp
      have h2 : ((d ++ [a]) ++ k :: r).Nodup := by
        rw [show (d ++ [a]) ++ k :: r = d ++ a :: k :: r by simp, ← hD]
        exact hn
      obtain ⟨h3, _⟩ := nodup_cut h2 h1
      obtain ⟨_, h4⟩ := List.append_inj' h3 rfl
      cases h4
      exact ⟨n, hn', p', q, by rw [hpq]; simp⟩

theorem runsTo_exists {d r : List Nat} {i : Nat} (hD : D = d ++ i :: r) : ∃ j, (lineOf prog D).RunsTo i j := by
  have key : ∀ (r m : List Nat), D = d ++ i :: (m ++ r) →
      (∀ m1 x m2, m = m1 ++ x :: m2 → (lineOf prog D).branch x = false ∧ (lineOf prog D).opens (d ++ i :: m1) x = false) →
      ∃ j, (lineOf prog D).RunsTo i j := by
    intro r
    induction r with
    | nil =>
      intro m h1 h2
      exact ⟨(i :: m).getLast (by simp), d, m, [], h1, List.getLast?_eq_some_getLast _, h2, fun x r' h => by cases h⟩
    | cons x r ih =>
      intro m h1 h2
      by_cases hx : (lineOf prog D).branch x = true ∨ (lineOf prog D).opens (d ++ i :: m) x = true
      · refine ⟨(i :: m).getLast (by simp), d, m, x :: r, h1, List.getLast?_eq_some_getLast _, h2, fun y r' h => ?_⟩
        cases h
        exact hx
      · rw [not_or, Bool.not_eq_true, Bool.not_eq_true] at hx
        refine ih (m ++ [x]) (by rw [h1]; simp) fun m1 y m2 h => ?_
        rcases snoc_cases h with ⟨_, rfl, rfl⟩ | ⟨m3, _, h⟩
        · exact hx
        · exact h2 m1 y m3 h
  exact key r [] hD fun m1 x m2 h => by simp at h

end

theorem guard_run (L : Line) {d m : List Nat} {x : Nat} (h1 : L.opens d x = true) (h2 : L.cond x ≠ condAlways)
    (hm : ∀ m1 y m2, m = m1 ++ y :: m2 → L.opens (d ++ x :: m1) y = false) : L.guard (d ++ x :: m) = some x := by
  have key : ∀ n (m : List Nat), m.length = n → (∀ m1 y m2, m = m1 ++ y :: m2 → L.opens (d ++ x :: m1) y = false) →
      L.guard (d ++ x :: m) = some x := by
    intro n
    induction n with
    | zero =>
      intro m hl _
      rw [List.length_eq_zero_iff.1 hl]
      show guardRev _ _ (d ++ [x]).reverse = _
      rw [List.reverse_append, List.reverse_singleton, List.singleton_append, guardRev]
      rw [if_pos (show Opens L.cond L.branch d.reverse x = true from h1), if_neg h2]
    | succ n ih =>
      intro m hl hm
      rcases List.eq_nil_or_concat m with rfl | ⟨m', y, rfl⟩
      · cases hl
      · rw [List.concat_eq_append] at hl hm ⊢
        have h3 := ih m' (by simpa using hl) fun m1 z m2 h => hm m1 z (m2 ++ [y]) (by rw [h]; simp)
        have h4 := hm m' y [] rfl
        show guardRev _ _ (d ++ x :: (m' ++ [y])).reverse = _
        rw [show d ++ x :: (m' ++ [y]) = (d ++ x :: m') ++ [y] by simp, List.reverse_append, List.reverse_singleton,
          List.singleton_append, guardRev,
          if_neg (show ¬ Opens L.cond L.branch (d ++ x :: m').reverse y = true by
            rw [show Opens L.cond L.branch (d ++ x :: m').reverse y = false from h4]; decide)]
        exact h3
  exact key m.length m rfl hm

theorem nodeOfEntry {c : Cfg} {first : Nat → Nat} {D : List Nat} {A : Picture} (I : XInv D first A c) {L : Line} {k v : Nat}
    (hv : v ∈ c.nodes) (h : c.dst first v = L.entry k) : Enters c.kind c.insts first v k := by
  unfold Line.entry at h
  unfold Cfg.dst entersBy at h
  by_cases hal : L.cond k = condAlways
  · rw [if_pos hal] at h
    cases hk : c.kind v <;> rw [hk] at h <;> cases h
    refine Or.inl ⟨hk, ?_⟩
    cases hi : c.insts v with
    | nil => exact absurd hi (I.full v hv hk)
    | cons x l => rfl
  · rw [if_neg hal] at h
    cases hk : c.kind v <;> rw [hk] at h <;> cases h
    exact Or.inr ⟨hk, rfl⟩

theorem src_block {c : Cfg} {first : Nat → Nat} {D : List Nat} {A : Picture} (I : XInv D first A c) {j u : Nat} (hu : u ∈ c.nodes)
    (h : c.src first u = .block j) : c.kind u = .block ∧ (c.insts u).getLast? = some j := by
  unfold Cfg.src leavesBy at h
  cases hk : c.kind u <;> rw [hk] at h <;> cases h
  refine ⟨rfl, ?_⟩
  cases hi : (c.insts u).getLast? with
  | none => exact absurd (List.getLast?_eq_none_iff.1 hi) (I.full u hu hk)
  | some x => rfl

theorem dst_block {c : Cfg} {first : Nat → Nat} {D : List Nat} {A : Picture} (I : XInv D first A c) {j u : Nat} (hu : u ∈ c.nodes)
    (h : c.dst first u = .block j) : c.kind u = .block ∧ (c.insts u).head? = some j := by
  unfold Cfg.dst entersBy at h
  cases hk : c.kind u <;> rw [hk] at h <;> cases h
  refine ⟨rfl, ?_⟩
  cases hi : c.insts u with
  | nil => exact absurd hi (I.full u hu hk)
  | cons x l => rfl

end Verif
