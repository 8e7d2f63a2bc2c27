import Verif.Proof.CfgEdges

/-! # The loop, and what the edges stand for -/

namespace Verif

open Spec

section
variable {prog : List CfgInst} {D done : List Nat} {first : Nat → Nat} {ex : List Nat} {c : Cfg}

theorem py_bind_ok {α β : Type} {x : Py α} {f : α → Py β} {b : β} (h : (x >>= f) = .ok b) : ∃ a, x = .ok a ∧ f a = .ok b := by
  cases x with
  | error e => cases h
  | ok a => exact ⟨a, rfl, h⟩

theorem EInv.head_block (I : EInv prog D done first ex c) {n i : Nat} (hn : n ∈ c.nodes) (hi : i ∈ c.insts n) :
    c.kind n = .block := by
  by_contra h
  rw [I.hollow n hn h] at hi
  cases hi

theorem run_self {i : Nat} {d r : List Nat} (hD : D = d ++ i :: r) : (lineOf prog D).Run i i :=
  ⟨d, [], r, hD, rfl, fun x hx => by cases hx⟩

theorem EInv.splitNode (I : EInv prog D done first ex c) {split branch i t : Nat} {c' : Cfg} {d r : List Nat}
    (hD : D = d ++ i :: r) (hle : ∀ x ∈ done, x ≤ i) (hbn : branch ∈ c.nodes) (hbi : c.insts branch = [i])
    (hib : (prog[i]?.getD {}).branch = true) (htt : (prog[i]?.getD {}).target = some t) (hs : split ∈ c.nodes)
    (h : c.splitNode split branch t = .ok c') : EInv prog D done first ex c' ∧ EKeeps c c' := by
  unfold Cfg.splitNode at h
  split at h
  · rename_i ht
    have hsk := I.head_block hs ht
    have hbk := I.head_block hbn (by rw [hbi]; simp : i ∈ c.insts branch)
    have hidx : (c.insts split).idxOf t < (c.insts split).length := List.idxOf_lt_length_of_mem ht
    have hhead : ((c.insts split).drop ((c.insts split).idxOf t)).head? = some t := by
      rw [List.head?_drop, List.getElem?_eq_getElem hidx, List.getElem_idxOf]
    have htd := hle t (I.sub split hs t ht)
    have h : ((if 0 < (c.insts split).idxOf t then c.splitUp split ((c.insts split).idxOf t) else .ok c) >>=
        fun c => c.addEdge branch split) = .ok c' := by
      rw [← h]
      show _ = (if 0 < (c.insts split).idxOf t then _ else _)
      split <;> rfl
    obtain ⟨c1, h1, h2⟩ := py_bind_ok h
    have key : EInv prog D done first ex c1 ∧ EKeeps c c1 ∧ (c1.insts split).head? = some t := by
      split at h1
      · rename_i h0
        obtain ⟨k1, k2, k3⟩ := I.splitUp hs hsk h0 hidx h1
        exact ⟨k1, k2, by rw [k3]; exact hhead⟩
      · rename_i h0
        cases h1
        have : (c.insts split).idxOf t = 0 := by omega
        rw [this] at hhead
        exact ⟨I, EKeeps.refl c, hhead⟩
    obtain ⟨J, K, hh⟩ := key
    obtain ⟨b1, b2, b3⟩ := K.nodes branch hbn
    obtain ⟨s1, s2, _⟩ := K.nodes split hs
    obtain ⟨e, J'⟩ := J.addEdge h2 (.jump (i := i) (j := i) (k := t) (b2.trans hbk) (by rw [b3, hbi]; rfl) (run_self hD) hib htt htd
      (s2.trans hsk) hh)
    subst e
    exact ⟨J', ⟨K.nodes⟩⟩
  · cases h

theorem EInv.branchOut (I : EInv prog D done first ex c) {branch i : Nat} {d r : List Nat} {q : Cfg × Option Nat}
    (hD : D = d ++ i :: r) (hid : i ∈ done) (hle : ∀ x ∈ done, x ≤ i) (hbn : branch ∈ c.nodes) (hbi : c.insts branch = [i])
    (hib : (prog[i]?.getD {}).branch = true) (h : c.branchOut prog branch i 2 = .ok q) :
    ∃ first', EInv prog D done first' ex q.1 ∧ EKeeps c q.1 ∧ (∀ n ∈ c.nodes, first' n = first n) ∧
      (q.2 = none → (prog[i]?.getD {}).link = false) ∧
      ∀ n, q.2 = some n → n ∈ q.1.nodes ∧ (prog[i]?.getD {}).link = true ∧
        ((q.1.kind n = .unknown ∧ first' n = i) ∨ (q.1.kind n = .block ∧ (q.1.insts n).getLast? = some i)) := by
  have hbk := I.head_block hbn (by rw [hbi]; simp : i ∈ c.insts branch)
  unfold Cfg.branchOut at h
  cases htt : (prog[i]?.getD {}).target with
  | none =>
    simp only [htt] at h
    obtain ⟨p, h1, h2⟩ := py_bind_ok h
    unfold Cfg.toUnknown at h1
    obtain ⟨b, h3, h4⟩ := py_bind_ok h1
    have hb := I.addBlock h3
    subst hb
    obtain ⟨c1, h5, h6⟩ := py_bind_ok h4
    obtain ⟨c2, h7, h8⟩ := py_bind_ok h6
    cases h8
    cases h2
    have J := I.withBlock (kind := .unknown) (insts := []) (done' := done) (f := i) (fun _ h => h) (by simp) rfl (fun _ => rfl)
      ⟨d, i :: r, by rw [hD]; rfl⟩ (fun _ => hid) (fun h => by cases h)
    have hnk : (c.withBlock .unknown []).kind (c.lastIdx + 1) = .unknown := setAt_same _ _ _
    have hnf : setAt first (c.lastIdx + 1) i (c.lastIdx + 1) = i := setAt_same _ _ _
    have hnn : c.lastIdx + 1 ∈ (c.withBlock .unknown []).nodes := by
      show _ ∈ c.nodes ++ [c.lastIdx + 1]
      simp
    have K1 : EKeeps c (c.withBlock .unknown []) := ⟨fun n hn => ⟨by show _ ∈ c.nodes ++ [c.lastIdx + 1]; simp [hn],
      setAt_ne _ _ (I.ne_new hn), by show (setAt c.insts (c.lastIdx + 1) [] n).getLast? = _; rw [setAt_ne _ _ (I.ne_new hn)]⟩⟩
    obtain ⟨g1, g2, g3⟩ := K1.nodes branch hbn
    obtain ⟨e1, J1⟩ := J.addEdge h5 (.leave (j := i) (g2.trans hbk) hnk (by rw [hnf]; exact hib) (by rw [hnf]; exact htt)
      (by rw [g3, hbi]; rfl) (by rw [hnf]; exact run_self hD))
    subst e1
    obtain ⟨e2, J2⟩ := J1.addEdge h7 (.away hnk ((K1.nodes 2 I.two.1).2.1.trans I.two.2))
    subst e2
    refine ⟨_, ⟨J2.bound, J2.ends, J2.nodup, J2.two, J2.sub, J2.hollow, J2.contig, J2.inner, J2.fst, J2.pend, J2.edge, J2.guard, ?_⟩,
      ⟨K1.nodes⟩, fun n hn => setAt_ne _ _ (I.ne_new hn), ?_, ?_⟩
    · intro n hn he hk
      refine J2.linked n hn ?_ hk
      intro h
      rcases List.mem_cons.1 h with rfl | h
      · exact absurd (hnk.symm.trans hk) (by decide)
      · exact he h
    · intro h
      cases hl : (prog[i]?.getD {}).link with
      | false => rfl
      | true => simp [hl] at h
    · intro n h
      cases hl : (prog[i]?.getD {}).link with
      | false => simp [hl] at h
      | true =>
        simp only [hl, if_true] at h
        cases h
        exact ⟨hnn, rfl, Or.inl ⟨hnk, hnf⟩⟩
  | some t =>
    simp only [htt] at h
    obtain ⟨c1, h1, h2⟩ := py_bind_ok h
    cases h2
    unfold Cfg.toInst at h1
    have key : EInv prog D done first ex c1 ∧ EKeeps c c1 := by
      cases hw : c.nodeWith t with
      | none =>
        rw [hw] at h1
        cases h1
        have hp : ∀ k, k ≠ i → dictGet c.pending k = none → dictGet (c.addPending i branch).pending k = none := by
          intro k hk h
          unfold Cfg.addPending
          show dictGet (dictSet c.pending i _) k = none
          rw [dictGet_dictSet, if_neg (Ne.symm hk)]
          exact h
        refine ⟨I.setPending fun k hk => hp k (by rintro rfl; exact hk hid) (I.pend k hk), ⟨fun _ hn => ⟨hn, rfl, rfl⟩⟩⟩
      | some n =>
        rw [hw] at h1
        simp only at h1
        split at h1
        · cases h1
        · exact I.splitNode hD hle hbn hbi hib htt (nodeWith_some hw).1 h1
    obtain ⟨J, K⟩ := key
    obtain ⟨g1, g2, g3⟩ := K.nodes branch hbn
    refine ⟨first, J, K, fun _ _ => rfl, ?_, ?_⟩
    · intro h
      cases hl : (prog[i]?.getD {}).link with
      | false => rfl
      | true => simp [hl] at h
    · intro n h
      cases hl : (prog[i]?.getD {}).link with
      | false => simp [hl] at h
      | true =>
        simp only [hl, if_true] at h
        cases h
        exact ⟨g1, rfl, Or.inr ⟨g2.trans hbk, by rw [g3, hbi]; rfl⟩⟩

/-- What the current block is. -/
inductive CbIs (prog : List CfgInst) (c : Cfg) (first : Nat → Nat) (cb : Nat) (lastCond : Option Nat) : List Nat → Prop
  | root : c.kind cb = .root → CbIs prog c first cb lastCond []
  | here {d : List Nat} {a : Nat} : lastCond ≠ none → c.kind cb = .block → (c.insts cb).getLast? = some a →
      CbIs prog c first cb lastCond (d ++ [a])
  | before {d : List Nat} {a b : Nat} : lastCond = none → c.kind cb = .block → (c.insts cb).getLast? = some a →
      (prog[b]?.getD {}).branch = true → (prog[b]?.getD {}).link = false → (prog[b]?.getD {}).cond = (prog[a]?.getD {}).cond →
      CbIs prog c first cb lastCond (d ++ [a, b])
  | away {d : List Nat} {b : Nat} : lastCond = none → c.kind cb = .unknown → first cb = b → (prog[b]?.getD {}).link = true →
      CbIs prog c first cb lastCond (d ++ [b])
  | call {d : List Nat} {b : Nat} : lastCond = none → c.kind cb = .block → (c.insts cb).getLast? = some b →
      (prog[b]?.getD {}).branch = true → (prog[b]?.getD {}).link = true → CbIs prog c first cb lastCond (d ++ [b])

theorem lastIsBranch_eq {n a : Nat} (h : (c.insts n).getLast? = some a) : c.lastIsBranch prog n = (prog[a]?.getD {}).branch := by
  unfold Cfg.lastIsBranch
  rw [h]
  show ((prog[a]?).map (·.branch)).getD false = _
  cases prog[a]? <;> rfl

/-- The edge to the next instruction unless the current block ends with a branch. -/
theorem CbIs.edge {cb i v : Nat} {lastCond : Option Nat} {rest : List Nat} (h : CbIs prog c first cb lastCond done)
    (hD : D = done ++ i :: rest) (hb : c.lastIsBranch prog cb = false) (hv : Enters c.kind c.insts first v i) :
    EdgeMeans (lineOf prog D) c.kind c.insts first cb v := by
  cases h with
  | root hk => exact .start (k := i) (r := rest) hk hD hv
  | here h1 h2 h3 =>
    rw [lastIsBranch_eq h3] at hb
    refine .next (k := i) (r := rest) h2 h3 (by show D = _; rw [hD]; simp; rfl) (fun h => ?_) hv
    exact absurd (hb.symm.trans h) (by decide)
  | before h1 h2 h3 h4 h5 h6 =>
    rw [lastIsBranch_eq h3] at hb
    exact .over (k := i) (r := rest) h2 h3 (by show D = _; rw [hD]; simp; rfl) hb h4 h5 h6 hv
  | away h1 h2 h3 h4 =>
    subst h3
    exact .back (k := i) (r := rest) h2 h4 (by show D = _; rw [hD]; simp; rfl) hv
  | call h1 h2 h3 h4 h5 =>
    rw [lastIsBranch_eq h3, h4] at hb
    cases hb

/-- The edge to the end. -/
theorem CbIs.last {cb v : Nat} {lastCond : Option Nat} (h : CbIs prog c first cb lastCond D) (hv : c.kind v = .fin) :
    EdgeMeans (lineOf prog D) c.kind c.insts first cb v := by
  cases h with
  | root hk => exact .empty hk hv rfl
  | here h1 h2 h3 => exact .stop h2 hv h3 rfl
  | before h1 h2 h3 h4 h5 h6 => exact .stopOver h2 hv h3 rfl h4 h5 h6
  | away h1 h2 h3 h4 => exact .away h2 hv
  | call h1 h2 h3 h4 h5 => exact .stop h2 hv h3 rfl

theorem CbIs.congr {c' : Cfg} {first' : Nat → Nat} {cb : Nat} {lastCond : Option Nat} (hk : c'.kind cb = c.kind cb)
    (hl : (c'.insts cb).getLast? = (c.insts cb).getLast?) (hf : first' cb = first cb)
    (h : CbIs prog c first cb lastCond done) : CbIs prog c' first' cb lastCond done := by
  cases h with
  | root h => exact .root (hk.trans h)
  | here h1 h2 h3 => exact .here h1 (hk.trans h2) (hl.trans h3)
  | before h1 h2 h3 h4 h5 h6 => exact .before h1 (hk.trans h2) (hl.trans h3) h4 h5 h6
  | away h1 h2 h3 h4 => exact .away h1 (hk.trans h2) (hf.trans h3) h4
  | call h1 h2 h3 h4 h5 => exact .call h1 (hk.trans h2) (hl.trans h3) h4 h5

/-- What the last conditional node is. -/
def LnIs (prog : List CfgInst) (D : List Nat) (c : Cfg) (first : Nat → Nat) (done : List Nat) (last : Option Nat) : Prop :=
  ∀ l, last = some l → l ∈ c.nodes ∧ c.kind l = .cond ∧ ∃ d m, done = d ++ first l :: m ∧
    ∀ m1 x m2, m = m1 ++ x :: m2 → (lineOf prog D).opens (d ++ first l :: m1) x = false

/-- An edge from the current block unless it ends with a branch. -/
theorem EInv.fallThrough (I : EInv prog D done first ex c) {cb n : Nat} {c' : Cfg} (h : c.fallThrough prog cb n = .ok c')
    (hm : c.lastIsBranch prog cb = false → EdgeMeans (lineOf prog D) c.kind c.insts first cb n) :
    (∃ es, c' = { c with edges := es } ∧ ∀ e ∈ c.edges, e ∈ es) ∧ EInv prog D done first ex c' := by
  unfold Cfg.fallThrough at h
  split at h
  · cases h
    exact ⟨⟨_, rfl, fun e he => he⟩, I⟩
  · rename_i hb
    obtain ⟨e, J⟩ := I.addEdge h (hm (by simpa using hb))
    exact ⟨⟨_, e, fun e he => List.mem_append_left _ he⟩, J⟩

theorem EInv.fromCond (I : EInv prog D done first ex c) {last : Option Nat} {n : Nat} {c' : Cfg} (h : c.fromCond last n = .ok c')
    (hm : ∀ l, last = some l → EdgeMeans (lineOf prog D) c.kind c.insts first l n) :
    (∃ es, c' = { c with edges := es } ∧ ∀ e ∈ c.edges, e ∈ es) ∧ EInv prog D done first ex c' := by
  unfold Cfg.fromCond at h
  cases last with
  | none =>
    cases h
    exact ⟨⟨_, rfl, fun e he => he⟩, I⟩
  | some l => exact I.needEdge h (hm l rfl)

theorem EInv.dropEx {n : Nat} (I : EInv prog D done first (n :: ex) c)
    (h : c.kind n = .cond → ∃ b ∈ c.nodes, c.kind b = .block ∧ (c.insts b).head? = some (first n) ∧ (n, b) ∈ c.edges) :
    EInv prog D done first ex c := by
  refine ⟨I.bound, I.ends, I.nodup, I.two, I.sub, I.hollow, I.contig, I.inner, I.fst, I.pend, I.edge, I.guard, ?_⟩
  intro m hm he hk
  by_cases hmn : m = n
  · subst hmn
    exact h hk
  · exact I.linked m hm (by simp [hmn, he]) hk

theorem keeps_withBlock (I : EInv prog D done first ex c) (kind : BlockKind) (insts : List Nat) : EKeeps c (c.withBlock kind insts) :=
  ⟨fun n hn => ⟨by show _ ∈ c.nodes ++ [c.lastIdx + 1]; simp [hn], setAt_ne _ _ (I.ne_new hn),
    by show (setAt c.insts (c.lastIdx + 1) insts n).getLast? = _; rw [setAt_ne _ _ (I.ne_new hn)]⟩⟩

theorem EInv.branchConditional (I : EInv prog D done first [] c) {i cb : Nat} {last lastCond : Option Nat} {rest : List Nat}
    {q : Cfg × Nat × Option Nat} (hip : i < prog.length) (hD : D = done ++ i :: rest) (hid : i ∉ done) (hcb : cb ∈ c.nodes)
    (hC : CbIs prog c first cb lastCond done) (hL : LnIs prog D c first done last)
    (hop : (lineOf prog D).opens done i = true) (h : c.branchConditional prog i cb last = .ok q) :
    ∃ first', EInv prog D (done ++ [i]) first' [] q.1 ∧ q.2.1 ∈ q.1.nodes ∧ q.1.insts q.2.1 = [i] ∧
      ∀ l, q.2.2 = some l → l ∈ q.1.nodes ∧ q.1.kind l = .cond ∧ first' l = i := by
  unfold Cfg.branchConditional at h
  obtain ⟨b, h1, h2⟩ := py_bind_ok h
  have hb := I.addBlock h1
  subst hb
  have hsub : ∀ x ∈ done, x ∈ done ++ [i] := fun x hx => List.mem_append_left _ hx
  have JA := I.withBlock (kind := .block) (insts := [i]) (done' := done ++ [i]) (f := first (c.lastIdx + 1)) hsub (by simp) rfl
    (fun h => absurd rfl h) ⟨done, rest, hD⟩ (fun h => by rcases h with h | h <;> cases h) (fun h => by cases h)
  have hff : setAt first (c.lastIdx + 1) (first (c.lastIdx + 1)) = first := by
    funext x
    unfold setAt
    split
    · rename_i h; rw [h]
    · rfl
  rw [hff] at JA
  have K0 := keeps_withBlock I .block [i]
  have hbk : (c.withBlock .block [i]).kind (c.lastIdx + 1) = .block := setAt_same _ _ _
  have hbi : (c.withBlock .block [i]).insts (c.lastIdx + 1) = [i] := setAt_same _ _ _
  have hbn : c.lastIdx + 1 ∈ (c.withBlock .block [i]).nodes := by
    show _ ∈ c.nodes ++ [c.lastIdx + 1]
    simp
  have J0 := JA.dropEx fun h => by rw [hbk] at h; cases h
  clear JA
  have hpd : dictGet (c.withBlock .block [i]).pending i = none := I.pend i hid
  have hC1 : CbIs prog (c.withBlock .block [i]) first cb lastCond done :=
    hC.congr (K0.nodes cb hcb).2.1 (K0.nodes cb hcb).2.2 rfl
  have hcb1 := (K0.nodes cb hcb).1
  have hL1 : LnIs prog D (c.withBlock .block [i]) first done last := fun l hl => by
    obtain ⟨g1, g2, g3⟩ := hL l hl
    exact ⟨(K0.nodes l g1).1, (K0.nodes l g1).2.1.trans g2, g3⟩
  have h2 : (if (prog[i]?.map (·.cond)).getD 0 ≠ condAlways then _ else _) = Except.ok q := h2
  generalize hc1 : c.withBlock .block [i] = c1 at *
  generalize hb1 : c.lastIdx + 1 = b at *
  have hlast : ∀ l v, last = some l → ∀ (c2 : Cfg) (f2 : Nat → Nat), c2.kind l = .cond → f2 l = first l →
      Enters c2.kind c2.insts f2 v i → EdgeMeans (lineOf prog D) c2.kind c2.insts f2 l v := by
    intro l v hl c2 f2 hk hf hv
    obtain ⟨_, _, d, m, g3, g4⟩ := hL l hl
    refine .fails (k := i) hk ⟨d, m, rest, ?_, ?_, ?_⟩ hv
    · show D = _
      rw [hD, g3, hf]
      simp
    · intro m1 x m2 hm
      rw [hf]
      exact g4 m1 x m2 hm
    · rw [hf, ← g3]
      exact hop
  split at h2
  · rename_i hcond
    obtain ⟨n, h3, h4⟩ := py_bind_ok h2
    have hn := J0.addBlock h3
    subst hn
    obtain ⟨c3, h5, h6⟩ := py_bind_ok h4
    obtain ⟨c4, h7, h8⟩ := py_bind_ok h6
    obtain ⟨c5, h9, h10⟩ := py_bind_ok h8
    obtain ⟨c6, h11, h12⟩ := py_bind_ok h10
    cases h12
    have hcond' : (prog[i]?.getD {}).cond ≠ condAlways := by
      rw [List.getElem?_eq_getElem hip] at hcond ⊢
      exact hcond
    have J1 := J0.withBlock (kind := .cond) (insts := []) (done' := done ++ [i]) (f := i) (fun _ h => h) (by simp) rfl (fun _ => rfl)
      ⟨done, i :: rest, by rw [hD]; rfl⟩ (fun _ => by simp) (fun _ => ⟨hcond', done, rest, hD, hop⟩)
    have K1 := keeps_withBlock J0 .cond []
    have hnk : (c1.withBlock .cond []).kind (c1.lastIdx + 1) = .cond := setAt_same _ _ _
    have hnf : setAt first (c1.lastIdx + 1) i (c1.lastIdx + 1) = i := setAt_same _ _ _
    have hnn : c1.lastIdx + 1 ∈ (c1.withBlock .cond []).nodes := by
      show _ ∈ c1.nodes ++ [c1.lastIdx + 1]
      simp
    have hbne := J0.ne_new hbn
    have hbk2 : (c1.withBlock .cond []).kind b = .block := (K1.nodes b hbn).2.1.trans hbk
    have hbi2 : (c1.withBlock .cond []).insts b = [i] := (setAt_ne _ _ hbne).trans hbi
    have hfo : ∀ x ∈ c1.nodes, setAt first (c1.lastIdx + 1) i x = first x := fun x hx => setAt_ne _ _ (J0.ne_new hx)
    have hent : Enters (c1.withBlock .cond []).kind (c1.withBlock .cond []).insts (setAt first (c1.lastIdx + 1) i) (c1.lastIdx + 1) i :=
      Or.inr ⟨hnk, hnf⟩
    have hC2 : CbIs prog (c1.withBlock .cond []) (setAt first (c1.lastIdx + 1) i) cb lastCond done :=
      hC1.congr (K1.nodes cb hcb1).2.1 (K1.nodes cb hcb1).2.2 (hfo cb hcb1)
    have hL2 : ∀ l, last = some l → (c1.withBlock .cond []).kind l = .cond ∧ setAt first (c1.lastIdx + 1) i l = first l := fun l hl => by
      obtain ⟨g1, g2, _⟩ := hL1 l hl
      exact ⟨(K1.nodes l g1).2.1.trans g2, hfo l g1⟩
    have hbn2 := (K1.nodes b hbn).1
    have hpd2 : dictGet (c1.withBlock .cond []).pending i = none := hpd
    simp only at h5 h7 h9 h11
    generalize hc2 : c1.withBlock .cond [] = c2 at *
    generalize hf2 : setAt first (c1.lastIdx + 1) i = first2 at *
    generalize hn2 : c1.lastIdx + 1 = n at *
    obtain ⟨e3, J3⟩ := J1.addEdge h5 (.holds hnk (by rw [hnf]; exact Or.inl ⟨hbk2, by rw [hbi2]; rfl⟩))
    subst e3
    obtain ⟨⟨es4, e4, s4⟩, J4⟩ := J3.fallThrough h7 (fun hb => CbIs.edge (c := { c2 with edges := c2.edges ++ [(n, b)] }) (CbIs.congr (c := c2) (first := first2) rfl rfl rfl hC2) hD hb hent)
    subst e4
    obtain ⟨⟨es5, e5, s5⟩, J5⟩ := J4.fromCond h9 (fun l hl => hlast l n hl { c2 with edges := es4 } first2 (hL2 l hl).1 (hL2 l hl).2 hent)
    subst e5
    have e6 : { c2 with edges := es5 } = c6 := by
      unfold Cfg.fromPending at h11
      rw [show dictGet ({ c2 with edges := es5 } : Cfg).pending i = none from hpd2] at h11
      exact Except.ok.inj h11
    subst e6
    refine ⟨first2, J5.dropEx fun _ => ⟨b, hbn2, hbk2, by show (c2.insts b).head? = _; rw [hbi2, hnf]; rfl,
      s5 _ (s4 _ (by simp))⟩, hbn2, hbi2, fun l hl => ?_⟩
    cases hl
    exact ⟨hnn, hnk, hnf⟩
  · obtain ⟨c4, h7, h8⟩ := py_bind_ok h2
    obtain ⟨c5, h9, h10⟩ := py_bind_ok h8
    cases h10
    have hent : Enters c1.kind c1.insts first b i := Or.inl ⟨hbk, by rw [hbi]; rfl⟩
    obtain ⟨⟨es4, e4, s4⟩, J4⟩ := J0.fallThrough h7 (fun hb => hC1.edge hD hb hent)
    subst e4
    obtain ⟨⟨es5, e5, s5⟩, J5⟩ := J4.fromCond h9 (fun l hl => hlast l b hl { c1 with edges := es4 } first (hL1 l hl).2.1 rfl hent)
    subst e5
    exact ⟨first, J5, hbn, hbi, fun l hl => by cases hl⟩

theorem LnIs.keep {c' : Cfg} {first' : Nat → Nat} {last : Option Nat} (K : EKeeps c c') (hf : ∀ n ∈ c.nodes, first' n = first n)
    (h : LnIs prog D c first done last) : LnIs prog D c' first' done last := by
  intro l hl
  obtain ⟨g1, g2, g3⟩ := h l hl
  rw [hf l g1]
  exact ⟨(K.nodes l g1).1, (K.nodes l g1).2.1.trans g2, g3⟩

theorem LnIs.snoc {last : Option Nat} {i : Nat} (h : LnIs prog D c first done last) (ho : (lineOf prog D).opens done i = false) :
    LnIs prog D c first (done ++ [i]) last := by
  intro l hl
  obtain ⟨g1, g2, d, m, g3, g4⟩ := h l hl
  refine ⟨g1, g2, d, m ++ [i], by rw [g3]; simp, ?_⟩
  intro m1 x m2 hm
  rcases List.eq_nil_or_concat m2 with rfl | ⟨m3, y, rfl⟩
  · obtain ⟨e1, e2⟩ := List.append_inj' hm rfl
    cases e2
    rw [← e1, ← g3]
    exact ho
  · have hm : m ++ [i] = (m1 ++ x :: m3) ++ [y] := by rw [hm]; simp
    obtain ⟨e1, _⟩ := List.append_inj' hm rfl
    exact g4 m1 x m3 e1

/-- The invariant of the loop. -/
def ESt (prog : List CfgInst) (D done : List Nat) (s : CfgSt) : Prop :=
  ∃ first, EInv prog D done first [] s.cfg ∧ s.cb ∈ s.cfg.nodes ∧ CbIs prog s.cfg first s.cb s.lastCond done ∧
    LnIs prog D s.cfg first done s.lastNode ∧ s.lastCond = lastCondOf prog done

theorem ESt.step {s s' : CfgSt} {i : Nat} {rest : List Nat} (I : ESt prog D done s) (hs : D.Pairwise (· < ·)) (hip : i < prog.length)
    (hD : D = done ++ i :: rest) (h : cfgDefined prog 2 s i (prog[i]?.getD {}) = .ok s') : ESt prog D (done ++ [i]) s' := by
  obtain ⟨first, I, hcb, hC, hL, hlc⟩ := I
  have hn : D.Nodup := hs.imp fun h => Nat.ne_of_lt h
  have hid : i ∉ done := by
    rw [hD, List.nodup_append] at hn
    exact fun h => hn.2.2 i h i (by simp) rfl
  have hle : ∀ x ∈ done ++ [i], x ≤ i := by
    intro x hx
    rcases List.mem_append.1 hx with hx | hx
    · rw [hD, List.pairwise_append] at hs
      exact Nat.le_of_lt (hs.2.2 x hx i (by simp))
    · rw [List.mem_singleton.1 hx]
  unfold cfgDefined at h
  split at h
  · rename_i hc
    have ho : (lineOf prog D).opens done i = false := (opens_false_iff prog D done i).2 (hlc ▸ hc)
    obtain ⟨d, a, hda, hbk, hla⟩ : ∃ d a, done = d ++ [a] ∧ s.cfg.kind s.cb = .block ∧ (s.cfg.insts s.cb).getLast? = some a := by
      cases hC with
      | root _ => rw [hlc] at hc; cases hc
      | here _ h2 h3 => exact ⟨_, _, rfl, h2, h3⟩
      | before h1 => rw [h1] at hc; cases hc
      | away h1 => rw [h1] at hc; cases hc
      | call h1 => rw [h1] at hc; cases hc
    have hcond : (prog[i]?.getD {}).cond = (prog[a]?.getD {}).cond := by
      rw [hlc, hda, lastCondOf_snoc] at hc
      split at hc
      · cases hc
      · exact (Option.some.inj hc).symm
    split at h
    · rename_i hbr
      obtain ⟨b, h1, h2⟩ := py_bind_ok h
      have hb := I.addBlock h1
      subst hb
      obtain ⟨c1, h3, h4⟩ := py_bind_ok h2
      obtain ⟨r, h5, h6⟩ := py_bind_ok h4
      cases h6
      have JA := I.withBlock (kind := .block) (insts := [i]) (done' := done ++ [i]) (f := first (s.cfg.lastIdx + 1))
        (fun x hx => List.mem_append_left _ hx) (by simp) rfl
        (fun h => absurd rfl h) ⟨done, rest, hD⟩ (fun h => by rcases h with h | h <;> cases h) (fun h => by cases h)
      have hff : setAt first (s.cfg.lastIdx + 1) (first (s.cfg.lastIdx + 1)) = first := by
        funext x
        unfold setAt
        split
        · rename_i h; rw [h]
        · rfl
      rw [hff] at JA
      have K0 := keeps_withBlock I .block [i]
      have hbk' : (s.cfg.withBlock .block [i]).kind (s.cfg.lastIdx + 1) = .block := setAt_same _ _ _
      have hbi : (s.cfg.withBlock .block [i]).insts (s.cfg.lastIdx + 1) = [i] := setAt_same _ _ _
      have hbn : s.cfg.lastIdx + 1 ∈ (s.cfg.withBlock .block [i]).nodes := by
        show _ ∈ s.cfg.nodes ++ [s.cfg.lastIdx + 1]
        simp
      have J0 := JA.dropEx fun h => by rw [hbk'] at h; cases h
      obtain ⟨k1, k2, k3⟩ := K0.nodes s.cb hcb
      obtain ⟨e1, J1⟩ := J0.addEdge h3 (.next (i := a) (k := i) (d := d) (r := rest) (k2.trans hbk) (k3.trans hla)
        (by show D = _; rw [hD, hda]; simp) (fun _ => hda ▸ ho) (Or.inl ⟨hbk', by rw [hbi]; rfl⟩))
      subst e1
      obtain ⟨first', J2, K2, hf, hr0, hr1⟩ := J1.branchOut hD (by simp) hle hbn hbi hbr h5
      obtain ⟨q1, q2, q3⟩ := K2.nodes s.cb k1
      have hlc' : lastCondOf prog (done ++ [i]) = none := by
        rw [lastCondOf_snoc, if_pos ⟨hlc ▸ hc, hbr⟩]
      have hL' : LnIs prog D r.1 first' (done ++ [i]) s.lastNode :=
        ((hL.keep K0 fun _ _ => rfl).snoc ho).keep (EKeeps.trans ⟨fun n hn => ⟨hn, rfl, rfl⟩⟩ K2) hf
      cases hr : r.2 with
      | none =>
        refine ⟨first', J2, q1, ?_, hL', hlc'.symm⟩
        rw [hda, List.append_assoc]
        exact .before rfl (q2.trans (k2.trans hbk)) (q3.trans (k3.trans hla)) hbr (hr0 hr) hcond
      | some n =>
        obtain ⟨n1, n2, n3⟩ := hr1 n hr
        refine ⟨first', J2, n1, ?_, hL', hlc'.symm⟩
        rcases n3 with ⟨n3, n4⟩ | ⟨n3, n4⟩
        · exact .away rfl n3 n4 n2
        · exact .call rfl n3 n4 hbr n2
    · rename_i hbr
      have hbr : (prog[i]?.getD {}).branch = false := by simpa using hbr
      rw [I.pend i hid] at h
      cases h
      refine ⟨first, I.append hn hda hD hcb hbk hla hbr (hlc ▸ hc), hcb, ?_, ?_, ?_⟩
      · refine .here (by rw [hc]; simp) hbk ?_
        show (setAt s.cfg.insts s.cb (s.cfg.insts s.cb ++ [i]) s.cb).getLast? = _
        rw [setAt_same]
        simp
      · exact hL.snoc ho
      · show s.lastCond = _
        rw [lastCondOf_snoc, if_neg (by rw [hbr]; simp), hc]
  · rename_i hc
    have ho : (lineOf prog D).opens done i = true := (opens_iff prog D done i).2 (hlc ▸ hc)
    obtain ⟨r, h1, h2⟩ := py_bind_ok h
    obtain ⟨first', J, hn', hi', hl'⟩ := I.branchConditional hip hD hid hcb hC hL ho h1
    have hbk := J.head_block hn' (by rw [hi']; simp : i ∈ _)
    have hLr : LnIs prog D r.1 first' (done ++ [i]) r.2.2 := by
      intro l hl
      obtain ⟨g1, g2, g3⟩ := hl' l hl
      exact ⟨g1, g2, done, [], by rw [g3], fun m1 x m2 hm => by simp at hm⟩
    have hlc' : some (prog[i]?.getD {}).cond = lastCondOf prog (done ++ [i]) := by
      rw [lastCondOf_snoc, if_neg]
      rintro ⟨h, _⟩
      exact hc (hlc ▸ h)
    split at h2
    · rename_i hbr
      obtain ⟨q, h3, h4⟩ := py_bind_ok h2
      cases h4
      obtain ⟨first2, J2, K2, hf, _, _⟩ := J.branchOut hD (by simp) hle hn' hi' hbr h3
      obtain ⟨q1, q2, q3⟩ := K2.nodes _ hn'
      exact ⟨first2, J2, q1, .here (by simp) (q2.trans hbk) (q3.trans (by rw [hi']; rfl)), hLr.keep K2 hf, hlc'⟩
    · cases h2
      exact ⟨first', J, hn', .here (by simp) hbk (by rw [hi']; rfl), hLr, hlc'⟩

theorem ESt.loop (hs : D.Pairwise (· < ·)) : ∀ (l done : List Nat) (s s' : CfgSt), D = done ++ definedOf prog l →
    ESt prog D done s → l.foldlM (cfgStep prog 2) s = .ok s' → ESt prog D D s' := by
  intro l
  induction l with
  | nil =>
    intro done s s' hD I h
    cases h
    have : D = done := by simpa [definedOf] using hD
    rw [← this] at I
    exact I
  | cons i l ih =>
    intro done s s' hD I h
    rw [List.foldlM_cons] at h
    obtain ⟨s1, h1, h2⟩ := py_bind_ok h
    unfold cfgStep at h1
    cases hp : prog[i]? with
    | none => rw [hp] at h1; cases h1
    | some info =>
      rw [hp] at h1
      have hget : prog[i]?.getD {} = info := by rw [hp]; rfl
      have hip : i < prog.length := (List.getElem?_eq_some_iff.1 hp).1
      have h1 : (if info.undefined = true then Except.ok s else cfgDefined prog 2 s i info) = .ok s1 := h1
      split at h1
      · rename_i hu
        cases h1
        exact ih done s s' (by rw [hD]; simp [definedOf, hp, hu]) I h2
      · rename_i hu
        have hd : definedOf prog (i :: l) = i :: definedOf prog l := by simp [definedOf, hp, hu]
        rw [hd] at hD
        rw [← hget] at h1
        exact ih (done ++ [i]) s1 s' (by rw [hD]; simp) (I.step hs hip hD h1) h2

theorem cfgStart_est : ESt prog D [] { cfg := cfgStart, cb := 1 } := by
  have hi : ∀ n, cfgStart.insts n = [] := fun n => by
    unfold cfgStart setAt
    dsimp only
    split
    · rfl
    · split <;> rfl
  have h12 : ∀ n ∈ cfgStart.nodes, n = 1 ∨ n = 2 := fun n hn => by simpa [cfgStart] using hn
  have k1 : cfgStart.kind 1 = .root := by decide
  have k2 : cfgStart.kind 2 = .fin := by decide
  have hk : ∀ n ∈ cfgStart.nodes, cfgStart.kind n ≠ .cond ∧ cfgStart.kind n ≠ .unknown := by
    intro n hn
    rcases h12 n hn with rfl | rfl <;> decide
  have hno : ∀ u v, (u, v) ∉ cfgStart.edges := fun u v h => by cases h
  refine ⟨fun _ => 0, ⟨?_, fun u v h => absurd h (hno u v), by decide, ⟨by decide, k2⟩, ?_, fun n _ _ => hi n, ?_, ?_, ?_,
    fun _ _ => rfl, fun u v h => absurd h (hno u v), fun n hn h => absurd h (hk n hn).1,
    fun n hn _ h => absurd h (hk n hn).1⟩, by decide, .root k1, fun l hl => absurd hl (by simp), rfl⟩
  · intro n hn
    rcases h12 n hn with rfl | rfl <;> decide
  · intro n _ x hx
    rw [hi] at hx
    cases hx
  · intro n _
    exact ⟨[], D, by rw [hi]; rfl⟩
  · intro n _ x hx
    rw [hi] at hx
    cases hx
  · rintro n hn (h | h)
    · exact absurd h (hk n hn).1
    · exact absurd h (hk n hn).2

/-- The whole graph. -/
theorem buildCfg_einv {count : Int} {c : Cfg} (hne : prog ≠ []) (h : buildCfg prog count = .ok c) :
    ∃ first, EInv prog (definedOf prog (List.range (if count = -1 then prog.length else count.toNat)))
      (definedOf prog (List.range (if count = -1 then prog.length else count.toNat))) first [] c := by
  unfold buildCfg at h
  rw [if_neg hne] at h
  have h : ((List.range (if count = -1 then prog.length else count.toNat)).foldlM (cfgStep prog 2) { cfg := cfgStart, cb := 1 } >>=
    fun s => s.cfg.needEdge s.cb 2) = .ok c := h
  obtain ⟨s, h1, h2⟩ := py_bind_ok h
  obtain ⟨first, I, hcb, hC, _, _⟩ := ESt.loop (definedOf_sorted prog _) _ [] _ s rfl cfgStart_est h1
  exact ⟨first, (I.needEdge h2 (hC.last I.two.2)).2⟩

/-! ### The edges over a branch -/

/-- A branch of the same group without link right after an instruction that is no branch. -/
def SkipAt (prog : List CfgInst) (a b : Nat) : Prop :=
  (prog[a]?.getD {}).branch = false ∧ (prog[b]?.getD {}).branch = true ∧ (prog[b]?.getD {}).link = false ∧
    (prog[b]?.getD {}).cond = (prog[a]?.getD {}).cond

theorem lastCondOf_skip {d : List Nat} {a b : Nat} (h : SkipAt prog a b) : lastCondOf prog (d ++ [a, b]) = none := by
  obtain ⟨h1, h2, _, h4⟩ := h
  have e : d ++ [a, b] = (d ++ [a]) ++ [b] := by simp
  rw [e, lastCondOf_snoc, if_pos ⟨by rw [lastCondOf_snoc, if_neg (by rw [h1]; simp), h4], h2⟩]

theorem CbIs.skip {cb a b : Nat} {d : List Nat} (h : CbIs prog c first cb none (d ++ [a, b])) (hs : SkipAt prog a b) :
    (c.insts cb).getLast? = some a := by
  have e : d ++ [a, b] = (d ++ [a]) ++ [b] := by simp
  generalize hd : d ++ [a, b] = done at h
  cases h with
  | root _ => simp at hd
  | here h1 _ _ => exact absurd rfl h1
  | before h1 h2 h3 _ _ _ =>
    obtain ⟨_, e2⟩ := List.append_inj' hd rfl
    cases e2
    exact h3
  | away h1 h2 h3 h4 =>
    obtain ⟨_, e2⟩ := List.append_inj' (e.symm.trans hd) rfl
    cases e2
    rw [hs.2.2.1] at h4
    cases h4
  | call h1 h2 h3 h4 h5 =>
    obtain ⟨_, e2⟩ := List.append_inj' (e.symm.trans hd) rfl
    cases e2
    rw [hs.2.2.1] at h5
    cases h5

theorem ESt.skipLoop (hs : D.Pairwise (· < ·)) : ∀ (l done order : List Nat) (s : CfgSt), D = done ++ definedOf prog l →
    (∀ i ∈ l, i < prog.length) → CInv prog (fun _ => False) done order s → ESt prog D done s →
    (∀ d a b k q, done = d ++ a :: b :: k :: q → SkipAt prog a b → CfgLinked s.cfg a k) →
    ∃ s' order', l.foldlM (cfgStep prog 2) s = .ok s' ∧ CInv prog (fun _ => False) D order' s' ∧
      ∀ d a b k q, D = d ++ a :: b :: k :: q → SkipAt prog a b → CfgLinked s'.cfg a k := by
  intro l
  induction l with
  | nil =>
    intro done order s h _ I _ hk
    have : D = done := by simpa [definedOf] using h
    subst this
    exact ⟨s, order, rfl, I, hk⟩
  | cons i l ih =>
    intro done order s h hl I E hk
    have hi := hl i (by simp)
    have hget : prog[i]? = some (prog[i]?.getD {}) := by rw [List.getElem?_eq_getElem hi]; rfl
    rw [List.foldlM_cons]
    unfold cfgStep
    by_cases hu : (prog[i]?.getD {}).undefined = true
    · obtain ⟨s', order', e, J⟩ := ih done order s (by rw [h]; simp [definedOf, hu]) (fun j hj => hl j (List.mem_cons_of_mem _ hj)) I E hk
      refine ⟨s', order', ?_, J⟩
      rw [hget]
      show (if (prog[i]?.getD {}).undefined = true then _ else _) >>= _ = _
      rw [if_pos hu]
      exact e
    · have hd : definedOf prog (i :: l) = i :: definedOf prog l := by simp [definedOf, hu]
      rw [hd] at h
      have hlt : ∀ j ∈ done, j < i := fun j hj => by
        rw [h, List.pairwise_append] at hs
        exact hs.2.2 j hj i (by simp)
      have hdn : done.Nodup := by
        have := hs.imp (fun h => Nat.ne_of_lt h)
        rw [h] at this
        exact (List.nodup_append.1 this).1
      obtain ⟨s1, order1, e1, I1, hkeep, hnew⟩ := cfgDefined_ok I hdn hlt (fun d j hdj _ _ _ _ h => h)
      have E1 := E.step hs hi h e1
      obtain ⟨s', order', e, J⟩ := ih (done ++ [i]) order1 s1 (by rw [h]; simp) (fun j hj => hl j (List.mem_cons_of_mem _ hj)) I1 E1 (by
        intro d a b k q hq hsk
        rcases List.eq_nil_or_concat q with rfl | ⟨q', y, rfl⟩
        · have hq : done ++ [i] = (d ++ [a, b]) ++ [k] := by rw [hq]; simp
          obtain ⟨q1, q2⟩ := List.append_inj' hq rfl
          cases q2
          obtain ⟨first, _, _, hC, _, hlc⟩ := E
          have hno : s.lastCond = none := by rw [hlc, q1]; exact lastCondOf_skip hsk
          rw [hno, q1] at hC
          exact hnew (by rw [hno]; simp) a (hC.skip hsk) hsk.1
        · have hq : done ++ [i] = (d ++ a :: b :: k :: q') ++ [y] := by rw [hq]; simp
          obtain ⟨q1, _⟩ := List.append_inj' hq rfl
          exact hkeep d a b (k :: q') k q1 (hk d a b k q' q1 hsk))
      refine ⟨s', order', ?_, J⟩
      rw [hget]
      show (if (prog[i]?.getD {}).undefined = true then _ else _) >>= _ = _
      rw [if_neg hu, e1]
      exact e

theorem buildCfg_skip {count : Int} {c : Cfg} (hne : prog ≠ [])
    (hm : (if count = -1 then prog.length else count.toNat) ≤ prog.length) (h : buildCfg prog count = .ok c) {d q : List Nat} {a b k : Nat}
    (hD : definedOf prog (List.range (if count = -1 then prog.length else count.toNat)) = d ++ a :: b :: k :: q)
    (hs : SkipAt prog a b) : CfgLinked c a k := by
  obtain ⟨s, order, e, I, hk⟩ := ESt.skipLoop (definedOf_sorted prog _)
    (List.range (if count = -1 then prog.length else count.toNat)) [] [] _ rfl
    (fun i hi => by rw [List.mem_range] at hi; omega) (cfgStart_inv prog _) cfgStart_est (fun d a b k q h => by simp at h)
  obtain ⟨es, e2, J, hsub⟩ := I.g.needEdge I.cb.1 I.g.two.1 I.cb.2 (by decide)
  unfold buildCfg at h
  rw [if_neg hne] at h
  have h : ((List.range (if count = -1 then prog.length else count.toNat)).foldlM (cfgStep prog 2) { cfg := cfgStart, cb := 1 } >>=
    fun s => s.cfg.needEdge s.cb 2) = .ok c := h
  rw [e] at h
  have h := e2.symm.trans h
  cases h
  exact CfgLinked.edges I.g hsub (hk d a b k q hD hs)

end

end Verif
