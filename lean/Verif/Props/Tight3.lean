import Verif.Proof.ErrsIn
import Verif.Props.Dot

/-!
# Which errors drawing, reading and scoring raise
-/

namespace Verif

open Spec

/-! ### Drawing and reading (C102, C103, C104) -/

/-- C102: drawing raises nothing but the error for an attribute with the name of a parameter. -/
theorem C102_error {α : Type} (str : α → String) (g : Gr α) (weighted : Bool) {e : Err} (h : writeDot str g weighted = .error e) :
    e = .type := by
  refine (?_ : ErrsIn (· = .type) (writeDot str g weighted)) e h
  have nd : ∀ s a, ErrsIn (· = .type) (mkDotNode s a) := fun s a => errsIn_ite (fun _ => errsIn_err rfl) fun _ => errsIn_ok _
  have ed : ∀ s t a, ErrsIn (· = .type) (mkDotEdge s t a) := fun s t a => errsIn_ite (fun _ => errsIn_err rfl) fun _ => errsIn_ok _
  refine (errsIn_mapM (fun n => nd _ _) _).bind fun ns _ => (errsIn_foldlM (fun s a => ?_) _ _).bind fun _ _ => errsIn_ok _
  exact errsIn_ite (fun _ => errsIn_ok _) fun _ => errsIn_ite (fun _ => errsIn_ok _) fun _ => (ed _ _ _).bind fun _ _ => errsIn_ok _

/-- C102: how the nodes of a built control flow graph are named: by their number, and a block
by its first and last instruction unless there is only one. -/
theorem C102_names (text : Nat → String) {prog : List CfgInst} (count : Int) {c : Cfg} (hne : prog ≠ [])
    (hm : cfgCounter prog count ≤ prog.length) (h : buildCfg prog count = .ok c) {n : Nat} (hn : n ∈ c.nodes) :
    (c.kind n = .root ∧ blockText text c n = toString n ++ "-ROOT") ∨ (c.kind n = .fin ∧ blockText text c n = toString n ++ "-END") ∨
    (c.kind n = .cond ∧ blockText text c n = " <" ++ toString n ++ "> ") ∨
    (c.kind n = .unknown ∧ blockText text c n = toString n ++ "-UNKWN") ∨
    (∃ i, c.insts n = [i] ∧ blockText text c n = toString n ++ "-" ++ text i) ∨
    ∃ i m j, c.insts n = i :: (m ++ [j]) ∧ blockText text c n = toString n ++ "- " ++ text i ++ " ... " ++ text j := by
  obtain ⟨c', order, h', _, _, _, ho, hord, hflat, hemp, _⟩ := cfg_partition hne count hm
  rw [h] at h'
  cases h'
  unfold blockText
  cases hk : c.kind n with
  | root => exact Or.inl ⟨rfl, rfl⟩
  | fin => exact Or.inr (Or.inl ⟨rfl, rfl⟩)
  | cond => exact Or.inr (Or.inr (Or.inl ⟨rfl, rfl⟩))
  | unknown => exact Or.inr (Or.inr (Or.inr (Or.inl ⟨rfl, rfl⟩)))
  | block =>
    refine Or.inr (Or.inr (Or.inr (Or.inr ?_)))
    have hnd : (c.insts n).Nodup := by
      have h1 : (order.flatMap c.insts).Nodup := by
        rw [hflat]
        exact (definedOf_sorted prog _).imp fun h => Nat.ne_of_lt h
      rw [List.nodup_flatMap] at h1
      exact h1.1 n ((hord n).2 ⟨hn, hk⟩)
    cases hi : c.insts n with
    | nil => exact absurd hk ((hemp n hn).1 hi)
    | cons i l =>
      rcases List.eq_nil_or_concat l with rfl | ⟨m, j, rfl⟩
      · exact Or.inl ⟨i, rfl, if_pos rfl⟩
      · rw [List.concat_eq_append] at hi ⊢
        have hij : i ≠ j := by
          rintro rfl
          rw [hi] at hnd
          simp at hnd
        refine Or.inr ⟨i, m, j, rfl, ?_⟩
        have hl : (i :: (m ++ [j])).getLastD 0 = j := by
          rw [← List.cons_append, List.getLastD_eq_getLast?, List.getLast?_concat]
          rfl
        show (if i = (i :: (m ++ [j])).getLastD 0 then _ else _) = _
        rw [hl, if_neg hij]
        rfl

/-- C103: reading raises nothing but the error for what is there already. -/
theorem C103_error (d : DotGraph) {e : Err} (h : readDot d = .error e) : e = .addition := by
  refine (?_ : ErrsIn (· = .addition) (readDot d)) e h
  have add : ∀ (g : Gr String) n, ErrsIn (· = .addition) (g.addNode n) := fun g n =>
    errsIn_ite (fun _ => errsIn_err rfl) fun _ => errsIn_ok _
  have need : ∀ (g : Gr String) n, ErrsIn (· = .addition) (g.needNode n) := fun g n =>
    errsIn_ite (fun _ => errsIn_ok _) fun _ => add g n
  refine (errsIn_foldlM (fun (s : Gr String) (n : DotNode) => (add s n.name).bind fun _ _ => errsIn_ok _) _ _).bind fun g _ => ?_
  refine errsIn_foldlM (fun s a => (need s _).bind fun _ _ => (need _ _).bind fun _ _ => ?_) _ _
  exact ErrsIn.bind (errsIn_ite (fun _ => errsIn_err rfl) fun _ => errsIn_ok _) fun _ _ => errsIn_ok _

/-- C103: a drawing is read exactly if no two of its nodes have the same name and no two of
its lines are the same. -/
theorem C103_exact (d : DotGraph) :
    (∃ g, readDot d = .ok g) ↔ (d.nodes.map (·.name)).Nodup ∧ d.edges.Pairwise (fun a b => ¬ SameLine d.directed a b) := by
  unfold readDot
  constructor
  · rintro ⟨g, h⟩
    obtain ⟨g1, h1, h2⟩ := except_bind_ok h
    obtain ⟨k1, _, k3, k4⟩ := readDot_nodes_nodup _ _ _ h1
    have := (readDot_edges _ _).1 ⟨g, h2⟩
    rw [k4] at this
    exact ⟨k1, this.1⟩
  · rintro ⟨h1, h2⟩
    obtain ⟨g1, e1, e2, e3⟩ := readDot_nodes_ok _ { directed := d.directed } h1 (fun _ _ => by simp)
    rw [e1]
    refine (readDot_edges _ _).2 ⟨?_, fun e _ => ?_⟩
    · rw [e3]
      exact h2
    · rw [e2]
      simp

/-- C103: an edge drawn twice, and one drawn in both directions. -/
example : readDot ⟨true, [⟨"a", []⟩, ⟨"b", []⟩], [⟨"a", "b", []⟩, ⟨"a", "b", []⟩]⟩ = .error .addition ∧
    readDot ⟨false, [⟨"a", []⟩], [⟨"a", "b", []⟩, ⟨"b", "a", []⟩]⟩ = .error .addition := ⟨rfl, rfl⟩
example : ∃ g, readDot ⟨true, [⟨"a", []⟩], [⟨"a", "b", []⟩, ⟨"b", "a", []⟩]⟩ = .ok g := ⟨_, rfl⟩

/-- C104: the errors of reading a hypergraph. -/
theorem C104_error (d : DotGraph) {e : Err} (h : readHyper d = .error e) : e = .addition ∨ e = .key ∨ e = .runtime := by
  refine (?_ : ErrsIn (fun e => e = .addition ∨ e = .key ∨ e = .runtime) (readHyper d)) e h
  refine (errsIn_foldlM (fun s n => errsIn_ite (fun _ => errsIn_ite (fun _ => errsIn_err (Or.inl rfl)) fun _ => errsIn_ok _)
    fun _ => errsIn_ite (fun _ => errsIn_ok _) fun _ => errsIn_ok _) _ _).bind fun h _ => ?_
  refine (errsIn_foldlM (fun s a => ?_) _ _).bind fun _ _ => errsIn_ok _
  unfold readHyperLink
  dsimp only
  split
  · exact errsIn_err (Or.inr (Or.inr rfl))
  · refine ErrsIn.bind ?_ fun _ _ => errsIn_ok _
    exact errsIn_ite (fun _ => errsIn_err (Or.inr (Or.inl rfl))) fun _ => errsIn_ite (fun _ => errsIn_err (Or.inl rfl)) fun _ =>
      errsIn_ite (fun _ => errsIn_err (Or.inr (Or.inl rfl))) fun _ => errsIn_ok _

/-- C104: each of them is raised: for a node that is there twice, a node linked twice, a link
between two things that are no nodes as the first one, and such a link after one of a node
that was linked from its side. -/
theorem C104_errors :
    readHyper ⟨true, [hyperNode "a", hyperNode "a"], []⟩ = .error .addition ∧
    readHyper ⟨true, [hyperNode "a", hyperEdgeNode false 0 "e"], [⟨"e", "a", []⟩, ⟨"e", "a", []⟩]⟩ = .error .addition ∧
    readHyper ⟨true, [hyperNode "a", hyperEdgeNode false 0 "e"], [⟨"e", "b", []⟩]⟩ = .error .runtime ∧
    readHyper ⟨true, [hyperNode "a", hyperEdgeNode false 0 "e"], [⟨"a", "f", []⟩]⟩ = .error .key := ⟨rfl, rfl, rfl, rfl⟩

/-- C104: no link to a node that is not there: the first question answers it. -/
theorem C104_unknown_node {α : Type} [DecidableEq α] (h : Hyper α) {n e : α} (hn : n ∉ h.nodes) : h.link n e = .error .key :=
  if_pos hn

/-! ### Scoring (C38, C85) -/

/-- C38: the errors scoring may raise at all. -/
theorem C38_errors (coll : Collector) (fns : Fns) {addrs : List Int} (prog : List (List (RInst Scored))) (ha : addrs ≠ []) {e : Err}
    (h : recuperate coll fns addrs prog = .error e) : e = .key ∨ e = .zeroDiv ∨ e = .runtime := by
  refine (?_ : ErrsIn (fun e => e = .key ∨ e = .zeroDiv ∨ e = .runtime) (recuperate coll fns addrs prog)) e h
  have dv := errsIn_pyDiv
  have ratio : ∀ {κ : Type} [DecidableEq κ] (n d : List (κ × Nat)) k,
      ErrsIn (fun e => e = .key ∨ e = .zeroDiv ∨ e = .runtime) (ratioOr0 n d k) := by
    intro κ _ n d k
    unfold ratioOr0
    split
    · exact dv _ _
    · exact errsIn_ok _
  have reg : ∀ n d l av, ErrsIn (fun e => e = .key ∨ e = .zeroDiv ∨ e = .runtime) (regMin n d l av) := by
    intro n d l
    induction l with
    | nil => exact fun av => errsIn_ok _
    | cons r rs ih =>
      intro av
      unfold regMin
      split
      · exact (dv _ _).bind fun _ _ => ih _
      · exact errsIn_ok _
  have op : ∀ p f a l, ErrsIn (fun e => e = .key ∨ e = .zeroDiv ∨ e = .runtime) (opProb p f a l) := by
    intro p f a l
    unfold opProb
    split
    · exact errsIn_err (Or.inl rfl)
    · exact (dv _ _).bind fun _ _ => errsIn_ok _
  have pop : ∀ p l a b c q, ErrsIn (fun e => e = .key ∨ e = .zeroDiv ∨ e = .runtime) (popLoop p l a b c q) := by
    intro p l
    induction l with
    | nil => exact fun _ _ _ _ => errsIn_ok _
    | cons r rs ih =>
      intro a b c q
      unfold popLoop
      split
      · exact errsIn_err (Or.inl rfl)
      · exact errsIn_ite (fun _ => errsIn_ok _) fun _ => ih _ _ _ _
  have val : ∀ n a b q, ErrsIn (fun e => e = .key ∨ e = .zeroDiv ∨ e = .runtime) (pushPopValue n a b q) := by
    intro n a b q
    exact (dv _ _).bind fun _ _ => errsIn_ok _
  have pp : ∀ p x a c, ErrsIn (fun e => e = .key ∨ e = .zeroDiv ∨ e = .runtime) (computePushPop p fns x a c) := by
    intro p x a c
    unfold computePushPop
    split
    · exact errsIn_err (Or.inl rfl)
    · refine errsIn_ite (fun _ => ?_) fun _ => errsIn_ite (fun _ => ?_) fun _ => errsIn_ok _
      · split
        · exact (op _ _ _ _).bind fun _ _ => (pop _ _ _ _ _ _).bind fun _ _ => (val _ _ _ _).map
        · exact (val _ _ _ _).map
      · exact (op _ _ _ _).bind fun _ _ => (val _ _ _ _).map
  have br : ∀ x c lo hi, ErrsIn (fun e => e = .key ∨ e = .zeroDiv ∨ e = .runtime) (computeBranch fns x c lo hi) := by
    intro x c lo hi
    unfold computeBranch
    refine errsIn_ite (fun _ => errsIn_ok _) fun _ => ?_
    split
    · exact errsIn_ok _
    · refine errsIn_ite (fun _ => ?_) fun _ => errsIn_ok _
      split
      · exact errsIn_err (Or.inl rfl)
      · exact errsIn_ite (fun _ => errsIn_ok _) fun _ => errsIn_ok _
  have sc : ∀ k a b, ErrsIn (fun e => e = .key ∨ e = .zeroDiv ∨ e = .runtime) (scaled k (pyDiv a b)) := by
    intro k a b
    exact (dv _ _).bind fun _ _ => errsIn_ok _
  have mx : ∀ n k a b k' a' b', ErrsIn (fun e => e = .key ∨ e = .zeroDiv ∨ e = .runtime)
      (maxIf n (scaled k (pyDiv a b)) (scaled k' (pyDiv a' b'))) := by
    intro n k a b k' a' b'
    unfold maxIf
    dsimp only
    split
    · exact (sc _ _ _).bind fun _ _ => (sc _ _ _).bind fun _ _ => errsIn_ok _
    · exact (errsIn_ok _).bind fun _ _ => (sc _ _ _).bind fun _ _ => errsIn_ok _
  have cv : ∀ al a b c d f g i, ErrsIn (fun e => e = .key ∨ e = .zeroDiv ∨ e = .runtime) (cfgValue al a b c d f g i) := by
    intro al a b c d f g i
    unfold cfgValue
    refine errsIn_ite (fun _ => ?_) fun _ => ?_
    · exact errsIn_ite (fun _ => mx _ _ _ _ _ _ _) fun _ => errsIn_ite (fun _ => mx _ _ _ _ _ _ _) fun _ =>
        errsIn_ite (fun _ => mx _ _ _ _ _ _ _) fun _ => errsIn_ok _
    · exact errsIn_ite (fun _ => sc _ _ _) fun _ => errsIn_ite (fun _ => mx _ _ _ _ _ _ _) fun _ =>
        errsIn_ite (fun _ => sc _ _ _) fun _ => errsIn_ok _
  have cl : ∀ v, ErrsIn (fun e => e = .key ∨ e = .zeroDiv ∨ e = .runtime) (cfgClamp v) := fun v =>
    errsIn_ite (fun _ => errsIn_ok _) fun _ => errsIn_ite (fun _ => errsIn_err (Or.inr (Or.inr rfl))) fun _ => errsIn_ok _
  have cc : ∀ p x a, ErrsIn (fun e => e = .key ∨ e = .zeroDiv ∨ e = .runtime) (computeCfg p x a) := by
    intro p x a
    exact (cv _ _ _ _ _ _ _ _).bind fun _ _ => cl _
  have cs : ∀ v, ErrsIn (fun e => e = .key ∨ e = .zeroDiv ∨ e = .runtime) (checkScore v) := fun v =>
    errsIn_ite (fun _ => errsIn_err (Or.inr (Or.inr rfl))) fun _ => errsIn_ok _
  have one : ∀ p cp pl x, ErrsIn (fun e => e = .key ∨ e = .zeroDiv ∨ e = .runtime) (scoreOne coll fns p cp pl x) := by
    intro p cp pl x
    refine ErrsIn.bind ?_ fun d _ => ErrsIn.bind (errsIn_ite (fun _ => cs _) fun _ => errsIn_ok _) fun _ _ => errsIn_ok _
    refine errsIn_ite (fun _ => errsIn_ok _) fun _ => ?_
    refine (ratio _ _ _).bind fun _ _ => (ratio _ _ _).bind fun _ _ => ?_
    refine ErrsIn.bind (errsIn_ite (fun _ => errsIn_ok _) fun _ => (reg _ _ _ _).bind fun _ _ => errsIn_ok _) fun _ _ => ?_
    refine (pp _ _ _ _).bind fun _ _ => (br _ _ _ _).bind fun _ _ => ?_
    refine errsIn_ite (fun _ => errsIn_ok _) fun _ => (cc _ _ _).bind fun _ _ => errsIn_ok _
  have loop : ∀ p cp lo hi (l : List (Int × List (RInst Scored))) b cur,
      ErrsIn (fun e => e = .key ∨ e = .zeroDiv ∨ e = .runtime) (scoreLoop coll fns p cp lo hi b cur l) := by
    intro p cp lo hi l
    induction l with
    | nil => exact fun _ _ => errsIn_ok _
    | cons q qs ih =>
      intro b cur
      unfold scoreLoop
      exact (errsIn_mapM (fun x => one _ _ _ x) _).bind fun _ _ => (ih _ _).bind fun _ _ => errsIn_ok _
  unfold recuperate
  cases addrs with
  | nil => exact absurd rfl ha
  | cons a as =>
    dsimp only
    split
    · exact loop _ _ _ _ _ _ _
    · rename_i h'
      exact absurd (h' a as _ rfl (List.getLast?_eq_some_getLast (by simp))) (by simp)

/-- C38: what the evidence of a push or a pop needs: the address on the other side, the end
of the function for a push at a start and the start of the current function for a pop,
raises unless it is one of the program and has a candidate that is not discarded. -/
theorem C38_push_pop (prog : CProg) (fns : Fns) (x : Cand) {addr fn other : Int} {here : List Cand} (hh : dictGet prog addr = some here)
    (hx : (x.isPush = true ∧ ∃ a, dictGet fns addr = some (a, other)) ∨ (x.isPush = false ∧ x.isPop = true ∧ other = fn)) :
    (dictGet prog other = none → computePushPop prog fns x addr fn = .error .key) ∧
    ∀ there, dictGet prog other = some there → (∀ y ∈ there, y.m.ignore = true) → computePushPop prog fns x addr fn = .error .zeroDiv := by
  have key : ∀ isOp regs, (dictGet prog other = none → opProb prog isOp other regs = .error .key) ∧
      ∀ there, dictGet prog other = some there → (∀ y ∈ there, y.m.ignore = true) → opProb prog isOp other regs = .error .zeroDiv := by
    intro isOp regs
    refine ⟨fun h => ?_, fun there h hi => ?_⟩
    · unfold opProb
      rw [h]
    · unfold opProb
      rw [h]
      have : (there.filter fun i => !i.m.ignore) = [] := List.filter_eq_nil_iff.2 fun y hy => by simp [hi y hy]
      simp only [this]
      rfl
  unfold computePushPop
  rw [hh]
  rcases hx with ⟨h1, a, h2⟩ | ⟨h1, h2, rfl⟩
  · simp only [h1, if_true, h2]
    refine ⟨fun h => ?_, fun there h hi => ?_⟩
    · rw [(key _ _).1 h]
      rfl
    · rw [(key _ _).2 there h hi]
      rfl
  · simp only [h1, h2, if_true]
    refine ⟨fun h => ?_, fun there h hi => ?_⟩
    · simp only [(key _ _).1 h]
      rfl
    · simp only [(key _ _).2 there h hi]
      rfl

end Verif
