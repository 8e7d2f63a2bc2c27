import Verif.Props.Constraint

/-!
# C139: exactly which choices the constraint problem accepts
-/

namespace Verif

namespace Spec

/-- Two lists of instructions with the same statistics: each condition, each opcode
and each storage occurs equally often among the instructions that can be
disassembled. -/
def SameCounts (l l' : List MInst) : Prop :=
  (∀ k, (l.filter fun i => !i.ignore && decide (i.cond = k)).length =
    (l'.filter fun i => !i.ignore && decide (i.cond = k)).length) ∧
  (∀ k, (l.filter fun i => !i.ignore && decide (i.opcode = k)).length =
    (l'.filter fun i => !i.ignore && decide (i.opcode = k)).length) ∧
  (∀ k, (((l.filter fun i => !i.ignore).map MInst.used).flatten.count k) =
    (((l'.filter fun i => !i.ignore).map MInst.used).flatten.count k))

/-- The addresses of a program that have candidates. -/
def withCandidates (program : List (Nat × List MInst)) : List Nat :=
  (program.filter fun p => decide (p.2 ≠ [])).map (·.1)

end Spec

open Spec

theorem vars_eq (program : List (Nat × List MInst)) (m : Collector) :
    (buildProblem program m).vars.map (·.1) = withCandidates program := by
  unfold buildProblem withCandidates
  congr 1
  apply List.filter_congr
  intro p _
  rw [Bool.eq_iff_iff]
  simp [List.length_pos_iff]

theorem defined_countP (l : List MInst) (p : MInst → Bool) :
    (defined l).countP p = (l.filter fun i => !i.ignore && p i).length := by
  unfold defined
  rw [List.countP_filter, List.countP_eq_length_filter]
  congr 1
  apply List.filter_congr
  intro i _
  cases i.ignore <;> cases p i <;> rfl

/-- The answer of one constraint to a complete choice, as equality of sums. -/
theorem answer_iff {L : Type} [DecidableEq L] (f : CountField MInst L) (hi : f.ignore = MInst.ignore)
    (orig : List MInst) (d : List (L × Nat))
    (hd : ∀ k, ((defined orig).map fun i => (f.field i).count k).sum = (dictGet d k).getD 0)
    (vars : List Nat) (choice : List (Nat × MInst)) (hn : (choice.map (·.1)).Nodup)
    (hk : vars.Perm (choice.map (·.1))) (doms : Nat → List MInst) (forward : Bool) :
    ∃ b, (constraintCall f (asInt d) vars doms (dictGet choice) forward).map (·.1) = .ok b ∧
      (b = true ↔ ∀ k, ((defined (choice.map (·.2))).map fun i => (f.field i).count k).sum =
        ((defined orig).map fun i => (f.field i).count k).sum) := by
  have hall : ∀ v ∈ vars, dictGet choice v ≠ none := by
    intro v hv h
    exact (dictGet_eq_none _ _).1 h (hk.subset hv)
  obtain ⟨b, h1, h2⟩ := C44_exact f (asInt d) vars doms (dictGet choice) forward hall
  refine ⟨b, by rw [h1]; rfl, ?_⟩
  rw [h2]
  refine forall_congr' fun k => ?_
  rw [occurrences_dict _ _ choice hn _ hk, hi, sum_defined, required_eq, dictGet_asInt, hd k]
  rcases dictGet d k with _ | n
  · simp
  · simp

/-- **C139.**  A complete choice of instructions is accepted by all three constraints
of the problem built for a program and the metadata of an original exactly when it has
the statistics of the original: nothing else of the original is used.  When it is not
accepted some constraint says so, and none fails. -/
theorem C139_exact (orig : List MInst) (program : List (Nat × List MInst)) (choice : List (Nat × MInst))
    (hn : (choice.map (·.1)).Nodup) (hk : (withCandidates program).Perm (choice.map (·.1))) :
    ∃ b1 b2 b3, problemAnswers (buildProblem program (collectMeta {} orig)) (dictGet choice) =
        [.ok b1, .ok b2, .ok b3] ∧
      ((b1 && b2 && b3) = true ↔ SameCounts (choice.map (·.2)) orig) := by
  obtain ⟨c1, c2, c3, _, _⟩ := C35_counts orig
  have one : ∀ {L : Type} [DecidableEq L] (l : List MInst) (g : MInst → L) (k : L),
      ((defined l).map fun i => [g i].count k).sum = (defined l).countP fun x => decide (g x = k) := by
    intro L _ l g k
    rw [← countP_sum]
    congr 1
    apply List.map_congr_left
    intro i _
    simp [List.count_singleton]
  have flat : ∀ (l : List MInst) (k : Nat), ((defined l).map fun i => i.used.count k).sum =
      (((l.filter fun i => !i.ignore).map MInst.used).flatten.count k) := by
    intro l k
    rw [List.count_flatten, List.map_map]
    rfl
  unfold problemAnswers
  simp only [vars_eq]
  obtain ⟨b1, a1, e1⟩ := answer_iff condField rfl orig (collectMeta {} orig).conditionCnt (by
    intro k
    show ((defined orig).map fun i => [i.cond].count k).sum = _
    rw [one, c1 k]
    split
    · next h => rw [h]; rfl
    · rfl) _ choice hn hk (fun a => (dictGet (buildProblem program (collectMeta {} orig)).vars a).getD []) false
  obtain ⟨b2, a2, e2⟩ := answer_iff opcodeField rfl orig (collectMeta {} orig).instructionCnt (by
    intro k
    show ((defined orig).map fun i => [i.opcode].count k).sum = _
    rw [one, c2 k]
    split
    · next h => rw [h]; rfl
    · rfl) _ choice hn hk (fun a => (dictGet (buildProblem program (collectMeta {} orig)).vars a).getD []) false
  obtain ⟨b3, a3, e3⟩ := answer_iff storageField rfl orig (collectMeta {} orig).storageCnt (by
    intro k
    show ((defined orig).map fun i => i.used.count k).sum = _
    rw [c3 k]
    split
    · next h => rw [h]; rfl
    · rfl) _ choice hn hk (fun a => (dictGet (buildProblem program (collectMeta {} orig)).vars a).getD []) false
  refine ⟨b1, b2, b3, ?_, ?_⟩
  · simp only [List.cons.injEq, and_true]
    exact ⟨a1, a2, a3⟩
  · rw [Bool.and_eq_true, Bool.and_eq_true, e1, e2, e3, and_assoc]
    unfold SameCounts
    refine and_congr (forall_congr' fun k => ?_) (and_congr (forall_congr' fun k => ?_) (forall_congr' fun k => ?_))
    · show ((defined _).map fun i => [i.cond].count k).sum = ((defined _).map fun i => [i.cond].count k).sum ↔ _
      rw [one, one, defined_countP, defined_countP]
    · show ((defined _).map fun i => [i.opcode].count k).sum = ((defined _).map fun i => [i.opcode].count k).sum ↔ _
      rw [one, one, defined_countP, defined_countP]
    · show ((defined _).map fun i => i.used.count k).sum = ((defined _).map fun i => i.used.count k).sum ↔ _
      rw [flat, flat]

/-- A choice is a solution when all three constraints accept it. -/
def Accepted (program : List (Nat × List MInst)) (orig : List MInst) (choice : List (Nat × MInst)) : Prop :=
  problemAnswers (buildProblem program (collectMeta {} orig)) (dictGet choice) = [.ok true, .ok true, .ok true]

theorem accepted_iff (orig : List MInst) (program : List (Nat × List MInst)) (choice : List (Nat × MInst))
    (hn : (choice.map (·.1)).Nodup) (hk : (withCandidates program).Perm (choice.map (·.1))) :
    Accepted program orig choice ↔ SameCounts (choice.map (·.2)) orig := by
  obtain ⟨b1, b2, b3, h1, h2⟩ := C139_exact orig program choice hn hk
  unfold Accepted
  rw [h1, ← h2]
  cases b1 <;> cases b2 <;> cases b3 <;> simp

theorem sameCounts_perm {l l' : List MInst} (h : l.Perm l') : SameCounts l l' :=
  ⟨fun _ => (h.filter _).length_eq, fun _ => (h.filter _).length_eq,
    fun _ => (((h.filter _).map _).flatten).count_eq _⟩

theorem sameCounts_symm {l l' : List MInst} (h : SameCounts l l') : SameCounts l' l :=
  ⟨fun k => (h.1 k).symm, fun k => (h.2.1 k).symm, fun k => (h.2.2 k).symm⟩

theorem sameCounts_trans {l l' l'' : List MInst} (h : SameCounts l l') (h' : SameCounts l' l'') : SameCounts l l'' :=
  ⟨fun k => (h.1 k).trans (h'.1 k), fun k => (h.2.1 k).trans (h'.2.1 k), fun k => (h.2.2 k).trans (h'.2.2 k)⟩

/-- **C139.**  The problem does not see where instructions stand: with a solution every
rearrangement of its instructions over the addresses is accepted too. -/
theorem C139_rearranged (orig : List MInst) (program : List (Nat × List MInst)) (choice choice' : List (Nat × MInst))
    (hn : (choice.map (·.1)).Nodup) (hn' : (choice'.map (·.1)).Nodup)
    (hk : (withCandidates program).Perm (choice.map (·.1))) (hk' : (withCandidates program).Perm (choice'.map (·.1)))
    (hp : (choice'.map (·.2)).Perm (choice.map (·.2))) (h : Accepted program orig choice) :
    Accepted program orig choice' := by
  rw [accepted_iff orig program _ hn hk] at h
  rw [accepted_iff orig program _ hn' hk']
  exact sameCounts_trans (sameCounts_perm hp) h

/-- **C139.**  Which other candidates there are does not matter to a choice, as long as
the same addresses have some. -/
theorem C139_candidates (orig : List MInst) (program program' : List (Nat × List MInst)) (choice : List (Nat × MInst))
    (hn : (choice.map (·.1)).Nodup) (hk : (withCandidates program).Perm (choice.map (·.1)))
    (hk' : (withCandidates program').Perm (choice.map (·.1))) :
    Accepted program orig choice ↔ Accepted program' orig choice := by
  rw [accepted_iff orig program _ hn hk, accepted_iff orig program' _ hn hk']

/-- **C139.**  Two originals have the same solutions, whatever the candidates, exactly
when they have the same statistics — provided the first can be chosen at all. -/
theorem C139_original (orig orig' : List MInst) (program : List (Nat × List MInst)) (choice : List (Nat × MInst))
    (hn : (choice.map (·.1)).Nodup) (hk : (withCandidates program).Perm (choice.map (·.1)))
    (ho : choice.map (·.2) = orig) :
    SameCounts orig orig' ↔
      ∀ choice' : List (Nat × MInst), (choice'.map (·.1)).Nodup → (withCandidates program).Perm (choice'.map (·.1)) →
        (Accepted program orig choice' ↔ Accepted program orig' choice') := by
  constructor
  · intro h choice' hn' hk'
    rw [accepted_iff orig program _ hn' hk', accepted_iff orig' program _ hn' hk']
    exact ⟨fun g => sameCounts_trans g h, fun g => sameCounts_trans g (sameCounts_symm h)⟩
  · intro h
    have := (h choice hn hk).1 ((accepted_iff orig program _ hn hk).2 (ho ▸ sameCounts_perm (List.Perm.refl _)))
    rw [accepted_iff orig' program _ hn hk, ho] at this
    exact this

theorem sameCounts_length {l l' : List MInst} (h : SameCounts l l') :
    (l.filter fun i => !i.ignore).length = (l'.filter fun i => !i.ignore).length := by
  have key : ∀ (m : List MInst) (k : Int), ((m.filter fun i => !i.ignore).map MInst.cond).count k =
      (m.filter fun i => !i.ignore && decide (i.cond = k)).length := by
    intro m k
    rw [List.count, List.countP_map, List.countP_filter, List.countP_eq_length_filter]
    congr 1
    apply List.filter_congr
    intro i _
    simp only [Function.comp, beq_eq_decide]
    exact Bool.and_comm _ _
  have hp : ((l.filter fun i => !i.ignore).map MInst.cond).Perm ((l'.filter fun i => !i.ignore).map MInst.cond) := by
    rw [List.perm_iff_count]
    intro k
    rw [key, key]
    exact h.1 k
  simpa using hp.length_eq

/-- **C139.**  An address without candidates is left out of the problem without a word;
when fewer addresses are left than the original has defined instructions no choice is
accepted. -/
theorem C139_lost_address (orig : List MInst) (program : List (Nat × List MInst)) (choice : List (Nat × MInst))
    (hn : (choice.map (·.1)).Nodup) (hk : (withCandidates program).Perm (choice.map (·.1)))
    (hl : (withCandidates program).length < (orig.filter fun i => !i.ignore).length) :
    ¬ Accepted program orig choice := by
  rw [accepted_iff orig program _ hn hk]
  intro h
  have h1 := sameCounts_length h
  have h2 := List.length_filter_le (fun i : MInst => !i.ignore) (choice.map (·.2))
  have h3 := hk.length_eq
  simp only [List.length_map] at h2 h3
  omega

/-- Two candidates at each of two addresses: the original is accepted, so are its two
instructions the other way round, and mixtures are not. -/
theorem C139_case :
    let orig := [usesInst 0 [1], usesInst 3 [2]]
    let program := [(0, [usesInst 0 [1], usesInst 3 [2]]), (4, [usesInst 3 [2], usesInst 0 [1]]), (8, [])]
    withCandidates program = [0, 4] ∧ Accepted program orig [(0, usesInst 0 [1]), (4, usesInst 3 [2])] ∧
    Accepted program orig [(0, usesInst 3 [2]), (4, usesInst 0 [1])] ∧
    ¬ Accepted program orig [(0, usesInst 0 [1]), (4, usesInst 0 [1])] ∧
    ¬ Accepted program (usesInst 5 [] :: orig) [(0, usesInst 0 [1]), (4, usesInst 3 [2])] := by
  unfold Accepted
  decide +kernel

end Verif
