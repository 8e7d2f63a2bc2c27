import Verif.Proof.SolutionIO

/-! # Properties C26-C28: binary solution files -/

namespace Verif
open Spec

/-- **C28.**  Writing succeeds exactly when every address knows its original
and has it among its candidates, and all the numbers written fit 32 bits;
otherwise it raises. -/
theorem C28_write_iff (orig prog : Program) :
    (writeBinary orig prog).2 = .ok () ↔
      prog.length < 2 ^ 32 ∧ ∀ q ∈ prog, ∃ o os, dictGet orig q.1 = some (o :: os) ∧
        o.encoding ∈ q.2.map (·.encoding) ∧
        entryFits (q.1, upTo o.encoding (q.2.map (·.encoding))) := by
  unfold writeBinary
  rw [seq_ok]
  by_cases hl : prog.length < 2 ^ 32
  swap
  · rw [writeInt_bad hl, seq_err]
    exact ⟨fun h => by simp at h, fun h => absurd h.1 hl⟩
  rw [writeInt_ok hl, seq_ok]
  dsimp only
  constructor
  · intro h
    refine ⟨hl, fun q hq => ?_⟩
    by_contra hno
    obtain ⟨b, e, h1, _⟩ := writeEntries_err orig prog ⟨q, hq, by
      rintro ⟨ws, o, os, h1, h2, rfl, h3⟩
      exact hno ⟨o, os, h1, h2, h3⟩⟩
    rw [h1] at h
    simp at h
  · rintro ⟨hl2, h⟩
    have : ∃ es : List (Nat × List Nat), List.Forall₂ (fun q e => e.1 = q.1 ∧ entryOk orig q e.2) prog es := by
      clear hl hl2
      induction prog with
      | nil => exact ⟨[], .nil⟩
      | cons q prog ih =>
        obtain ⟨es, hes⟩ := ih fun q' hq' => h q' (by simp [hq'])
        obtain ⟨o, os, h1, h2, h3⟩ := h q (by simp)
        exact ⟨(q.1, _) :: es, .cons ⟨rfl, o, os, h1, h2, rfl, h3⟩ hes⟩
    obtain ⟨es, hes⟩ := this
    rw [writeEntries_ok orig prog es hes]

/-- **C26.**  Whenever writing succeeds, the file has the documented format,
and reading it back gives, at the same addresses in the same order, the
candidates up to and including the original, and the original program. -/
theorem C26_read_written (orig prog : Program) (hk : (prog.map (·.1)).Nodup)
    (h : (writeBinary orig prog).2 = .ok ()) (rest : Bytes) :
    ∃ o p, readSolution ((writeBinary orig prog).1 ++ rest) = .ok (o, p) ∧
      (writeBinary orig prog).1 = solutionFile (p.map fun q => (q.1, q.2.map (·.encoding))) ∧
      p.map (·.1) = prog.map (·.1) ∧ o.map (·.1) = prog.map (·.1) ∧
      ∀ k cs c l, dictGet prog k = some cs → dictGet orig k = some (c :: l) →
        (∃ cs', dictGet p k = some cs' ∧
          cs'.map (·.encoding) = upTo c.encoding (cs.map (·.encoding)) ∧
          ∀ i ∈ cs', i.address = k) ∧
        dictGet o k = some [⟨c.encoding, k⟩] := by
  obtain ⟨hl, hall⟩ := (C28_write_iff orig prog).1 h
  have : ∃ es : List (Nat × List Nat), List.Forall₂ (fun q e => e.1 = q.1 ∧ entryOk orig q e.2) prog es := by
    clear hl h hk
    induction prog with
    | nil => exact ⟨[], .nil⟩
    | cons q prog ih =>
      obtain ⟨es, hes⟩ := ih fun q' hq' => hall q' (by simp [hq'])
      obtain ⟨o, os, h1, h2, h3⟩ := hall q (by simp)
      exact ⟨(q.1, _) :: es, .cons ⟨rfl, o, os, h1, h2, rfl, h3⟩ hes⟩
  obtain ⟨es, hes⟩ := this
  have hkeys : es.map (·.1) = prog.map (·.1) := by
    clear hl h hk hall
    induction hes with
    | nil => rfl
    | cons hqe _ ih => rw [List.map_cons, List.map_cons, ih, hqe.1]
  have hlen : es.length = prog.length := hes.length_eq.symm
  have hfit : ∀ e ∈ es, entryFits e := by
    clear hl h hk hall hkeys hlen
    induction hes with
    | nil => simp
    | cons hqe _ ih =>
      intro e he
      rcases List.mem_cons.1 he with rfl | he
      · obtain ⟨h1, _, _, _, _, _, h2⟩ := hqe
        rw [← h1] at h2
        exact h2
      · exact ih e he
  have hbytes : (writeBinary orig prog).1 = solutionFile es := by
    unfold writeBinary
    rw [seq_ok, writeInt_ok hl, seq_ok, writeEntries_ok orig prog es hes, header_eq]
    simp [solutionFile, hlen]
  refine ⟨entriesOriginal es, entriesProgram es, ?_, ?_, ?_, ?_, ?_⟩
  · rw [hbytes]
    unfold readSolution
    rw [readFrom_file es hfit (by rw [hkeys]; exact hk) (by omega)]
    rfl
  · rw [hbytes]
    congr 1
    unfold entriesProgram
    rw [List.map_map]
    conv_lhs => rw [← List.map_id es]
    apply List.map_congr_left
    intro e _
    simp [Function.comp_def]
  · rw [← hkeys]; simp [entriesProgram, Function.comp_def]
  · rw [← hkeys]; simp [entriesOriginal, Function.comp_def]
  · intro k cs c l hcs hc
    have hmem : ∀ {prog : Program} {es : List (Nat × List Nat)},
        List.Forall₂ (fun q e => e.1 = q.1 ∧ entryOk orig q e.2) prog es →
        (k, cs) ∈ prog → (k, upTo c.encoding (cs.map (·.encoding))) ∈ es := by
      intro prog es hes
      induction hes with
      | nil => simp
      | cons hqe _ ih =>
        rename_i q e l1 l2 _
        intro hq
        rcases List.mem_cons.1 hq with rfl | hq
        · obtain ⟨h1, o, os, h2, _, h4, _⟩ := hqe
          dsimp only at h1 h2 h4
          rw [hc, Option.some.injEq] at h2
          simp only [List.cons.injEq] at h2
          rw [← h2.1] at h4
          have : e = (k, upTo c.encoding (cs.map (·.encoding))) := by
            rw [← h1, ← h4]
          simp [this]
        · exact List.mem_cons_of_mem _ (ih hq)
    have hin := hmem hes (dictGet_mem hcs)
    have hp : (k, (upTo c.encoding (cs.map (·.encoding))).map fun w => (⟨w, k⟩ : CInst)) ∈
        entriesProgram es := List.mem_map.2 ⟨_, hin, rfl⟩
    have ho : (k, [(⟨(upTo c.encoding (cs.map (·.encoding))).getLast?.getD 0, k⟩ : CInst)]) ∈
        entriesOriginal es := List.mem_map.2 ⟨_, hin, rfl⟩
    have hne : c.encoding ∈ cs.map (·.encoding) := by
      obtain ⟨o, os, h2, h3, _⟩ := hall (k, cs) (dictGet_mem hcs)
      rw [hc, Option.some.injEq] at h2
      simp only [List.cons.injEq] at h2
      rw [h2.1]; exact h3
    have kp : ((entriesProgram es).map (·.1)).Nodup := by
      have : (entriesProgram es).map (·.1) = es.map (·.1) := by
        simp [entriesProgram, Function.comp_def]
      rw [this, hkeys]; exact hk
    have ko : ((entriesOriginal es).map (·.1)).Nodup := by
      have : (entriesOriginal es).map (·.1) = es.map (·.1) := by
        simp [entriesOriginal, Function.comp_def]
      rw [this, hkeys]; exact hk
    refine ⟨⟨_, dictGet_of_mem kp hp, by simp [Function.comp_def], ?_⟩, ?_⟩
    · intro i hi
      obtain ⟨w, _, rfl⟩ := List.mem_map.1 hi
      rfl
    · rw [dictGet_of_mem ko ho, upTo_getLast hne]
      rfl

/-- **C27**, truncated files: every strict prefix of a file of entries that fit
is rejected. -/
theorem C27_truncated (es : List (Nat × List Nat)) (hf : ∀ e ∈ es, entryFits e)
    (hl : es.length < 2 ^ 32) (n : Nat) (hn : n < (solutionFile es).length) :
    ∃ e, readSolution ((solutionFile es).take n) = .error e := by
  refine prefix_rejected es hf hl _ ((solutionFile es).drop n) (List.take_append_drop _ _).symm ?_
  intro h
  have := congrArg List.length h
  rw [List.length_drop] at this
  simp at this
  omega

/-- C27, crash points of the writer: no proper prefix of what the writer
produces is accepted, whether the writer was interrupted or raised; and what it
leaves behind when it raises is rejected as a whole. -/
theorem C27_crash (orig prog : Program) (n : Nat) :
    (n < (writeBinary orig prog).1.length →
      ∃ e, readSolution ((writeBinary orig prog).1.take n) = .error e) ∧
    (∀ e, (writeBinary orig prog).2 = .error e →
      ∃ e', readSolution (writeBinary orig prog).1 = .error e') := by
  -- in every case there is a good file that extends what was written
  have key : ∃ es u, (∀ e ∈ es, entryFits e) ∧ es.length < 2 ^ 32 ∧
      solutionFile es = (writeBinary orig prog).1 ++ u ∧
      ((∃ e, (writeBinary orig prog).2 = .error e) → u ≠ []) := by
    by_cases hl : prog.length < 2 ^ 32
    swap
    · refine ⟨[], le32 0, by simp, by simp, ?_, fun _ => by simp [le32]⟩
      unfold writeBinary
      rw [seq_ok, writeInt_bad hl, seq_err, header_eq]
      simp [solutionFile]
    by_cases hbad : ∃ q ∈ prog, ¬ ∃ ws, entryOk orig q ws
    · obtain ⟨b, e, h1, es, u, h2, h3, h4, h5⟩ := writeEntries_err orig prog hbad
      refine ⟨es, u, h3, by omega, ?_, fun _ => h5⟩
      unfold writeBinary
      rw [seq_ok, writeInt_ok hl, seq_ok, h1, header_eq]
      simp [solutionFile, h2, h4]
    · have : ∃ es : List (Nat × List Nat), List.Forall₂ (fun q e => e.1 = q.1 ∧ entryOk orig q e.2) prog es := by
        clear hl
        induction prog with
        | nil => exact ⟨[], .nil⟩
        | cons q prog ih =>
          obtain ⟨es, hes⟩ := ih (by
            rintro ⟨q', h1, h2⟩
            exact hbad ⟨q', by simp [h1], h2⟩)
          have : ∃ ws, entryOk orig q ws := by
            by_contra hc
            exact hbad ⟨q, by simp, hc⟩
          obtain ⟨ws, hws⟩ := this
          exact ⟨(q.1, ws) :: es, .cons ⟨rfl, hws⟩ hes⟩
      obtain ⟨es, hes⟩ := this
      have hfit : ∀ e ∈ es, entryFits e := by
        clear hl hbad
        induction hes with
        | nil => simp
        | cons hqe _ ih =>
          intro e he
          rcases List.mem_cons.1 he with rfl | he
          · obtain ⟨h1, _, _, _, _, _, h2⟩ := hqe
            rw [← h1] at h2
            exact h2
          · exact ih e he
      have hlen := hes.length_eq
      have hw : writeBinary orig prog = (solutionFile es, .ok ()) := by
        unfold writeBinary
        rw [seq_ok, writeInt_ok hl, seq_ok, writeEntries_ok orig prog es hes, header_eq]
        simp [solutionFile, hlen]
      refine ⟨es, [], hfit, by omega, by rw [hw]; simp, ?_⟩
      rintro ⟨e, he⟩
      rw [hw] at he
      simp at he
  obtain ⟨es, u, h1, h2, h3, h4⟩ := key
  constructor
  · intro hn
    refine prefix_rejected es h1 h2 _ ((writeBinary orig prog).1.drop n ++ u) ?_ ?_
    · rw [h3, ← List.append_assoc, List.take_append_drop]
    · intro h
      have := congrArg List.length (List.append_eq_nil_iff.1 h).1
      rw [List.length_drop] at this
      simp at this
      omega
  · intro e he
    exact prefix_rejected es h1 h2 _ u h3 (h4 ⟨e, he⟩)

/-- C27, foreign files: every byte string whose first eight bytes are not the
magic number is rejected. -/
theorem C27_foreign (bs : Bytes) (h : bs.take 8 ≠ header) :
    readSolution bs = .error .struct ∧ bs.length < 8 ∨ readSolution bs = .error .runtime := by
  unfold readSolution readFrom readLE
  by_cases hl : bs.length < 8
  · left
    rw [if_pos hl]
    exact ⟨rfl, hl⟩
  · right
    rw [if_neg hl]
    simp only [bind, Except.bind]
    rw [if_pos]
    · rfl
    · intro hm
      apply h
      -- eight bytes with the value of the magic number are the header
      have hlen : (bs.take 8).length = 8 := by rw [List.length_take]; omega
      have inj : ∀ (a b : Bytes), a.length = b.length → leVal a = leVal b → a = b := by
        intro a
        induction a with
        | nil => intro b hab _; cases b with
          | nil => rfl
          | cons _ _ => simp at hab
        | cons x a ih =>
          intro b hab hv
          cases b with
          | nil => simp at hab
          | cons y b =>
            simp only [List.length_cons, Nat.add_right_cancel_iff] at hab
            simp only [leVal] at hv
            have hx := x.toNat_lt
            have hy := y.toNat_lt
            have : x.toNat = y.toNat := by omega
            rw [UInt8.toNat_inj.1 this, ih b hab (by omega)]
      apply inj _ _ (by rw [hlen]; rfl)
      rw [hm]; decide

/-- Two candidates, the second is the original: the file, and what is read. -/
example : writeBinary [(100, [⟨7, 100⟩])] [(100, [⟨6, 100⟩, ⟨7, 100⟩, ⟨9, 100⟩])] =
      (solutionFile [(100, [6, 7])], .ok ()) ∧
    readSolution (solutionFile [(100, [6, 7])]) =
      .ok ([(100, [⟨7, 100⟩])], [(100, [⟨6, 100⟩, ⟨7, 100⟩])]) ∧
    (writeBinary [(100, [⟨7, 100⟩])] [(100, [⟨6, 100⟩])]).2 = .error .runtime ∧
    (writeBinary [] [(100, [⟨6, 100⟩])]).2 = .error .key := by decide +kernel

end Verif
