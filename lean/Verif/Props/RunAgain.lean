import Verif.Props.RunExact

/-! # C121, C122: recovering twice, and candidates in another order -/

namespace Verif
open Spec

theorem stage_unique {orig : List (Int × MInst)} {p q : List (Int × List Cand)} (h : SameCandidates p q) {N M : Nat}
    (h1 : afterPasses orig p (N + 1) = afterPasses orig p N)
    (h2 : ∀ k < N, afterPasses orig p (k + 1) ≠ afterPasses orig p k)
    (h3 : afterPasses orig q (M + 1) = afterPasses orig q M)
    (h4 : ∀ k < M, afterPasses orig q (k + 1) ≠ afterPasses orig q k) : N = M := by
  rcases Nat.lt_trichotomy N M with hlt | he | hlt
  · exact absurd (fix_same (afterPasses_same h N) h1) (h4 N hlt)
  · exact he
  · exact absurd (fix_same (same_symm (afterPasses_same h M)) h3) (h2 M hlt)

/-- **C121.**  Listing the candidates of each address in another order, with whatever scores they
have from before, changes nothing: either no stage loses an original in either order, and then both
recoveries raise `ZeroDivisionError`, or both return after equally many passes with the same
candidates at every address; or in neither order does a recovery return with all the originals. -/
theorem C121_order (orig : List (Int × MInst)) (fns : Fns) (addrs : List Int) (hkeys : orig.map (·.1) = addrs)
    (prog prog₂ : List (List (RInst Scored))) (hw : Whole fns addrs prog) (hw₂ : Whole fns addrs prog₂)
    (hsame : SameCandidates (bare addrs prog) (bare addrs prog₂))
    (hdef : ∀ q ∈ orig, q.2.ignore = false) (hu : ∀ q ∈ orig, q.2.used.Nodup) (report : List (RInst Scored))
    (hlen : report.length = addrs.length) (fuel : Nat) (hf : (prog.map List.length).sum + 2 ≤ fuel)
    (hf₂ : (prog₂.map List.length).sum + 2 ≤ fuel) :
    let run := fun p => recoveryLoop (fun _ q => recuperate (collectMeta {} (orig.map (·.2))) fns addrs q) report fuel p
    (run prog = some (.error .zeroDiv) ∧ run prog₂ = some (.error .zeroDiv)) ∨
    (∃ n out out₂, run prog = some (.ok (n, out, false)) ∧ run prog₂ = some (.ok (n, out₂, false)) ∧
      SameCandidates (bare addrs out) (bare addrs out₂)) ∨
    ∀ p, p = prog ∨ p = prog₂ → ∀ n out b, run p = some (.ok (n, out, b)) → ¬ HasOriginals orig (bare addrs out) := by
  intro run
  obtain ⟨hA, hB⟩ := C42_run_exact orig fns addrs hkeys prog hw hdef hu report (hlen.trans hw.length) fuel hf
  obtain ⟨hA₂, hB₂⟩ := C42_run_exact orig fns addrs hkeys prog₂ hw₂ hdef hu report (hlen.trans hw₂.length) fuel hf₂
  by_cases hh : ∀ k, HasOriginals orig (afterPasses orig (bare addrs prog) k)
  · have hh₂ : ∀ k, HasOriginals orig (afterPasses orig (bare addrs prog₂) k) :=
      fun k => has_same (afterPasses_same hsame k) (hh k)
    obtain ⟨N, h1, h2, h3⟩ := hA hh
    obtain ⟨M, g1, g2, g3⟩ := hA₂ hh₂
    obtain rfl : N = M := stage_unique hsame h1 h2 g1 g2
    have hsN := afterPasses_same (orig := orig) hsame N
    rcases h3 with ⟨h3, h4⟩ | ⟨⟨t, ht, h3⟩, out, h4, h5⟩
    · rcases g3 with ⟨g3, g4⟩ | ⟨⟨t, ht, g3⟩, _⟩
      · exact Or.inl ⟨h4, g4⟩
      · have := one_same hsN h3 t ht
        omega
    · rcases g3 with ⟨g3, g4⟩ | ⟨_, out₂, g4, g5⟩
      · have := one_same (same_symm hsN) g3 t ht
        omega
      · exact Or.inr (Or.inl ⟨_, out, out₂, h4, g4, same_trans h5 (same_trans hsN (same_symm g5))⟩)
  · refine Or.inr (Or.inr ?_)
    rintro p (rfl | rfl) n out b hr hhas
    · exact hh ((hB n out b hr).1 hhas)
    · exact hh fun k => has_same (same_symm (afterPasses_same hsame k)) ((hB₂ n out b hr).1 hhas k)

/-- **C122.**  Recovering what a recovery has left changes nothing: if a recovery returned with all
the originals, then the next one on what it left returns after a single pass with the same
candidates at every address. -/
theorem C122_again (orig : List (Int × MInst)) (fns : Fns) (addrs : List Int) (hkeys : orig.map (·.1) = addrs)
    (prog : List (List (RInst Scored))) (hw : Whole fns addrs prog)
    (hdef : ∀ q ∈ orig, q.2.ignore = false) (hu : ∀ q ∈ orig, q.2.used.Nodup) (report : List (RInst Scored))
    (hlen : report.length = prog.length) (fuel : Nat) (hf : (prog.map List.length).sum + 2 ≤ fuel)
    (n : Nat) (out : List (List (RInst Scored))) (b : Bool)
    (hrun : recoveryLoop (fun _ q => recuperate (collectMeta {} (orig.map (·.2))) fns addrs q) report fuel prog =
      some (.ok (n, out, b)))
    (hhas : HasOriginals orig (bare addrs out)) (fuel₂ : Nat) (hf₂ : (out.map List.length).sum + 2 ≤ fuel₂) :
    ∃ out₂, recoveryLoop (fun _ q => recuperate (collectMeta {} (orig.map (·.2))) fns addrs q) report fuel₂ out =
        some (.ok (2, out₂, false)) ∧ SameCandidates (bare addrs out₂) (bare addrs out) := by
  obtain ⟨_, hB⟩ := C42_run_exact orig fns addrs hkeys prog hw hdef hu report hlen fuel hf
  have hh := (hB n out b hrun).1 hhas
  obtain ⟨N, h1, h2, h3⟩ := run_aux orig fns addrs hkeys hdef hu report _ prog le_rfl hw hlen hh 1 fuel hf
  rcases h3 with ⟨_, h3⟩ | ⟨⟨t, ht, hlt⟩, p2, h4, h5, h6⟩
  · have : some (Except.ok (n, out, b)) = some (Except.error Err.zeroDiv) := hrun.symm.trans h3
    cases this
  · have : some (Except.ok (n, out, b) : Py _) = some (.ok (1 + N + 1, p2, false)) := hrun.symm.trans h4
    cases this
    have hol : out.length = prog.length :=
      (loop_seen fuel (1, prog, true) _ hw.length hlen hrun).length_eq
    have hw' := whole_of hw hkeys hdef hol h6 hhas
    have hfix : afterPass orig (bare addrs out) = bare addrs out := fix_same (same_symm h5) h1
    have hst : ∀ k, afterPasses orig (bare addrs out) k = bare addrs out := by
      intro k
      induction k with
      | zero => rfl
      | succ k ih => rw [afterPasses, ih, hfix]
    obtain ⟨hA', _⟩ := C42_run_exact orig fns addrs hkeys out hw' hdef hu report (by omega) fuel₂ hf₂
    obtain ⟨M, g1, g2, g3⟩ := hA' fun k => by rw [hst]; exact hhas
    obtain rfl : M = 0 := by
      by_contra hM
      exact g2 0 (by omega) (by rw [hst, hst])
    rcases g3 with ⟨g3, _⟩ | ⟨_, out₂, g4, g5⟩
    · have := one_same (by rw [hst] at g3; exact h5) (by rw [hst] at g3; exact g3) t ht
      omega
    · rw [hst] at g5
      exact ⟨out₂, g4, g5⟩

/-- A program with two uncertain addresses, which meets the assumptions (`okProg_meets`), in two
orders; and what is left of it is left again. -/
theorem C121_case :
    recovered okOrig [(0, (0, 4))] [0, 4] (okProg.map (List.map (·.data.c))) = some (.ok [[10], [20, 21]]) ∧
    recovered okOrig [(0, (0, 4))] [0, 4] (okProg.map fun v => (v.map (·.data.c)).reverse) = some (.ok [[10], [21, 20]]) ∧
    recovered okOrig [(0, (0, 4))] [0, 4] [[ordinary 10 14 2 [1, 2]], [ordinary 20 0 3 [3], ordinary 21 14 2 [3]]] =
      some (.ok [[10], [20, 21]]) := by decide +kernel

end Verif
