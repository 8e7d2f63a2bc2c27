import Verif.Props.LossCompose

/-!
# C154: packet-loss corruption sees the addresses only through their order
-/

namespace Verif

open Spec

theorem sorted_places {f : Nat → Nat} {l l' : List Nat} (hmono : ∀ a ∈ l, ∀ b ∈ l, a ≤ b → f a ≤ f b)
    (hp : l'.Perm (l.map f)) : l'.insertionSort (· ≤ ·) = (l.insertionSort (· ≤ ·)).map f := by
  apply List.Perm.eq_of_pairwise (le := fun a b : Nat => a ≤ b)
  · intro a b _ _ h1 h2
    omega
  · exact List.pairwise_insertionSort _ _
  · rw [List.pairwise_map]
    refine List.Pairwise.imp_of_mem ?_ (List.pairwise_insertionSort (· ≤ ·) l)
    intro a b ha hb hab
    exact hmono a ((List.mem_insertionSort _).1 ha) b ((List.mem_insertionSort _).1 hb) hab
  · exact (List.perm_insertionSort _ _).trans (hp.trans ((List.perm_insertionSort _ _).map f).symm)

/-- **C154.**  Two programs with as many addresses, whatever the addresses are and whatever the
order in which the dictionaries list them: the same loss makes the same candidates for an
address and the one in its place when the instructions there are the same, whatever the
instructions at other addresses are. -/
theorem C154_local (lg : Rat → Int) (fuel bpi size p : Nat) (order lost : List Nat) (hd : bpi ∣ 32) (hn : order.Nodup)
    (hin : ∀ q ∈ p :: lost, q ∈ order) (hf : 32 * size < fuel) (f : Nat → Nat) (prog prog' few : Program)
    (hk : (prog.map (·.1)).Nodup) (hk' : (prog'.map (·.1)).Nodup) (henc : ∀ q ∈ prog, ∀ i ∈ q.2, i.encoding < 2 ^ 32)
    (henc' : ∀ q ∈ prog', ∀ i ∈ q.2, i.encoding < 2 ^ 32)
    (hmono : ∀ a ∈ prog.map (·.1), ∀ b ∈ prog.map (·.1), a ≤ b → f a ≤ f b)
    (hp : (prog'.map (·.1)).Perm ((prog.map (·.1)).map f))
    (h : packetCorrupt lg fuel order.length bpi size order (p :: lost) prog = some (.ok few)) :
    ∃ few', packetCorrupt lg fuel order.length bpi size order (p :: lost) prog' = some (.ok few') ∧
      few'.map (·.1) = prog'.map (·.1) ∧
      ∀ a l₀ l₀', dictGet prog a = some l₀ → dictGet prog' (f a) = some l₀' → l₀'.map (·.encoding) = l₀.map (·.encoding) →
        ∃ l l', dictGet few a = some l ∧ dictGet few' (f a) = some l' ∧
          ∀ v, v ∈ l'.map (·.encoding) ↔ v ∈ l.map (·.encoding) := by
  obtain ⟨few', h'⟩ := (packet_goes (lg := lg) hd hn hin hf hk' henc').2
    ((packet_goes (lg := lg) hd hn hin hf hk henc).1 ⟨few, h⟩)
  obtain ⟨h1, _, h3⟩ := packet_words hd hn hin hf hk henc h
  obtain ⟨g1, _, g3⟩ := packet_words hd hn hin hf hk' henc' h'
  refine ⟨few', h', g1, ?_⟩
  intro a l₀ l₀' hl₀ hl₀' hs
  have ha : a ∈ prog.map (·.1) := by rw [← dictGet_isSome, hl₀]; rfl
  obtain ⟨w, hw⟩ := List.mem_iff_getElem?.1 (show a ∈ (prog.map (·.1)).insertionSort (· ≤ ·) by
    rw [List.mem_insertionSort]; exact ha)
  obtain ⟨l₁, e1, e2⟩ := h3 w a hw l₀ hl₀
  have hw' : ((prog'.map (·.1)).insertionSort (· ≤ ·))[w]? = some (f a) := by
    rw [sorted_places hmono hp, List.getElem?_map, hw]
    rfl
  obtain ⟨l₂, f1, f2⟩ := g3 w (f a) hw' l₀' hl₀'
  refine ⟨l₁, l₂, e1, f1, fun v => ?_⟩
  rw [f2, e2, hs]

/-- **C154.**  Two programs with the same instructions in the same order of addresses, whatever
the addresses are and whatever the order in which the dictionaries list them: the same loss
makes the same candidates for an address and the one in its place. -/
theorem C154_places (lg : Rat → Int) (fuel bpi size p : Nat) (order lost : List Nat) (hd : bpi ∣ 32) (hn : order.Nodup)
    (hin : ∀ q ∈ p :: lost, q ∈ order) (hf : 32 * size < fuel) (f : Nat → Nat) (prog prog' few : Program)
    (hk : (prog.map (·.1)).Nodup) (hk' : (prog'.map (·.1)).Nodup) (henc : ∀ q ∈ prog, ∀ i ∈ q.2, i.encoding < 2 ^ 32)
    (hmono : ∀ a ∈ prog.map (·.1), ∀ b ∈ prog.map (·.1), a ≤ b → f a ≤ f b)
    (hp : (prog'.map (·.1)).Perm ((prog.map (·.1)).map f))
    (hsame : ∀ a l, dictGet prog a = some l → ∃ l', dictGet prog' (f a) = some l' ∧ l'.map (·.encoding) = l.map (·.encoding))
    (h : packetCorrupt lg fuel order.length bpi size order (p :: lost) prog = some (.ok few)) :
    ∃ few', packetCorrupt lg fuel order.length bpi size order (p :: lost) prog' = some (.ok few') ∧
      few'.map (·.1) = prog'.map (·.1) ∧
      ∀ a l, dictGet few a = some l → ∃ l', dictGet few' (f a) = some l' ∧
        ∀ v, v ∈ l'.map (·.encoding) ↔ v ∈ l.map (·.encoding) := by
  have henc' : ∀ q ∈ prog', ∀ i ∈ q.2, i.encoding < 2 ^ 32 := by
    intro q hq i hi
    have hm : q.1 ∈ (prog.map (·.1)).map f := hp.subset (List.mem_map.2 ⟨q, hq, rfl⟩)
    obtain ⟨a, ha, he⟩ := List.mem_map.1 hm
    obtain ⟨l, hl⟩ := Option.isSome_iff_exists.1 ((dictGet_isSome prog a).2 ha)
    obtain ⟨l', hl', hs⟩ := hsame a l hl
    rw [he, dictGet_of_mem hk' hq, Option.some.injEq] at hl'
    subst hl'
    have : i.encoding ∈ l.map (·.encoding) := hs ▸ List.mem_map.2 ⟨i, hi, rfl⟩
    obtain ⟨j, hj, hj'⟩ := List.mem_map.1 this
    rw [← hj']
    exact henc _ (dictGet_mem hl) j hj
  obtain ⟨few', h', g1, hall⟩ := C154_local lg fuel bpi size p order lost hd hn hin hf f prog prog' few hk hk' henc henc'
    hmono hp h
  refine ⟨few', h', g1, fun a l hl => ?_⟩
  have ha : a ∈ prog.map (·.1) := by
    rw [← (packet_words hd hn hin hf hk henc h).1, ← dictGet_isSome, hl]; rfl
  obtain ⟨l₀, hl₀⟩ := Option.isSome_iff_exists.1 ((dictGet_isSome prog a).2 ha)
  obtain ⟨l₀', hl₀', hs⟩ := hsame a l₀ hl₀
  obtain ⟨l₁, l₂, e1, e2, e3⟩ := hall a l₀ l₀' hl₀ hl₀' hs
  rw [hl, Option.some.injEq] at e1
  subst e1
  exact ⟨l₂, e2, e3⟩

/-- Two words at the addresses 4 and 0 and at the addresses 8 and 108: the same candidates
for the first word and for the second, here for the loss of packet 7. -/
theorem C154_case :
    ((packetCorrupt (fun _ => 0) 100 8 4 2 (List.range 8) [7] [(4, [⟨6, 4⟩]), (0, [⟨5, 0⟩])]).bind fun r =>
      r.toOption.map fun p => p.map fun q => (q.1, (q.2.map (·.encoding)).take 2)) = some [(4, [6, 7]), (0, [5, 268435461])] ∧
    ((packetCorrupt (fun _ => 0) 100 8 4 2 (List.range 8) [7] [(8, [⟨5, 8⟩]), (108, [⟨6, 108⟩])]).bind fun r =>
      r.toOption.map fun p => p.map fun q => (q.1, (q.2.map (·.encoding)).take 2)) = some [(8, [5, 268435461]), (108, [6, 7])] := by
  decide +kernel

end Verif
