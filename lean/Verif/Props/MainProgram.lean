import Verif.Proof.MainProgram

/-! # C96: what the corruptors return can be recovered, and the main program -/

namespace Verif
namespace Spec

/-- Functions as they are read from a listing: consecutive instructions, different
addresses, numbers of 32 bits. -/
structure FunctionListing (functions : List (List CInst)) : Prop where
  some : functions ≠ []
  filled : ∀ f ∈ functions, f ≠ []
  consecutive : ∀ f ∈ functions, ∀ (k : Nat) (h : k < f.length), f[k].address = (f[0]'(by omega)).address + 4 * k
  distinct : DistinctAddresses functions
  count : functions.flatten.length < 2 ^ 32
  fits : ∀ c ∈ functions.flatten, c.address < 2 ^ 32 ∧ c.encoding < 2 ^ 32

end Spec
open Spec

theorem mem_programOf {functions : List (List CInst)} {q : Nat × List CInst} :
    q ∈ programOf functions ↔ ∃ c ∈ functions.flatten, q = (c.address, [c]) := by
  unfold programOf
  rw [List.mem_map]
  constructor
  · rintro ⟨c, hc, rfl⟩
    exact ⟨c, (List.mem_insertionSort _).1 hc, rfl⟩
  · rintro ⟨c, hc, rfl⟩
    exact ⟨c, (List.mem_insertionSort _).2 hc, rfl⟩

theorem keys_programOf (functions : List (List CInst)) :
    ((programOf functions).map (·.1)).Perm (functions.flatten.map (·.address)) := by
  unfold programOf
  rw [List.map_map]
  exact (List.perm_insertionSort (fun i j : CInst => (i.address : Int) ≤ j.address) functions.flatten).map (·.address)

theorem listing_plain {functions : List (List CInst)} (h : FunctionListing functions) : PlainProgram (programOf functions) := by
  refine ⟨(keys_programOf functions).nodup_iff.2 h.distinct, ?_, ?_⟩
  · intro q hq i hi
    obtain ⟨c, hc, rfl⟩ := mem_programOf.1 hq
    rw [List.mem_singleton] at hi
    subst hi
    exact (h.fits i hc).2
  · intro q hq i hi
    obtain ⟨c, hc, rfl⟩ := mem_programOf.1 hq
    rw [List.mem_singleton] at hi
    subst hi
    rfl

theorem distinct_eq {functions : List (List CInst)} (h : DistinctAddresses functions) {c d : CInst}
    (hc : c ∈ functions.flatten) (hd : d ∈ functions.flatten) (he : c.address = d.address) : c = d :=
  List.inj_on_of_nodup_map h hc hd he

theorem recoverable_of {functions : List (List CInst)} (h : FunctionListing functions) {corrupted : Program}
    (hk : corrupted.map (·.1) = (programOf functions).map (·.1))
    (hq : ∀ q ∈ corrupted, q.2.length < 2 ^ 32 ∧ (∀ i ∈ q.2, i.encoding < 2 ^ 32) ∧
      ∃ l, (q.1, l) ∈ programOf functions ∧ ∀ c ∈ l, ∃ d ∈ q.2, d.encoding = c.encoding) :
    Recoverable functions corrupted := by
  refine ⟨h.some, h.filled, h.consecutive, h.distinct, hk, ?_, ?_, ?_⟩
  · intro q hqm c hc hcq
    obtain ⟨_, _, l, hl, hd⟩ := hq q hqm
    obtain ⟨c', hc', he⟩ := mem_programOf.1 hl
    rw [Prod.mk.injEq] at he
    obtain ⟨he, rfl⟩ := he
    have : c = c' := distinct_eq h.distinct hc hc' (hcq.trans he)
    subst this
    exact hd c (by simp)
  · have := congrArg List.length hk
    rw [List.length_map, List.length_map] at this
    have h2 := (keys_programOf functions).length_eq
    rw [List.length_map, List.length_map] at h2
    rw [this, h2]
    exact h.count
  · intro q hqm
    obtain ⟨h1, h2, l, hl, _⟩ := hq q hqm
    obtain ⟨c', hc', he⟩ := mem_programOf.1 hl
    rw [Prod.mk.injEq] at he
    exact ⟨he.1 ▸ (h.fits c' hc').1, h1, h2⟩

/-- **C96, packet losses**: the program returned for a listing can be recovered, if no
address has too many candidates to be counted in a solution file. -/
theorem C96_packets (functions : List (List CInst)) (h : FunctionListing functions) (lg : Rat → Int)
    (fuel count bpi size : Nat) (hb : bpi ≤ 32) (order lost : List Nat) (corrupted : Program)
    (hc : packetCorrupt lg fuel count bpi size order lost (programOf functions) = some (.ok corrupted))
    (hl : ∀ q ∈ corrupted, q.2.length < 2 ^ 32) : Recoverable functions corrupted := by
  obtain ⟨h1, h2⟩ := packet_at hb (listing_plain h) hc
  refine recoverable_of h h1 fun q hq => ?_
  obtain ⟨l, h3, _, h4, h5⟩ := h2 q hq
  exact ⟨hl q hq, h4, l, h3, h5⟩

/-- **C96, random corruption**: the program returned for a listing can be recovered when
at most 31 bits may be wrong in an instruction. -/
theorem C96_random (functions : List (List CInst)) (h : FunctionListing functions) (percent prod : Rat) (maxAmount : Int)
    (hm : maxAmount ≤ 31) (ds ds' : Draws) (corrupted : Program)
    (hc : corruptProgram (programOf functions) percent prod maxAmount ds = some (.ok (corrupted, ds'))) :
    Recoverable functions corrupted := by
  have hp := listing_plain h
  obtain ⟨h1, h2, _⟩ := C22_corrupt_program _ hp.keys percent prod maxAmount ds corrupted ds' hc
  have hpl := plain_random hp hc
  refine recoverable_of h h1 fun q hq => ?_
  have hmem : q.1 ∈ (programOf functions).map (·.1) := by rw [← h1]; exact List.mem_map.2 ⟨q, hq, rfl⟩
  obtain ⟨cs, hcs⟩ := Option.isSome_iff_exists.1 ((dictGet_isSome _ q.1).2 hmem)
  obtain ⟨cs', h3, h4⟩ := h2 q.1 cs hcs
  rw [dictGet_of_mem hpl.keys hq, Option.some.injEq] at h3
  subst h3
  have hone : cs.length = 1 := by
    obtain ⟨c, _, he⟩ := mem_programOf.1 (dictGet_mem hcs)
    rw [Prod.mk.injEq] at he
    rw [he.2]; rfl
  have hpow : 2 ^ (max 1 maxAmount).toNat < 2 ^ 32 := by
    apply Nat.pow_lt_pow_right (by omega)
    omega
  refine ⟨?_, hpl.words q hq, cs, dictGet_mem hcs, ?_⟩
  · rcases h4 with h4 | ⟨c, l, _, _, _, h5, _⟩
    · rw [h4, hone]; norm_num
    · omega
  · intro c hc
    rcases h4 with h4 | ⟨c', l, rfl, h5, _⟩
    · exact ⟨c, h4 ▸ hc, rfl⟩
    · rw [List.mem_singleton] at hc
      subst hc
      exact ⟨c, by rw [h5]; simp, rfl⟩

/-- **C96, replaying**: what was saved can be recovered again after it was loaded. -/
theorem C96_replay (functions : List (List CInst)) (p : List Char) (corrupted : Program) (before after : Disk)
    (h : Recoverable functions corrupted) (hs : SavedAs p corrupted before after) (other corrupted' : Program)
    (hl : (jsonCorrupt (some p) other after).result = .ok corrupted') : Recoverable functions corrupted' := by
  rw [hs.1 other] at hl
  simp only [Except.ok.injEq] at hl
  exact hl ▸ h

theorem ceilCount_bounds (ll : Nat) :
    (ll = 0 → ceilCount ((ll : Rat) / 32) = 0) ∧ (0 < ll → 0 < ceilCount ((ll : Rat) / 32)) ∧
    (ll ≤ 96 → ceilCount ((ll : Rat) / 32) ≤ 3) ∧ (97 ≤ ll → 4 ≤ ceilCount ((ll : Rat) / 32)) ∧
    ceilCount ((ll : Rat) / 32) ≤ ll := by
  unfold ceilCount
  have hlt : ∀ k : Int, k < ((ll : Rat) / 32).ceil ↔ 32 * k < ll := by
    intro k
    rw [Rat.lt_ceil_iff, lt_div_iff₀ (by norm_num)]
    constructor
    · intro h
      have : ((32 * k : Int) : Rat) < ((ll : Int) : Rat) := by push_cast; linarith
      exact_mod_cast this
    · intro h
      have : ((32 * k : Int) : Rat) < ((ll : Int) : Rat) := by exact_mod_cast h
      push_cast at this; linarith
  have h0 := hlt 0
  have h3 := hlt 3
  have hl := hlt ll
  generalize ((ll : Rat) / 32).ceil = z at *
  refine ⟨?_, ?_, ?_, ?_, ?_⟩ <;> omega

theorem sum_length_flatten (functions : List (List CInst)) :
    (functions.map List.length).sum = functions.flatten.length := by
  rw [List.length_flatten]

/-- The loss of packet 3 when there is one packet for 32 instructions: every address has
at most 1024 candidates and some address has several. -/
theorem main_corrupted (lg : Rat → Int) (hlg : LogOk lg) (functions : List (List CInst)) (h : FunctionListing functions)
    (hbig : 97 ≤ functions.flatten.length) (fuel : Nat) (hf : 1024 * functions.flatten.length + 2 ≤ fuel) :
    ∃ corrupted, packetCorrupt lg fuel (ceilCount ((functions.flatten.length : Rat) / 32)) 2
        functions.flatten.length [] [3] (programOf functions) = some (.ok corrupted) ∧
      (∀ q ∈ corrupted, q.2.length ≤ 1024) ∧ ∃ q ∈ corrupted, 1 < q.2.length := by
  obtain ⟨_, hpos, _, h4, hle⟩ := ceilCount_bounds functions.flatten.length
  generalize hP : ceilCount ((functions.flatten.length : Rat) / 32) = P at *
  generalize hL : functions.flatten.length = L at *
  obtain ⟨order, ho, hperm⟩ := C10_order_is_permutation lg hlg P fuel (by have := h4 hbig; omega) (by omega)
  have hmem3 : 3 ∈ order := hperm.mem_iff.2 (List.mem_range.2 (by have := h4 hbig; omega))
  have hone : order ≠ [] := List.ne_nil_of_mem hmem3
  have hidx : order.idxOf 3 < P := by
    have := List.idxOf_lt_length_iff.2 hmem3
    rwa [hperm.length_eq, List.length_range] at this
  obtain ⟨es, hes, hnd, hin⟩ := predict_single (fuel := fuel) (count := P) (bpi := 2) (size := L) hmem3
    (by have := h4 hbig; omega) (by omega)
  have hfirst : ∃ e ∈ es, e.1 < L ∧ 0 < e.2.2.getD 2 := by
    have hb : (2 * order.idxOf 3 + 0 * (2 * P)) < L * 32 := by omega
    generalize hx : 2 * order.idxOf 3 + 0 * (2 * P) = b at hb
    have hdiv : b / 32 < L := by omega
    by_cases c : b % 32 + 2 ≥ 32
    · refine ⟨(b / 32, b % 32, some (32 - 1 - b % 32)), (hin _).2 ⟨0, hx ▸ hb, ?_⟩, hdiv, ?_⟩
      · rw [hx]; unfold errTuples; rw [if_pos c]; simp
      · have : b % 32 = 30 := by omega
        rw [this]; simp
    · refine ⟨(b / 32, b % 32, none), (hin _).2 ⟨0, hx ▸ hb, ?_⟩, hdiv, by simp⟩
      rw [hx]; unfold errTuples; rw [if_neg c]; simp
  obtain ⟨e0, he0, hw0, hv0⟩ := hfirst
  have hne : es ≠ [] := List.ne_nil_of_mem he0
  have hp := listing_plain h
  obtain ⟨corrupted, c1, c2, c3⟩ := C24_packet_loss lg fuel P 2 L order [3] (programOf functions) (by omega) hone
    (by simp) es hes hne hp.keys hp.words
  have hk' : (corrupted.map (·.1)).Nodup := c2 ▸ hp.keys
  have hlenA : ((programOf functions).map (·.1)).length = L := by
    rw [(keys_programOf functions).length_eq, List.length_map, hL]
  have hsingle : ∀ a l, dictGet (programOf functions) a = some l → l.length = 1 := by
    intro a l hl
    obtain ⟨c, _, he⟩ := mem_programOf.1 (dictGet_mem hl)
    rw [Prod.mk.injEq] at he
    rw [he.2]; rfl
  refine ⟨corrupted, ?_, ?_, ?_⟩
  · rw [← c1]
    unfold packetCorrupt
    simp only [if_true, ho, if_neg hone]
  · intro q hq
    have hm : q.1 ∈ (programOf functions).map (·.1) := by rw [← c2]; exact List.mem_map.2 ⟨q, hq, rfl⟩
    obtain ⟨l, hcs⟩ := Option.isSome_iff_exists.1 ((dictGet_isSome _ q.1).2 hm)
    obtain ⟨w, hw⟩ := List.mem_iff_getElem?.1 ((List.mem_insertionSort (· ≤ ·)).2 hm)
    obtain ⟨l', d1, _, _, _, _, d2⟩ := c3 _ (List.perm_insertionSort _ _) (List.pairwise_insertionSort _ _)
      w q.1 l hw hcs
    rw [dictGet_of_mem hk' hq, Option.some.injEq] at d1
    subst d1
    rw [d2, hsingle _ _ hcs, Nat.one_mul]
    have := word_sum_le hnd (x0 := 2 * order.idxOf 3) (Nat.dvd_mul_right 2 _) (h4 hbig) hin w
    calc _ ≤ 2 ^ 10 := Nat.pow_le_pow_right (by omega) this
      _ = 1024 := by norm_num
  · have hlt : e0.1 < ((((programOf functions).map (·.1))).insertionSort (· ≤ ·)).length := by
      rw [List.length_insertionSort, hlenA]; exact hw0
    obtain ⟨a, ha⟩ : ∃ a, ((((programOf functions).map (·.1))).insertionSort (· ≤ ·))[e0.1]? = some a :=
      ⟨_, List.getElem?_eq_getElem hlt⟩
    have hm : a ∈ (programOf functions).map (·.1) :=
      (List.mem_insertionSort (· ≤ ·)).1 (List.mem_of_getElem? ha)
    obtain ⟨l, hcs⟩ := Option.isSome_iff_exists.1 ((dictGet_isSome _ a).2 hm)
    obtain ⟨l', d1, _, _, _, _, d2⟩ := c3 _ (List.perm_insertionSort _ _) (List.pairwise_insertionSort _ _)
      e0.1 a l ha hcs
    refine ⟨(a, l'), dictGet_mem d1, ?_⟩
    simp only
    rw [d2, hsingle _ _ hcs, Nat.one_mul]
    have hmem : e0.2.2.getD 2 ∈ ((es.filter fun e => decide (e.1 = e0.1)).map fun e => e.2.2.getD 2) :=
      List.mem_map.2 ⟨e0, List.mem_filter.2 ⟨he0, by simp⟩, rfl⟩
    have := List.le_sum_of_mem hmem
    exact Nat.one_lt_two_pow (by omega)

/-- **C96, the main program on a listing of at least 97 instructions.**  It ends and saves
no corrupted program.  The program it corrupts can be recovered, and if the evidence does
not speak against an original, the initial solution is written and can be read; the run
either stops with the division by zero of a report, or writes the final solution and
keeps every original. -/
theorem C96_main_partial (lg : Rat → Int) (hlg : LogOk lg) (functions : List (List CInst)) (h : FunctionListing functions)
    (hbig : 97 ≤ functions.flatten.length) (fuel : Nat) (hf : 1024 * functions.flatten.length + 2 ≤ fuel) :
    ∃ corrupted, Recoverable functions corrupted ∧ (∀ q ∈ corrupted, q.2.length ≤ 1024) ∧
      (∃ q ∈ corrupted, 1 < q.2.length) ∧
      ∀ (dec : Nat → Nat → Answers) (_ : ∀ a e, (dec a e).cand.m.encoding = e)
        (_ : ∀ q ∈ corrupted, ∀ c ∈ functions.flatten, c.address = q.1 → Undisputed dec c q.2)
        (path : List Char) (disk : Disk),
      ∃ files res, mainProgram dec lg fuel path functions disk = some (disk, files, res) ∧
        (∃ f, files.initial = some f ∧ SolutionFor functions corrupted f) ∧
        ((files.final = none ∧ res = .error .zeroDiv) ∨
         (∃ f left, files.final = some f ∧ SolutionFor functions corrupted f ∧ res = .ok left ∧
          ∀ c ∈ functions.flatten, ∃ l ∈ left, l.1 = c.address ∧ c ∈ l.2)) := by
  obtain ⟨corrupted, h1, h2, h3⟩ := main_corrupted lg hlg functions h hbig fuel hf
  have hrec : Recoverable functions corrupted := C96_packets functions h lg fuel _ 2 _ (by omega) [] [3] corrupted h1
    fun q hq => by have := h2 q hq; omega
  refine ⟨corrupted, hrec, h2, h3, fun dec henc hu path disk => ?_⟩
  have hlen : corrupted.length = functions.flatten.length := by
    have := congrArg List.length hrec.same
    rw [List.length_map, (keys_programOf functions).length_eq, List.length_map] at this
    exact this
  have hsum : (corrupted.map fun q => q.2.length).sum + 2 ≤ fuel := by
    have : (corrupted.map fun q => q.2.length).sum ≤ 1024 * corrupted.length := by
      clear hrec hlen h3 h1 hu
      induction corrupted with
      | nil => simp
      | cons q l ih =>
        have a := h2 q (by simp)
        have b := ih fun x hx => h2 x (by simp [hx])
        simp only [List.map_cons, List.sum_cons, List.length_cons]
        omega
    omega
  obtain ⟨files, res, hr, hcase⟩ := C94_run_partial dec henc (fun _ => .ok corrupted) functions corrupted rfl hrec hu
    fuel hsum
  refine ⟨files, res, ?_, ?_⟩
  · unfold mainProgram
    dsimp only
    rw [programOf_eq functions h.distinct, C95_path_set_later_refuted, sum_length_flatten, h1]
    simp only [Option.map_some, hr]
  · rcases hcase with ⟨hall, _⟩ | ⟨_, h5, h6⟩
    · obtain ⟨q, hq, hlt⟩ := h3
      have := hall q hq
      omega
    · exact ⟨h5, h6⟩

/-- **C96, small listings**: with 96 instructions or fewer there is no packet 3, and the
main program raises before it writes anything. -/
theorem C96_small_refuted (lg : Rat → Int) (hlg : LogOk lg) (functions : List (List CInst))
    (hsmall : functions.flatten.length ≤ 96) (dec : Nat → Nat → Answers) (fuel : Nat)
    (hf : functions.flatten.length < fuel) (path : List Char) (disk : Disk) :
    mainProgram dec lg fuel path functions disk =
      some (disk, {}, .error (if functions.flatten.length = 0 then .index else .value)) := by
  obtain ⟨h0, hpos, h3, _, hle⟩ := ceilCount_bounds functions.flatten.length
  have hcor : ∀ prog, packetCorrupt lg fuel (ceilCount ((functions.flatten.length : Rat) / 32)) 2
      functions.flatten.length [] [3] prog =
      some (.error (if functions.flatten.length = 0 then .index else .value)) := by
    intro prog
    unfold packetCorrupt
    simp only [List.cons_ne_nil, if_false, if_true]
    by_cases hz : functions.flatten.length = 0
    · rw [h0 hz]
      obtain ⟨k, rfl⟩ : ∃ k, fuel = k + 1 := ⟨fuel - 1, by omega⟩
      simp only [Nat.cast_zero, C10_no_packets, hz, if_true]
    · obtain ⟨order, ho, hperm⟩ := C10_order_is_permutation lg hlg
        (ceilCount ((functions.flatten.length : Rat) / 32)) fuel (hpos (by omega)) (by omega)
      rw [ho]
      simp only [if_neg hz]
      rw [(C15_rejections _ _ _ _ order [3]).2 ⟨3, by simp, by
        rw [hperm.mem_iff, List.mem_range]; have := h3 hsmall; omega⟩]
  unfold mainProgram
  dsimp only
  rw [C95_path_set_later_refuted, sum_length_flatten, hcor]
  simp only [Option.map_some]
  unfold runRecovery
  rfl

/-- A listing of 128 instructions at consecutive addresses. -/
def longListing : List (List CInst) := [(List.range 128).map fun k => ⟨0xE0000000 + 2 * k, 4 * k⟩]

/-- It meets the assumptions. -/
theorem longListing_meets : FunctionListing longListing ∧ 97 ≤ longListing.flatten.length := by
  refine ⟨⟨by simp [longListing], by simp [longListing], ?_, ?_, by simp [longListing], ?_⟩, by simp [longListing]⟩
  · intro f hf k hk
    simp only [longListing, List.mem_singleton] at hf
    subst hf
    simp
  · unfold DistinctAddresses longListing
    simp only [List.flatten_cons, List.flatten_nil, List.append_nil, List.map_map]
    refine List.Nodup.map_on ?_ List.nodup_range
    intro x _ y _ hxy
    simp only [Function.comp] at hxy
    omega
  · intro c hc
    simp only [longListing, List.flatten_cons, List.flatten_nil, List.append_nil, List.mem_map, List.mem_range] at hc
    obtain ⟨k, hk, rfl⟩ := hc
    simp only
    omega

/-- Instructions that all use register 1, with the condition "always". -/
def plainDec (_ e : Nat) : Answers := ⟨ordinary e 14 1 [1], [1], e⟩

/-- No evidence speaks against any of them. -/
theorem plainDec_meets (c : CInst) (v : List CInst) : Undisputed plainDec c v :=
  ⟨rfl, by simp [plainDec, ordinary], Or.inr rfl, fun _ _ _ _ _ => ⟨rfl, fun _ hr => hr⟩, fun _ hr => hr,
    fun _ _ _ => ⟨rfl, rfl, rfl, rfl⟩⟩

/-- The main program on two instructions. -/
example : mainProgram plainDec (fun p => (Nat.log 4 p.num.toNat : Int)) 10 [] exFunctions [] =
    some ([], {}, .error .value) :=
  C96_small_refuted _ logOk_exact _ (by decide) _ _ (by decide) _ _

end Verif
