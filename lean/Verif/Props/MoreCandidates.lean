import Verif.Props.Evidence

/-!
# C145: more candidates and the evidence from counts
-/

namespace Verif

open Spec

/-- Every candidate of the first program is a candidate of the second at the same address. -/
def MoreCands (prog prog' : List (List (RInst Scored))) : Prop :=
  List.Forall₂ (fun v v' => ∀ x ∈ v, ∃ x' ∈ v', x'.data.c = x.data.c) prog prog'

theorem countP_zip_le {f : MInst → Bool} : ∀ (addrs : List Int) {prog prog' : List (List (RInst Scored))},
    MoreCands prog prog' →
    addressesWith ((addrs.zip (prog.map fun v => v.map (·.data.c))).map fun q => (q.1, q.2.map (·.m))) f ≤
      addressesWith ((addrs.zip (prog'.map fun v => v.map (·.data.c))).map fun q => (q.1, q.2.map (·.m))) f := by
  intro addrs
  induction addrs with
  | nil => intro prog prog' _; simp [addressesWith]
  | cons a addrs ih =>
    intro prog prog' h
    cases h with
    | nil => simp [addressesWith]
    | cons hv ht =>
      rename_i v v' l l'
      have := ih ht
      simp only [addressesWith, List.map_cons, List.zip_cons_cons, List.countP_cons] at this ⊢
      have hany : ((v.map (·.data.c)).map (·.m)).any (fun i => !i.ignore && f i) = true →
          ((v'.map (·.data.c)).map (·.m)).any (fun i => !i.ignore && f i) = true := by
        simp only [List.any_eq_true, List.mem_map]
        rintro ⟨_, ⟨_, ⟨x, hx, rfl⟩, rfl⟩, hp⟩
        obtain ⟨x', hx', he⟩ := hv x hx
        exact ⟨_, ⟨_, ⟨x', hx', rfl⟩, rfl⟩, by rw [he]; exact hp⟩
      split
      · rename_i h1
        rw [if_pos (hany h1)]
        omega
      · split <;> omega

theorem zip_pos {f : MInst → Bool} {addrs : List Int} {prog : List (List (RInst Scored))} {i : Nat} {a : Int}
    {v : List (RInst Scored)} {x : RInst Scored} (ha : addrs[i]? = some a) (hv : prog[i]? = some v) (hx : x ∈ v)
    (hd : x.data.c.m.ignore = false) (hf : f x.data.c.m = true) :
    0 < addressesWith ((addrs.zip (prog.map fun v => v.map (·.data.c))).map fun q => (q.1, q.2.map (·.m))) f := by
  unfold addressesWith
  rw [List.countP_pos_iff]
  refine ⟨(a, (v.map (·.data.c)).map (·.m)), ?_, ?_⟩
  · rw [List.mem_map]
    refine ⟨(a, v.map (·.data.c)), ?_, rfl⟩
    apply List.mem_of_getElem? (i := i)
    rw [List.getElem?_zip_eq_some]
    exact ⟨ha, by rw [List.getElem?_map, hv]; rfl⟩
  · simp only [List.any_eq_true, List.mem_map]
    exact ⟨_, ⟨_, ⟨x, hx, rfl⟩, rfl⟩, by simp [hd, hf]⟩

/-- **C145, what does hold** (missing: the evidence from neighbours, `C145_refuted`): when a
program has more candidates, the evidence from counting conditions, opcodes and registers
that a candidate gets is never stronger. -/
theorem C145_counts_partial (orig : List MInst) (fns : Fns) (addrs : List Int) (prog prog' r r' : List (List (RInst Scored)))
    (hn : addrs.Nodup) (hlen : addrs.length = prog.length) (hmore : MoreCands prog prog')
    (h : recuperate (collectMeta {} orig) fns addrs prog = .ok r)
    (h' : recuperate (collectMeta {} orig) fns addrs prog' = .ok r')
    (i : Nat) (w w' : List (RInst Scored)) (hw : r[i]? = some w) (hw' : r'[i]? = some w')
    (y y' : RInst Scored) (hy : y ∈ w) (hy' : y' ∈ w') (hc : y'.data.c = y.data.c) (hd : y.data.c.m.ignore = false) :
    (∃ e e', dictGet y.data.scores .pc = some e ∧ dictGet y'.data.scores .pc = some e' ∧ e' ≤ e) ∧
    (∃ e e', dictGet y.data.scores .po = some e ∧ dictGet y'.data.scores .po = some e' ∧ e' ≤ e) ∧
    (y.data.c.isBranch = false → y.data.c.isPush = false → y.data.c.isPop = false →
      ∃ e e', dictGet y.data.scores .pr = some e ∧ dictGet y'.data.scores .pr = some e' ∧ e' ≤ e) := by
  have hlen' : addrs.length = prog'.length := hlen.trans hmore.length_eq
  obtain ⟨l1, s1⟩ := C85_evidence orig fns addrs prog r hn hlen h
  obtain ⟨l2, s2⟩ := C85_evidence orig fns addrs prog' r' hn hlen' h'
  have hi : i < r.length := (List.getElem?_eq_some_iff.1 hw).1
  have hia : i < addrs.length := by omega
  have hip : i < prog.length := by omega
  have hip' : i < prog'.length := by omega
  obtain ⟨k1, t1⟩ := s1 i _ _ w (List.getElem?_eq_getElem hia) (List.getElem?_eq_getElem hip) hw
  obtain ⟨k2, t2⟩ := s2 i _ _ w' (List.getElem?_eq_getElem hia) (List.getElem?_eq_getElem hip') hw'
  obtain ⟨j, hj, rfl⟩ := List.getElem_of_mem hy
  obtain ⟨j', hj', rfl⟩ := List.getElem_of_mem hy'
  have hjv : j < prog[i].length := by omega
  have hjv' : j' < prog'[i].length := by omega
  obtain ⟨_, _, e3, _, e5⟩ := t1 j _ _ (List.getElem?_eq_getElem hjv) (List.getElem?_eq_getElem hj)
  obtain ⟨_, _, f3, _, f5⟩ := t2 j' _ _ (List.getElem?_eq_getElem hjv') (List.getElem?_eq_getElem hj')
  rw [f3, e3] at hc
  rw [e3] at hd
  have E := e5 hd
  have F := f5 (by rw [hc]; exact hd)
  rw [hc] at F
  have hx : prog[i][j] ∈ prog[i] := List.getElem_mem hjv
  have hpos : ∀ f : MInst → Bool, f prog[i][j].data.c.m = true →
      0 < addressesWith ((addrs.zip (prog.map fun v => v.map (·.data.c))).map fun q => (q.1, q.2.map (·.m))) f :=
    fun f hf => zip_pos (List.getElem?_eq_getElem hia) (List.getElem?_eq_getElem hip) hx hd hf
  have hratio : ∀ (n : Nat) (f : MInst → Bool), f prog[i][j].data.c.m = true →
      ratioTo n (addrs.zip (prog'.map fun v => v.map (·.data.c))) f ≤
        ratioTo n (addrs.zip (prog.map fun v => v.map (·.data.c))) f := by
    intro n f hf
    unfold ratioTo
    have h1 : (0 : Rat) < (addressesWith ((addrs.zip (prog.map fun v => v.map (·.data.c))).map fun q => (q.1, q.2.map (·.m))) f : Nat) := by
      exact_mod_cast hpos f hf
    have h2 : ((addressesWith ((addrs.zip (prog.map fun v => v.map (·.data.c))).map fun q => (q.1, q.2.map (·.m))) f : Nat) : Rat)
        ≤ (addressesWith ((addrs.zip (prog'.map fun v => v.map (·.data.c))).map fun q => (q.1, q.2.map (·.m))) f : Nat) := by
      exact_mod_cast countP_zip_le (f := f) addrs hmore
    exact div_le_div_of_nonneg_left (by positivity) h1 h2
  rw [e3]
  refine ⟨⟨_, _, E.cond, F.cond, hratio _ _ (by simp)⟩, ⟨_, _, E.opcode, F.opcode, hratio _ _ (by simp)⟩, ?_⟩
  intro b1 b2 b3
  obtain ⟨v, v1, v2, v3, v4⟩ := E.regs b1 b2 b3
  obtain ⟨u, u1, u2, u3, u4⟩ := F.regs b1 b2 b3
  refine ⟨v, u, v1, u1, ?_⟩
  rcases v4 with rfl | ⟨s, hs, rfl⟩
  · exact u2
  · exact (u3 s hs).trans (hratio _ _ (by simpa using hs))

/-- Two addresses with two candidates each. -/
def fewCands : List (List (RInst Scored)) :=
  [[fresh (ordinary 10 14 2 [1, 2]), fresh (ordinary 11 0 3 [3])],
   [fresh (ordinary 20 0 3 [3, 1]), fresh (ordinary 21 14 2 [2])]]

/-- One more candidate at the first. -/
def manyCands : List (List (RInst Scored)) :=
  [[fresh (ordinary 10 14 2 [1, 2]), fresh (ordinary 11 0 3 [3]), fresh (ordinary 12 14 2 [3])],
   [fresh (ordinary 20 0 3 [3, 1]), fresh (ordinary 21 14 2 [2])]]

/-- What a scoring of a program against the two instructions says of each candidate. -/
def scoredAs {β : Type} (f : RInst Scored → β) (prog : List (List (RInst Scored))) : Option (List (List β)) :=
  (recuperate (collectMeta {} [(ordinary 10 14 2 [1, 2]).m, (ordinary 20 0 3 [3, 1]).m]) [(0, (0, 4))] [0, 4] prog).toOption.map
    (List.map (List.map f))

theorem fewCands_more : MoreCands fewCands manyCands := by
  refine .cons ?_ (.cons ?_ .nil)
  · intro x hx
    exact ⟨x, by
      simp only [List.mem_cons, List.not_mem_nil, or_false] at hx ⊢
      tauto, rfl⟩
  · exact fun x hx => ⟨x, hx, rfl⟩

/-- The evidence from conditions, opcodes and registers. -/
def evidRow (y : RInst Scored) : List Rat :=
  [Evid.pc, .po, .pr].map fun k => (dictGet y.data.scores k).getD 0

/-- The second address still certain. -/
def fewerCands : List (List (RInst Scored)) :=
  [[fresh (ordinary 10 14 2 [1, 2]), fresh (ordinary 11 0 3 [3])], [fresh (ordinary 20 0 3 [3, 1])]]

/-- The hypotheses of `C145_counts_partial` are met; with the candidate 21, of the condition,
opcode and register of 10, the evidence of 10 is halved. -/
theorem C145_case : MoreCands fewerCands fewCands ∧
    scoredAs evidRow fewerCands = some [[[1, 1, 1], [1 / 2, 1 / 2, 1 / 2]], [[1 / 2, 1 / 2, 1 / 2]]] ∧
    scoredAs evidRow fewCands = some [[[1 / 2, 1 / 2, 1 / 2], [1 / 2, 1 / 2, 1 / 2]],
      [[1 / 2, 1 / 2, 1 / 2], [1 / 2, 1 / 2, 1 / 2]]] := by
  refine ⟨.cons (fun x hx => ⟨x, hx, rfl⟩) (.cons (fun x hx => ⟨x, ?_, rfl⟩) .nil), by decide +kernel, by decide +kernel⟩
  simp only [List.mem_cons, List.not_mem_nil, or_false] at hx ⊢
  tauto

/-- **C145 is false of the score.**  With one more candidate at the first address, of the
same condition, the candidate 21 of the second gets a higher score. -/
theorem C145_refuted : MoreCands fewCands manyCands ∧
    scoredAs (fun y => (y.enc, y.score)) fewCands =
      some [[(10, 1 / 8), (11, 1 / 8)], [(20, 13 / 640), (21, 13 / 320000)]] ∧
    scoredAs (fun y => (y.enc, y.score)) manyCands =
      some [[(10, 1 / 8), (11, 1 / 8), (12, 1 / 8)], [(20, 13 / 1440), (21, 13 / 240000)]] := by
  refine ⟨fewCands_more, by decide +kernel, by decide +kernel⟩

end Verif
