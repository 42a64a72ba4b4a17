import Verif.Props.ChristofidesRatio

/-!
# Property C112: when the defect of the local search strikes

`optimize_two_matching` stores the edge `[v0, v2]` instead of `[v0, v3]` in one of its branches. Here: the matching is perfect exactly if no round enters this branch; the instances for which
no shuffle does so; what holds for the tour if it is not entered.
-/

namespace Walky.Props

open FloatOps XNum Spec

set_option linter.unusedSectionVars false

section arith
variable {α : Type} [FloatOps α]

/-- Of the three pairings of the ends of the two edges the one that is tried last is cheaper than the one that is
tried first, which is cheaper than the present one. -/
def Strikes (m : Mat α) (a b : Nat × Nat) : Prop :=
  (m.get a.1 b.1 +ᶠ m.get a.2 b.2 <ᶠ m.get a.1 a.2 +ᶠ m.get b.1 b.2) = true ∧
  (m.get a.1 b.2 +ᶠ m.get a.2 b.1 <ᶠ m.get a.1 b.1 +ᶠ m.get a.2 b.2) = true

/-- two edges that are treated together, as the first and second, the third and fourth, … are, have such costs -/
def StrikesIn (m : Mat α) (l : List (Nat × Nat)) : Prop :=
  ∃ i a b, l[2 * i]? = some a ∧ l[2 * i + 1]? = some b ∧ Strikes m a b

private theorem strikesIn_cons {m : Mat α} {a b : Nat × Nat} {t : List (Nat × Nat)} :
    StrikesIn m (a :: b :: t) ↔ Strikes m a b ∨ StrikesIn m t := by
  constructor
  · rintro ⟨i, x, y, h1, h2, h3⟩
    cases i with
    | zero =>
      simp only [Nat.mul_zero, List.getElem?_cons_zero, Option.some.injEq, Nat.zero_add,
        List.getElem?_cons_succ] at h1 h2
      subst h1 h2
      exact Or.inl h3
    | succ i =>
      refine Or.inr ⟨i, x, y, ?_, ?_, h3⟩
      · rw [show 2 * (i + 1) = 2 * i + 1 + 1 from by ring, List.getElem?_cons_succ, List.getElem?_cons_succ] at h1
        exact h1
      · rw [show 2 * (i + 1) + 1 = 2 * i + 1 + 1 + 1 from by ring, List.getElem?_cons_succ,
          List.getElem?_cons_succ] at h2
        exact h2
  · rintro (h | ⟨i, x, y, h1, h2, h3⟩)
    · exact ⟨0, a, b, rfl, rfl, h⟩
    · refine ⟨i + 1, x, y, ?_, ?_, h3⟩
      · rw [show 2 * (i + 1) = 2 * i + 1 + 1 from by ring, List.getElem?_cons_succ, List.getElem?_cons_succ]
        exact h1
      · rw [show 2 * (i + 1) + 1 = 2 * i + 1 + 1 + 1 from by ring, List.getElem?_cons_succ,
          List.getElem?_cons_succ]
        exact h2

private theorem opt2_strikes {m : Mat α} {a b : Nat × Nat} (h : Strikes m a b) :
    opt2 m a b = ((a.1, b.1), (a.2, b.1)) := by
  unfold opt2
  simp only [h.1, h.2, if_true]

private theorem opt2_ends {m : Mat α} {a b : Nat × Nat} (h : ¬ Strikes m a b) :
    (flattenEdges [(opt2 m a b).1, (opt2 m a b).2]).Perm (flattenEdges [a, b]) := by
  unfold opt2
  simp only [flattenEdges, List.flatMap_cons, List.flatMap_nil, List.append_nil, List.cons_append,
    List.nil_append]
  split
  · rename_i h1
    split
    · rename_i h2
      exact (h ⟨h1, h2⟩).elim
    · exact List.Perm.cons _ (List.Perm.swap _ _ _)
  · split
    · refine List.Perm.cons _ ?_
      exact (List.Perm.swap _ _ _).trans (List.Perm.cons _ (List.Perm.swap _ _ _))
    · exact List.Perm.refl _

private theorem imp_ends {m : Mat α} : ∀ (l : List (Nat × Nat)), ¬ StrikesIn m l →
    (flattenEdges (imp m l)).Perm (flattenEdges l)
  | [], _ => .refl _
  | [_], _ => .refl _
  | a :: b :: t, h => by
    rw [strikesIn_cons, not_or] at h
    exact (opt2_ends h.1).append (imp_ends t h.2)

private theorem imp_twice {m : Mat α} : ∀ (l : List (Nat × Nat)), StrikesIn m l →
    ¬ (flattenEdges (imp m l)).Nodup
  | [], h => by obtain ⟨i, a, b, h, -⟩ := h; simp at h
  | [_], h => by obtain ⟨i, a, b, -, h, -⟩ := h; simp at h
  | a :: b :: t, h => by
    intro hd
    have e1 : flattenEdges (imp m (a :: b :: t)) =
        flattenEdges [(opt2 m a b).1, (opt2 m a b).2] ++ flattenEdges (imp m t) := rfl
    rw [e1] at hd
    rcases strikesIn_cons.mp h with h | h
    · have hd := hd.of_append_left
      rw [opt2_strikes h] at hd
      simp [flattenEdges] at hd
    · exact imp_twice t h hd.of_append_right

private theorem impRun_succ {m : Mat α} {shuf : Nat → List (Nat × Nat) → List (Nat × Nat)}
    (hsh : ∀ k l, (shuf k l).Perm l) {l : List (Nat × Nat)} (k : Nat) :
    impRun m shuf (k + 1) l = imp m (shuf k (impRun m shuf k l)) := by
  unfold impRun
  split
  · rename_i hl
    match l, hl with
    | [], _ => rw [List.perm_nil.mp (hsh k [])]; rfl
    | [a], _ => rw [List.perm_singleton.mp (hsh k [a])]; rfl
  · rw [List.range_succ, List.foldl_append]; rfl

private theorem perm_of_full {V l : List Nat} (hV : V.Nodup) (hl : l.length = V.length) (h : ∀ v ∈ V, v ∈ l) :
    l.Perm V :=
  ((hV.subperm h).perm_of_length_le (by omega)).symm

/-- **C112, when the matching is perfect** In every arithmetic and for all shuffles of an even number of vertices:
the matching is perfect after all rounds exactly if in no round two edges that are treated together have three
pairings of which the last is cheaper than the first and the first cheaper than the present one. -/
theorem C112_perfect_iff {m : Mat α} {r : MatchRng} (hr : r.Ok) {V : List Nat} (hV : V.Nodup)
    (hlt : ∀ v ∈ V, v < m.dim) (hev : V.length % 2 = 0) (tries : Nat) :
    ∃ M : Nat → List (Nat × Nat), (∀ k, approxMatchingSeq m r V k = .ok (M k)) ∧
      (PerfectMatching V (M tries) ↔ ∀ k < tries, ¬ StrikesIn m (r.edges k (M k))) := by
  have hfl : (flattenEdges (pairUp (r.vertices V))).Perm V := by
    rw [flatten_pairUp _ (by rw [(hr.vertices V).length_eq]; exact hev)]; exact hr.vertices V
  have hvalid : Valid m.dim (pairUp (r.vertices V)) := valid_iff.mpr fun v hv => hlt v (hfl.mem_iff.mp hv)
  refine ⟨fun k => impRun m r.edges k (pairUp (r.vertices V)), fun k => improveMatching_eq hr.edges hvalid, ?_⟩
  show PerfectMatching V (impRun m r.edges tries (pairUp (r.vertices V))) ↔
    ∀ k < tries, ¬ StrikesIn m (r.edges k (impRun m r.edges k (pairUp (r.vertices V))))
  induction tries with
  | zero =>
    refine ⟨fun _ k hk => absurd hk (by omega), fun _ => ?_⟩
    have : impRun m r.edges 0 (pairUp (r.vertices V)) = pairUp (r.vertices V) := by
      unfold impRun; split <;> rfl
    rw [this]
    exact hfl
  | succ t ih =>
    have hstep := impRun_succ (m := m) hr.edges (l := pairUp (r.vertices V)) t
    have hlen : (flattenEdges (impRun m r.edges t (pairUp (r.vertices V)))).length = V.length := by
      have e : (ends (impRun m r.edges t (pairUp (r.vertices V)))).length =
        2 * (impRun m r.edges t (pairUp (r.vertices V))).length := length_ends _
      have e2 : (ends (pairUp (r.vertices V))).length = 2 * (pairUp (r.vertices V)).length := length_ends _
      rw [(impRun_mem hr.edges).1, ← e2] at e
      exact e.trans hfl.length_eq
    have hsh := flatten_perm (hr.edges t (impRun m r.edges t (pairUp (r.vertices V))))
    constructor
    · intro h
      have h' : (flattenEdges (imp m (r.edges t (impRun m r.edges t (pairUp (r.vertices V)))))).Perm V := by
        rw [← hstep]; exact h
      have hp : PerfectMatching V (impRun m r.edges t (pairUp (r.vertices V))) :=
        perm_of_full hV hlen fun v hv => hsh.mem_iff.mp (imp_mem m _ v (h'.mem_iff.mpr hv))
      intro k hk
      rcases Nat.lt_succ_iff_lt_or_eq.mp hk with hk | rfl
      · exact ih.mp hp k hk
      · exact fun hs => imp_twice _ hs (h'.nodup_iff.mpr hV)
    · intro h
      have hp := ih.mpr fun k hk => h k (by omega)
      rw [hstep]
      exact ((imp_ends _ (h t (by omega))).trans hsh).trans hp

/-- **C112, lost vertices** In every arithmetic and for all shuffles: a vertex that is in the matching after some round
was in it after every earlier round. So a vertex that the wrong branch has lost never comes back. -/
theorem C112_lost {m : Mat α} {r : MatchRng} (hr : r.Ok) {V : List Nat} (hlt : ∀ v ∈ V, v < m.dim) {s t : Nat}
    (hst : s ≤ t) : ∃ M M', approxMatchingSeq m r V s = .ok M ∧ approxMatchingSeq m r V t = .ok M' ∧
      M'.length = M.length ∧ ∀ v ∈ ends M', v ∈ ends M := by
  obtain ⟨M, h1, -, h2, -, h3⟩ := approxMatchingSeq_ok (m := m) hr hlt s
  obtain ⟨M', h1', -, h2', -, h3'⟩ := approxMatchingSeq_ok (m := m) hr hlt t
  refine ⟨M, M', h1, h1', h2'.trans h2.symm, ?_⟩
  rw [h3, h3']
  clear h3 h3' h1 h1' h2 h2'
  induction hst with
  | refl => exact fun v hv => hv
  | step _ ih =>
    intro v hv
    rw [impRun_succ hr.edges] at hv
    exact ih v ((flatten_perm (hr.edges _ _)).mem_iff.mp (imp_mem m _ v hv))

end arith

section exact
variable {K : Type} [Field K] [LinearOrder K] [IsStrictOrderedRing K]

/-- As `NoThree`, for the vertices in `V`: no four of them have three pairings of three different costs in which the
pairing `03, 12` beats `02, 13`, which beats `01, 23`. -/
def NoThreeIn (c : Nat → Nat → K) (V : List Nat) : Prop :=
  ∀ v0 ∈ V, ∀ v1 ∈ V, ∀ v2 ∈ V, ∀ v3 ∈ V, [v0, v1, v2, v3].Nodup →
    ¬ (c v0 v3 + c v1 v2 < c v0 v2 + c v1 v3 ∧ c v0 v2 + c v1 v3 < c v0 v1 + c v2 v3)

private theorem strikes_iff {m : Mat (XNum K)} {c : Nat → Nat → K} (hm : Rep m c) {a b : Nat × Nat}
    (ha : a.1 < m.dim ∧ a.2 < m.dim) (hb : b.1 < m.dim ∧ b.2 < m.dim) (hd : [a.1, a.2, b.1, b.2].Nodup) :
    Strikes m a b ↔ c a.1 b.2 + c a.2 b.1 < c a.1 b.1 + c a.2 b.2 ∧
      c a.1 b.1 + c a.2 b.2 < c a.1 a.2 + c b.1 b.2 := by
  simp only [List.nodup_cons, List.mem_cons, List.not_mem_nil, or_false, not_or, List.nodup_nil, and_true,
    not_false_eq_true] at hd
  obtain ⟨⟨d1, d2, d3⟩, ⟨d4, d5⟩, d6⟩ := hd
  unfold Strikes
  rw [hm.off _ _ ha.1 ha.2 d1, hm.off _ _ hb.1 hb.2 d6, hm.off _ _ ha.1 hb.1 d2, hm.off _ _ ha.2 hb.2 d5,
    hm.off _ _ ha.1 hb.2 d3, hm.off _ _ ha.2 hb.1 d4]
  simp only [add_fin, lt_fin, decide_eq_true_eq]
  exact and_comm

private theorem pair_ends {V : List Nat} (hV : V.Nodup) {l : List (Nat × Nat)} (hl : (flattenEdges l).Perm V)
    {i : Nat} {a b : Nat × Nat} (ha : l[2 * i]? = some a) (hb : l[2 * i + 1]? = some b) :
    a.1 ∈ V ∧ a.2 ∈ V ∧ b.1 ∈ V ∧ b.2 ∈ V ∧ [a.1, a.2, b.1, b.2].Nodup := by
  have hs : [a, b].Sublist l := by
    have h1 : l.drop (2 * i) = a :: b :: l.drop (2 * i + 2) := by
      obtain ⟨hi, ha⟩ := List.getElem?_eq_some_iff.mp ha
      obtain ⟨hj, hb⟩ := List.getElem?_eq_some_iff.mp hb
      rw [List.drop_eq_getElem_cons hi, ha, List.drop_eq_getElem_cons hj, hb]
    have h2 : [a, b].Sublist (l.drop (2 * i)) := by
      rw [h1]
      exact ((List.nil_sublist _).cons_cons b).cons_cons a
    exact h2.trans (List.drop_sublist _ _)
  obtain ⟨R, hR⟩ := hs.exists_perm_append
  have hp : ([a.1, a.2, b.1, b.2] ++ flattenEdges R).Perm V := (flatten_perm hR).symm.trans hl
  have hm : ∀ v ∈ [a.1, a.2, b.1, b.2], v ∈ V := fun v hv => hp.mem_iff.mp (List.mem_append_left _ hv)
  exact ⟨hm _ (by simp), hm _ (by simp), hm _ (by simp), hm _ (by simp), (hp.nodup_iff.mpr hV).of_append_left⟩

/-- **C112, for which instances** For finite costs and at least one round: the matching is perfect for all shuffles
exactly if no four of the vertices have three pairings of three different costs. -/
theorem C112_always_iff {m : Mat (XNum K)} {c : Nat → Nat → K} (hm : Rep m c) {V : List Nat} (hV : V.Nodup)
    (hlt : ∀ v ∈ V, v < m.dim) (hev : V.length % 2 = 0) {tries : Nat} (ht : 1 ≤ tries) :
    (∀ r : MatchRng, r.Ok → ∃ M, approxMatchingSeq m r V tries = .ok M ∧ PerfectMatching V M) ↔ NoThreeIn c V := by
  constructor
  · intro h v0 h0 v1 h1 v2 h2 v3 h3 hd hc
    have hsub : [v0, v1, v2, v3].Subperm V := hd.subperm fun v hv => by
      simp only [List.mem_cons, List.not_mem_nil, or_false] at hv
      rcases hv with rfl | rfl | rfl | rfl <;> assumption
    obtain ⟨l, hl, hs⟩ := hsub
    obtain ⟨R, hR⟩ := hs.exists_perm_append
    have hW : ([v0, v1, v2, v3] ++ R).Perm V := (hR.trans (hl.append_right R)).symm
    let r : MatchRng := ⟨fun x => if x = V then [v0, v1, v2, v3] ++ R else x, fun _ x => x⟩
    have hr : r.Ok := by
      refine ⟨fun x => ?_, fun _ x => .refl x⟩
      show (if x = V then [v0, v1, v2, v3] ++ R else x).Perm x
      split
      · rename_i e; rw [e]; exact hW
      · exact .refl _
    obtain ⟨M, hM, hP⟩ := h r hr
    obtain ⟨M', e1, e2⟩ := C112_perfect_iff (m := m) hr hV hlt hev tries
    have : M = M' tries := Except.ok.inj (hM.symm.trans (e1 tries))
    subst this
    refine e2.mp hP 0 (by omega) ?_
    have hW0 : M' 0 = pairUp ([v0, v1, v2, v3] ++ R) := by
      refine Except.ok.inj ((e1 0).symm.trans ?_)
      show improveMatching m r.edges 0 (pairUp (if V = V then [v0, v1, v2, v3] ++ R else V)) = _
      rw [if_pos rfl]
      unfold improveMatching
      split <;> rfl
    refine ⟨0, (v0, v1), (v2, v3), ?_, ?_, ?_⟩
    · show (M' 0)[0]? = _
      rw [hW0]; rfl
    · show (M' 0)[1]? = _
      rw [hW0]; rfl
    · exact (strikes_iff hm ⟨hlt _ h0, hlt _ h1⟩ ⟨hlt _ h2, hlt _ h3⟩ hd).mpr hc
  · intro h r hr
    obtain ⟨M, e1, -⟩ := C112_perfect_iff (m := m) hr hV hlt hev tries
    have key : ∀ t, PerfectMatching V (M t) := by
      intro t
      induction t using Nat.strong_induction_on with
      | _ t ih =>
        obtain ⟨M', f1, f2⟩ := C112_perfect_iff (m := m) hr hV hlt hev t
        have : M' = M := funext fun k => Except.ok.inj ((f1 k).symm.trans (e1 k))
        subst this
        refine f2.mpr fun k hk hs => ?_
        obtain ⟨i, a, b, ha, hb, hs⟩ := hs
        obtain ⟨g1, g2, g3, g4, g5⟩ := pair_ends hV ((flatten_perm (hr.edges k _)).trans (ih k hk)) ha hb
        exact h _ g1 _ g2 _ g3 _ g4 g5
          ((strikes_iff hm ⟨hlt _ g1, hlt _ g2⟩ ⟨hlt _ g3, hlt _ g4⟩ g5).mp hs)
    exact ⟨M tries, e1 tries, key tries⟩

private theorem opt2_cost {m : Mat (XNum K)} {c : Nat → Nat → K} (hm : Rep m c) {a b : Nat × Nat}
    (ha : a.1 < m.dim ∧ a.2 < m.dim) (hb : b.1 < m.dim ∧ b.2 < m.dim) (hd : [a.1, a.2, b.1, b.2].Nodup)
    (h : ¬ Strikes m a b) : edgeSum c [(opt2 m a b).1, (opt2 m a b).2] ≤ edgeSum c [a, b] := by
  simp only [List.nodup_cons, List.mem_cons, List.not_mem_nil, or_false, not_or, List.nodup_nil, and_true,
    not_false_eq_true] at hd
  obtain ⟨⟨d1, d2, d3⟩, ⟨d4, d5⟩, d6⟩ := hd
  unfold opt2
  simp only [edgeSum, List.map_cons, List.map_nil, List.sum_cons, List.sum_nil, add_zero]
  split
  · rename_i h1
    split
    · rename_i h2
      exact (h ⟨h1, h2⟩).elim
    · rw [hm.off _ _ ha.1 ha.2 d1, hm.off _ _ hb.1 hb.2 d6, hm.off _ _ ha.1 hb.1 d2, hm.off _ _ ha.2 hb.2 d5] at h1
      simp only [add_fin, lt_fin, decide_eq_true_eq] at h1
      exact le_of_lt h1
  · split
    · rename_i h2
      rw [hm.off _ _ ha.1 ha.2 d1, hm.off _ _ hb.1 hb.2 d6, hm.off _ _ ha.1 hb.2 d3, hm.off _ _ ha.2 hb.1 d4] at h2
      simp only [add_fin, lt_fin, decide_eq_true_eq] at h2
      exact le_of_lt h2
    · exact le_refl _

private theorem imp_cost {m : Mat (XNum K)} {c : Nat → Nat → K} (hm : Rep m c) : ∀ (l : List (Nat × Nat)),
    Valid m.dim l → (flattenEdges l).Nodup → ¬ StrikesIn m l → edgeSum c (imp m l) ≤ edgeSum c l
  | [], _, _, _ => le_refl _
  | [_], _, _, _ => le_refl _
  | a :: b :: t, hv, hd, h => by
    rw [strikesIn_cons, not_or] at h
    have e1 : imp m (a :: b :: t) = [(opt2 m a b).1, (opt2 m a b).2] ++ imp m t := rfl
    have e2 : a :: b :: t = [a, b] ++ t := rfl
    have e3 : flattenEdges (a :: b :: t) = [a.1, a.2, b.1, b.2] ++ flattenEdges t := rfl
    rw [e3] at hd
    rw [e1, e2, edgeSum_append, edgeSum_append]
    exact add_le_add (opt2_cost hm (hv a (by simp)) (hv b (by simp)) hd.of_append_left h.1)
      (imp_cost hm t (fun e he => hv e (by simp [he])) hd.of_append_right h.2)

/-- **C112, without the defect** On every metric, for all random numbers with which no round enters the wrong branch:
the cost that `christofides` returns is at most the weight of Prim's tree plus the cost of the first random matching
`M 0`, and at most `1 + k / 4` times the length of every tour, where `k` is the number of vertices of odd degree.
Shown for SEQ and for every outcome of PAR. -/
theorem C112_tour {m : Mat (XNum K)} {c : Nat → Nat → K} (hm : Rep m c) (hn : 1 ≤ m.dim)
    (hmet : Metric m.dim c) {dbg : Bool} (hdbg : dbg = true → m.isMetric = true) :
    ∃ mst E w, primSeq m [] = .ok mst ∧ IsSpanningTree (List.range m.dim) E ∧ GraphOf m.dim c E mst ∧
      mst.undirectedEdgeWeight = .fin w ∧
      ∀ r : MatchRng, r.Ok → ∃ M : Nat → List (Nat × Nat),
        (∀ k, approxMatchingSeq m r (oddDegree m.dim E) k = .ok (M k)) ∧
        ((∀ k < (oddDegree m.dim E).length ^ 2, ¬ StrikesIn m (r.edges k (M k))) →
          ∀ res, (christofidesSeq dbg m r = res ∨ ∃ s : ParSched (XNum K), s.Ok ∧ ChristofidesPar dbg m r s res) →
            ∃ p, res = .ok (.fin (tourCost c p), p ++ [0]) ∧ IsTour m.dim p ∧
              tourCost c p ≤ w + edgeSum c (M 0) ∧
              ∀ q, IsTour m.dim q → 4 * tourCost c p ≤ (4 + (oddDegree m.dim E).length : K) * tourCost c q) := by
  obtain ⟨mst, E, w, h1, h2, h3, h4, h5⟩ := C42_christofides_bound hm hn hmet hdbg
  have hnn : ∀ i j, i < m.dim → j < m.dim → 0 ≤ c i j := fun i j hi hj => hmet.nonneg hi hj
  obtain ⟨g, w', t1, t2, t3⟩ := C32_mst_lower_bound hm hmet.symm (fun i j hi hj _ => hnn i j hi hj)
    (fun h => hnn 0 0 (by omega) (by omega)) hn
  rw [h1] at t1
  injection t1 with t1
  subst t1
  rw [h4] at t2
  injection t2 with t2
  subst t2
  have hodd := oddVertices_eq h3.adjOf
  have hlt : ∀ v ∈ oddDegree m.dim E, v < m.dim := oddSet_lt
  have hnd : (oddDegree m.dim E).Nodup := List.nodup_range.filter _
  have hev : (oddDegree m.dim E).length % 2 = 0 := oddSet_even (spanning_valid h2)
  refine ⟨mst, E, w, h1, h2, h3, h4, fun r hr => ?_⟩
  obtain ⟨M, e1, -⟩ := C112_perfect_iff (m := m) hr hnd hlt hev 0
  refine ⟨M, e1, fun hno => ?_⟩
  have hperf : ∀ t ≤ (oddDegree m.dim E).length ^ 2, PerfectMatching (oddDegree m.dim E) (M t) := by
    intro t ht
    obtain ⟨M', f1, f2⟩ := C112_perfect_iff (m := m) hr hnd hlt hev t
    have : M' = M := funext fun k => Except.ok.inj ((f1 k).symm.trans (e1 k))
    subst this
    exact f2.mpr fun k hk => hno k (by omega)
  -- the matching does not get more expensive
  have hle : ∀ t ≤ (oddDegree m.dim E).length ^ 2, edgeSum c (M t) ≤ edgeSum c (M 0) := by
    intro t
    induction t with
    | zero => exact fun _ => le_refl _
    | succ t ih =>
      intro ht
      have hp := (flatten_perm (hr.edges t (M t))).trans (hperf t (by omega))
      have hval : Valid m.dim (pairUp (r.vertices (oddDegree m.dim E))) := valid_iff.mpr fun v hv =>
        hlt v ((hr.vertices _).mem_iff.mp ((flatten_pairUp_sublist _).subset hv))
      have hrun : ∀ k, M k = impRun m r.edges k (pairUp (r.vertices (oddDegree m.dim E))) := fun k =>
        Except.ok.inj ((e1 k).symm.trans (improveMatching_eq hr.edges hval))
      have hs : M (t + 1) = imp m (r.edges t (M t)) := by
        rw [hrun, hrun, impRun_succ hr.edges]
      rw [hs]
      refine (imp_cost hm _ (valid_iff.mpr fun v hv => hlt v (hp.mem_iff.mp hv)) (hp.nodup_iff.mpr hnd)
        (hno t (by omega))).trans ?_
      rw [edgeSum_perm c (hr.edges t (M t))]
      exact ih (by omega)
  have hM := hperf _ (le_refl _)
  have hlen : 2 * (M ((oddDegree m.dim E).length ^ 2)).length = (oddDegree m.dim E).length := by
    rw [← length_ends]; exact hM.length_eq
  have key : ∀ x, x ≤ w + edgeSum c (M ((oddDegree m.dim E).length ^ 2)) → x ≤ w + edgeSum c (M 0) ∧
      ∀ q, IsTour m.dim q → 4 * x ≤ (4 + (oddDegree m.dim E).length : K) * tourCost c q := by
    intro x hx
    refine ⟨hx.trans (by linarith [hle _ (le_refl _)]), fun q hq => ?_⟩
    have hsum := matching_half hmet hq fun v hv => hlt v (hM.mem_iff.mp hv)
    have hw : w ≤ tourCost c q := t3 q hq
    rw [← hlen]
    push_cast
    linarith
  rintro res (rfl | ⟨s, hs, hres⟩)
  · obtain ⟨⟨p, a1, a2, a3⟩, -⟩ := h5 (computeApproxMatching r) _
      (by unfold computeApproxMatching; rw [hodd]; exact e1 _) hM
    exact ⟨p, a1, a2, key _ a3⟩
  · obtain ⟨-, b⟩ := h5 (computeApproxMatchingPar r s.chunks) _
      (by unfold computeApproxMatchingPar; rw [hodd, approxMatchingPar_eq hr oddSet_lt hs.chunks]; exact e1 _) hM
    obtain ⟨p, a1, a2, a3⟩ := (b s hs).2 res hres
    exact ⟨p, a1, a2, key _ a3⟩

end exact

/-- a metric with four vertices of odd degree -/
def procC : Nat → Nat → ℚ := ofRowsC [[0, 10, 5, 6], [10, 0, 5, 7], [5, 5, 0, 5], [6, 7, 5, 0]]

/-- **C112 (negation), more processes** A second process can make the tour longer, although the root has the same
random numbers and takes the cheaper of the two matchings: the matching of the second process is cheaper because
it has lost vertices. -/
theorem C112_more_processes : ∃ (m : Mat (XNum ℚ)) (c : Nat → Nat → ℚ) (r : MatchRng)
    (shufs : Nat → Nat → List (Nat × Nat) → List (Nat × Nat)) (w1 w2 : ℚ) (p1 p2 : List Nat),
    Rep m c ∧ Metric m.dim c ∧ r.Ok ∧ (∀ k i l, (shufs k i l).Perm l) ∧
    christofidesMpi true m r shufs 1 = .ok (.fin w1, p1) ∧ christofidesMpi true m r shufs 2 = .ok (.fin w2, p2) ∧
    w1 < w2 := by
  refine ⟨Mat.ofFun 4 procC, procC, exRng, fun k _ l => if k = 0 then l else l.reverse, 23, 27, [0, 2, 1, 3, 0],
    [0, 2, 3, 1, 0], rep_ofFun _ _, ?_, exRng_ok, ?_, by decide +kernel, by decide +kernel, by norm_num⟩
  · have h : ∀ i < 4, ∀ j < 4, ∀ k < 4, procC i j ≤ procC i k + procC k j := by decide +kernel
    have h' : ∀ i < 4, ∀ j < 4, procC i j = procC j i := by decide +kernel
    have h0 : ∀ i < 4, procC i i = 0 := by decide +kernel
    exact ⟨fun i hi => h0 i hi, fun i j hi hj => h' i hi j hj, fun i j k hi hj hk => h i hi j hj k hk⟩
  · intro k i l
    dsimp only
    split
    · exact .refl _
    · exact l.reverse_perm

/-- shuffles with which the wrong branch is entered in the first round, and others with which it never is -/
example : StrikesIn (Mat.ofFun 4 badC) [(0, 1), (2, 3)] ∧ ¬ StrikesIn (Mat.ofFun 4 badC) [(0, 3), (1, 2)] ∧
    approxMatchingSeq (Mat.ofFun 4 badC) exRng [0, 1, 2, 3] 16 ≠ .ok [(0, 1), (2, 3)] ∧
    ¬ NoThreeIn badC [0, 1, 2, 3] ∧ NoThreeIn starC [0, 1, 2, 3] ∧
    approxMatchingSeq (Mat.ofFun 4 badC) ⟨fun _ => [0, 3, 1, 2], fun _ l => l⟩ [0, 1, 2, 3] 16 =
      .ok [(0, 3), (1, 2)] := by
  refine ⟨⟨0, _, _, rfl, rfl, by unfold Strikes; decide +kernel⟩, ?_, by decide +kernel, ?_, ?_, by decide +kernel⟩
  · rintro ⟨i, a, b, ha, hb, h⟩
    have hi : i = 0 := by
      obtain ⟨hi, -⟩ := List.getElem?_eq_some_iff.mp hb
      simp at hi
      omega
    subst hi
    have ha : (0, 3) = a := Option.some.inj ha
    have hb : (1, 2) = b := Option.some.inj hb
    subst ha hb
    revert h
    unfold Strikes
    decide +kernel
  · intro h
    exact h 0 (by decide) 1 (by decide) 2 (by decide) 3 (by decide) (by decide) (by decide +kernel)
  · unfold NoThreeIn
    decide +kernel

end Walky.Props
