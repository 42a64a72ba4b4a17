import Verif.Props.ChristofidesRatio
import Mathlib.Data.List.Permutation
import Mathlib.Data.Nat.Factorial.Basic

/-!
# Property C111: lucky shuffles

When the first shuffle of `approx_min_cost_matching` happens to pair up the vertices of odd degree in the best
way, the implemented Christofides algorithm has the classical guarantee; and how many shuffles do so.
-/

namespace Walky.Props

open FloatOps XNum Spec

set_option linter.unusedSectionVars false

variable {K : Type} [Field K] [LinearOrder K] [IsStrictOrderedRing K]

/-- no two edges of `M` get cheaper when their four ends are paired in another way -/
def TwoOpt (c : Nat → Nat → K) (M : List (Nat × Nat)) : Prop :=
  M.Pairwise fun a b => c a.1 a.2 + c b.1 b.2 ≤ c a.1 b.1 + c a.2 b.2 ∧
    c a.1 a.2 + c b.1 b.2 ≤ c a.1 b.2 + c a.2 b.1

private theorem twoOpt_perm {n : Nat} {c : Nat → Nat → K} (hs : Symm n c) {M M' : List (Nat × Nat)} (h : M.Perm M')
    (hv : Valid n M) (hM : TwoOpt c M) : TwoOpt c M' := by
  unfold TwoOpt at *
  have hand : M.Pairwise fun a b => (a ∈ M ∧ b ∈ M) ∧ (c a.1 a.2 + c b.1 b.2 ≤ c a.1 b.1 + c a.2 b.2 ∧
      c a.1 a.2 + c b.1 b.2 ≤ c a.1 b.2 + c a.2 b.1) :=
    List.Pairwise.and (List.pairwise_iff_forall_sublist.mpr fun {a b} hab =>
      ⟨hab.subset (by simp), hab.subset (by simp)⟩) hM
  refine ((h.pairwise_iff ?_).mp hand).imp fun x => x.2
  rintro a b ⟨⟨ha, hb⟩, h1, h2⟩
  have va := hv a ha
  have vb := hv b hb
  refine ⟨⟨hb, ha⟩, ?_, ?_⟩
  · rw [hs b.1 a.1 vb.1 va.1, hs b.2 a.2 vb.2 va.2]; linarith
  · rw [hs b.1 a.2 vb.1 va.2, hs b.2 a.1 vb.2 va.1]; linarith

private theorem opt2_same {m : Mat (XNum K)} {c : Nat → Nat → K} (hm : Rep m c) {a b : Nat × Nat}
    (ha : a.1 < m.dim ∧ a.2 < m.dim) (hb : b.1 < m.dim ∧ b.2 < m.dim) (hd : [a.1, a.2, b.1, b.2].Nodup)
    (h : c a.1 a.2 + c b.1 b.2 ≤ c a.1 b.1 + c a.2 b.2 ∧ c a.1 a.2 + c b.1 b.2 ≤ c a.1 b.2 + c a.2 b.1) :
    opt2 m a b = (a, b) := by
  simp only [List.nodup_cons, List.mem_cons, List.not_mem_nil, or_false, not_or, List.nodup_nil, and_true,
    not_false_eq_true] at hd
  obtain ⟨⟨d1, d2, d3⟩, ⟨d4, d5⟩, d6⟩ := hd
  unfold opt2
  rw [hm.off _ _ ha.1 ha.2 d1, hm.off _ _ hb.1 hb.2 d6, hm.off _ _ ha.1 hb.1 d2, hm.off _ _ ha.2 hb.2 d5,
    hm.off _ _ ha.1 hb.2 d3, hm.off _ _ ha.2 hb.1 d4]
  have e1 : ((fin (c a.1 b.1) +ᶠ fin (c a.2 b.2) : XNum K) <ᶠ fin (c a.1 a.2) +ᶠ fin (c b.1 b.2)) = false := by
    simp only [FloatOps.lt, FloatOps.add, XNum.lt, XNum.add, decide_eq_false_iff_not, not_lt]; exact h.1
  have e2 : ((fin (c a.1 b.2) +ᶠ fin (c a.2 b.1) : XNum K) <ᶠ fin (c a.1 a.2) +ᶠ fin (c b.1 b.2)) = false := by
    simp only [FloatOps.lt, FloatOps.add, XNum.lt, XNum.add, decide_eq_false_iff_not, not_lt]; exact h.2
  simp only [e1, e2]
  rfl

private theorem imp_same {m : Mat (XNum K)} {c : Nat → Nat → K} (hm : Rep m c) : ∀ (l : List (Nat × Nat)),
    Valid m.dim l → (flattenEdges l).Nodup → TwoOpt c l → imp m l = l
  | [], _, _, _ => rfl
  | [_], _, _, _ => rfl
  | a :: b :: t, hv, hd, h => by
    have h' := List.pairwise_cons.mp h
    have e : flattenEdges (a :: b :: t) = [a.1, a.2, b.1, b.2] ++ flattenEdges t := rfl
    rw [e] at hd
    rw [imp, opt2_same hm (hv a (by simp)) (hv b (by simp)) hd.of_append_left (h'.1 b (by simp)),
      imp_same hm t (fun e he => hv e (by simp [he])) hd.of_append_right (List.pairwise_cons.mp h'.2).2]

private theorem impRun_same {m : Mat (XNum K)} {c : Nat → Nat → K} (hm : Rep m c) (hs : Symm m.dim c)
    {shuf : Nat → List (Nat × Nat) → List (Nat × Nat)} (hsh : ∀ k l, (shuf k l).Perm l) {tries : Nat}
    {l : List (Nat × Nat)} (hv : Valid m.dim l) (hd : (flattenEdges l).Nodup) (h : TwoOpt c l) :
    (impRun m shuf tries l).Perm l := by
  refine (impRun_keeps (fun r => r.Perm l) (.refl _) (fun k r hr => (hsh k r).trans hr) fun r hr => ?_)
  rwa [imp_same hm r (fun e he => hv e (hr.mem_iff.mp he)) ((flatten_perm hr).nodup_iff.mpr hd)
    (twoOpt_perm hs hr.symm hv h)]

/-- **C111, stable matchings** A matching in which no two edges get cheaper by pairing their ends in another way is
left as it is by the local search, sequentially and with rayon: whatever the shuffles are, the result has the
same edges in some order. -/
theorem C111_stable {m : Mat (XNum K)} {c : Nat → Nat → K} (hm : Rep m c) (hs : Symm m.dim c)
    {shuf : Nat → List (Nat × Nat) → List (Nat × Nat)} (hsh : ∀ k l, (shuf k l).Perm l)
    {order : Nat → Nat → List Nat} (ho : ∀ k n, (order k n).Perm (List.range n)) (tries : Nat)
    {l : List (Nat × Nat)} (hv : ∀ e ∈ l, e.1 < m.dim ∧ e.2 < m.dim) (hd : (ends l).Nodup) (h : TwoOpt c l) :
    ∃ l', improveMatching m shuf tries l = .ok l' ∧ parImproveMatching m shuf order tries l = .ok l' ∧
      l'.Perm l := by
  refine ⟨_, improveMatching_eq hsh hv, ?_, impRun_same hm hs hsh hv hd h⟩
  rw [parImproveMatching_eq hsh ho hv, improveMatching_eq hsh hv]

/-- A perfect matching of smallest cost is stable. -/
theorem C111_min_stable {c : Nat → Nat → K} {V : List Nat} {M : List (Nat × Nat)} (h : MinMatching c V M) :
    TwoOpt c M := by
  unfold TwoOpt
  rw [List.pairwise_iff_forall_sublist]
  intro a b hab
  obtain ⟨R, hR⟩ := hab.exists_perm_append
  have e0 := edgeSum_perm c hR
  have p0 := (flatten_perm hR).symm.trans h.1
  have key : ∀ a' b', (flattenEdges [a', b']).Perm (flattenEdges [a, b]) →
      c a.1 a.2 + c b.1 b.2 ≤ c a'.1 a'.2 + c b'.1 b'.2 := by
    intro a' b' hp
    have h1 := h.2 (a' :: b' :: R) (((hp.append_right (flattenEdges R))).trans p0)
    rw [e0] at h1
    have e1 : edgeSum c ([a, b] ++ R) = c a.1 a.2 + (c b.1 b.2 + edgeSum c R) := by
      rw [List.cons_append, List.cons_append, List.nil_append, edgeSum_cons, edgeSum_cons]
    rw [e1, edgeSum_cons, edgeSum_cons] at h1
    linarith
  constructor
  · have := key (a.1, b.1) (a.2, b.2) (by
      show [a.1, b.1, a.2, b.2].Perm [a.1, a.2, b.1, b.2]
      exact (List.Perm.swap _ _ _).cons _)
    exact this
  · have := key (a.1, b.2) (a.2, b.1) (by
      show [a.1, b.2, a.2, b.1].Perm [a.1, a.2, b.1, b.2]
      exact ((List.Perm.swap _ _ _).trans ((List.Perm.swap _ _ _).cons _)).cons _)
    exact this

/-- The order in which the first shuffle puts the vertices of odd degree is lucky if the consecutive pairs are a
perfect matching of smallest cost. -/
def Lucky (c : Nat → Nat → K) (V l : List Nat) : Prop := MinMatching c V (pairUp l)

private theorem min_perm {c : Nat → Nat → K} {V : List Nat} {M M' : List (Nat × Nat)} (h : M'.Perm M)
    (hM : MinMatching c V M) : MinMatching c V M' :=
  ⟨(flatten_perm h).trans hM.1, fun M'' h'' => by rw [edgeSum_perm c h]; exact hM.2 M'' h''⟩

/-- **C111** On every metric, if the first shuffle of the vertices of odd degree in Prim's tree is lucky, then
whatever the later shuffles, schedules and numbers of processes are, the cost that `christofides` returns is at
most 3/2 of the length of every tour: in SEQ, for every outcome of PAR, and in MPI. -/
theorem C111_lucky {m : Mat (XNum K)} {c : Nat → Nat → K} (hm : Rep m c) (hn : 1 ≤ m.dim)
    (hmet : Metric m.dim c) {dbg : Bool} (hdbg : dbg = true → m.isMetric = true) :
    ∃ mst E, primSeq m [] = .ok mst ∧ IsSpanningTree (List.range m.dim) E ∧ GraphOf m.dim c E mst ∧
      ∀ r : MatchRng, r.Ok → Lucky c (oddDegree m.dim E) (r.vertices (oddDegree m.dim E)) →
        (∃ p, christofidesSeq dbg m r = .ok (.fin (tourCost c p), p ++ [0]) ∧ IsTour m.dim p ∧
          ∀ q, IsTour m.dim q → 2 * tourCost c p ≤ 3 * tourCost c q) ∧
        (∀ s : ParSched (XNum K), s.Ok → (∃ res, ChristofidesPar dbg m r s res) ∧
          ∀ res, ChristofidesPar dbg m r s res → ∃ p, res = .ok (.fin (tourCost c p), p ++ [0]) ∧
            IsTour m.dim p ∧ ∀ q, IsTour m.dim q → 2 * tourCost c p ≤ 3 * tourCost c q) ∧
        (2 ≤ m.dim → ∀ (shufs : Nat → Nat → List (Nat × Nat) → List (Nat × Nat)) (size : Nat),
          (∀ k i l, (shufs k i l).Perm l) → 1 ≤ size →
          ∃ p, christofidesMpi dbg m r shufs size = .ok (.fin (tourCost c p), p ++ [0]) ∧ IsTour m.dim p ∧
            ∀ q, IsTour m.dim q → 2 * tourCost c p ≤ 3 * tourCost c q) := by
  obtain ⟨mst, E, h1, h2, h3, -, h5⟩ := C43_three_halves hm hn hmet hdbg
  have hodd := oddVertices_eq h3.adjOf
  have hnd : (oddDegree m.dim E).Nodup := List.nodup_range.filter _
  refine ⟨mst, E, h1, h2, h3, fun r hr hl => ?_⟩
  have hval : Valid m.dim (pairUp (r.vertices (oddSet m.dim E))) := valid_iff.mpr fun v hv =>
    oddSet_lt v ((hr.vertices _).mem_iff.mp ((flatten_pairUp_sublist _).subset hv))
  have hd : (flattenEdges (pairUp (r.vertices (oddSet m.dim E)))).Nodup := hl.1.nodup_iff.mpr hnd
  have hto : TwoOpt c (pairUp (r.vertices (oddSet m.dim E))) := C111_min_stable hl
  have hrun : ∀ (sh : Nat → List (Nat × Nat) → List (Nat × Nat)) (t : Nat), (∀ k l, (sh k l).Perm l) →
      MinMatching c (oddDegree m.dim E) (impRun m sh t (pairUp (r.vertices (oddSet m.dim E)))) :=
    fun sh t hsh => min_perm (impRun_same hm hmet.symm hsh hval hd hto) hl
  have k1 : approxMatchingSeq m r (oddSet m.dim E) ((oddSet m.dim E).length ^ 2) = .ok _ :=
    improveMatching_eq hr.edges hval
  refine ⟨?_, fun s hs => ?_, fun h2n shufs size hsh hsize => ?_⟩
  · exact (h5 (computeApproxMatching r) _ (by unfold computeApproxMatching; rw [hodd, k1])
      (hrun _ _ hr.edges)).1
  · exact (h5 (computeApproxMatchingPar r s.chunks) _
      (by unfold computeApproxMatchingPar; rw [hodd, approxMatchingPar_eq hr oddSet_lt hs.chunks, k1])
      (hrun _ _ hr.edges)).2 s hs
  · have hne : pairUp (r.vertices (oddSet m.dim E)) ≠ [] := by
      intro hc
      have := length_pairUp (r.vertices (oddSet m.dim E))
      rw [hc, (hr.vertices _).length_eq] at this
      have := oddSet_two h2n h2
      simp at *
      omega
    obtain ⟨root, others, k1, k2⟩ := mpiImproveMatching_ok (m := m) hsh
      (tries := (oddSet m.dim E).length ^ 2) hsize hval hne (fun l' hl' => matchingCost_ok hl')
    have hM : MinMatching c (oddDegree m.dim E) (mpiBest root others).2 := by
      have hmem := mpiBest_mem others root
      rw [← k1] at hmem
      obtain ⟨k, _, e⟩ := List.mem_map.mp hmem
      rw [← e]
      exact hrun _ _ (hsh k)
    exact (h5 (computeApproxMatchingMpi r shufs size) _ (by
      unfold computeApproxMatchingMpi
      rw [hodd, k2, rm_bind_ok]
      cases size with
      | zero => omega
      | succ k => rfl) hM).1

theorem minMatching_exists (c : Nat → Nat → K) {V : List Nat} (hev : V.length % 2 = 0) : ∃ M, MinMatching c V M := by
  obtain ⟨l, hl, hmin⟩ := Finset.exists_min_image V.permutations.toFinset (fun l => edgeSum c (pairUp l))
    ⟨V, by rw [List.mem_toFinset]; exact List.mem_permutations.mpr (.refl _)⟩
  rw [List.mem_toFinset, List.mem_permutations] at hl
  refine ⟨pairUp l, ?_, fun M' hM' => ?_⟩
  · show (flattenEdges (pairUp l)).Perm V
    rwa [flatten_pairUp l (by rw [hl.length_eq]; exact hev)]
  · have := hmin (flattenEdges M') (by rw [List.mem_toFinset, List.mem_permutations]; exact hM')
    rwa [pairUp_flatten] at this

/-- the edges with every choice of their directions -/
private def flips : List (Nat × Nat) → List (List (Nat × Nat))
  | [] => [[]]
  | e :: t => (flips t).map (e :: ·) ++ (flips t).map (e.swap :: ·)

private theorem flips_length : ∀ l, (flips l).length = 2 ^ l.length
  | [] => rfl
  | e :: t => by
    rw [flips, List.length_append, List.length_map, List.length_map, flips_length t, List.length_cons, pow_succ]
    omega

private theorem flips_nodup : ∀ l : List (Nat × Nat), (∀ e ∈ l, e.1 ≠ e.2) → (flips l).Nodup
  | [], _ => by simp [flips]
  | e :: t, h => by
    have ih := flips_nodup t fun x hx => h x (by simp [hx])
    have hinj : ∀ x : Nat × Nat, Function.Injective (List.cons x) := fun x => List.cons_injective
    refine List.Nodup.append (ih.map (hinj _)) (ih.map (hinj _)) ?_
    rw [List.disjoint_left]
    intro x hx hy
    obtain ⟨u, -, rfl⟩ := List.mem_map.mp hx
    obtain ⟨v, -, hv⟩ := List.mem_map.mp hy
    have := (List.cons.inj hv).1
    exact h e (by simp) (congrArg Prod.fst this).symm

/-- an edge without its direction -/
private def undir (e : Nat × Nat) : Nat × Nat := (min e.1 e.2, max e.1 e.2)

private theorem undir_swap (e : Nat × Nat) : undir e.swap = undir e := by
  simp [undir, min_comm, max_comm]

private theorem undir_eq {e f : Nat × Nat} (h : undir e = undir f) : e = f ∨ e = f.swap := by
  obtain ⟨a, b⟩ := e
  obtain ⟨x, y⟩ := f
  simp only [undir, Prod.mk.injEq] at h
  simp only [Prod.mk.injEq, Prod.swap]
  omega

private theorem flips_mem : ∀ (l l' : List (Nat × Nat)), l' ∈ flips l → l'.map undir = l.map undir ∧
    (flattenEdges l').Perm (flattenEdges l) ∧ ∀ {c : Nat → Nat → K} {n : Nat}, Symm n c → Valid n l →
      edgeSum c l' = edgeSum c l
  | [], l', h => by
    rw [List.mem_singleton.mp h]
    exact ⟨rfl, .refl _, fun _ _ => rfl⟩
  | e :: t, l', h => by
    rw [flips, List.mem_append] at h
    rcases h with h | h
    · obtain ⟨u, hu, rfl⟩ := List.mem_map.mp h
      obtain ⟨h1, h2, h3⟩ := flips_mem t u hu
      refine ⟨by rw [List.map_cons, List.map_cons, h1], ?_, fun hs hv => ?_⟩
      · rw [flatten_cons, flatten_cons]; exact (h2.cons _).cons _
      · rw [edgeSum_cons, edgeSum_cons, h3 hs fun x hx => hv x (by simp [hx])]
    · obtain ⟨u, hu, rfl⟩ := List.mem_map.mp h
      obtain ⟨h1, h2, h3⟩ := flips_mem t u hu
      refine ⟨by rw [List.map_cons, List.map_cons, h1, undir_swap], ?_, fun hs hv => ?_⟩
      · rw [flatten_cons, flatten_cons]
        exact (List.Perm.swap _ _ _).trans ((h2.cons _).cons _)
      · have := hv e (by simp)
        rw [edgeSum_cons, edgeSum_cons, h3 hs fun x hx => hv x (by simp [hx])]
        rw [show e.swap.1 = e.2 from rfl, show e.swap.2 = e.1 from rfl, hs e.2 e.1 this.2 this.1]

/-- **C111, how many shuffles are lucky** If the first shuffle has `k` vertices to put in order and `h = k / 2`, at
least `2^h * h!` of the `k!` orders are lucky. (So with two vertices every order is, with four vertices one in
three, with six one in fifteen.) -/
theorem C111_chance {n : Nat} {c : Nat → Nat → K} (hs : Symm n c) {V : List Nat} (hV : V.Nodup)
    (hlt : ∀ v ∈ V, v < n) (hev : V.length % 2 = 0) :
    V.permutations.length = V.length.factorial ∧ V.permutations.Nodup ∧
    ∃ L : List (List Nat), L.Nodup ∧ L.length = 2 ^ (V.length / 2) * (V.length / 2).factorial ∧
      ∀ l ∈ L, l ∈ V.permutations ∧ Lucky c V l := by
  refine ⟨List.length_permutations V, List.nodup_permutations V hV, ?_⟩
  obtain ⟨M, hM⟩ := minMatching_exists c hev
  have hlen : M.length = V.length / 2 := by
    have := hM.1.length_eq
    rw [length_ends] at this
    omega
  have hd : (flattenEdges M).Nodup := hM.1.nodup_iff.mpr hV
  have hval : Valid n M := valid_iff.mpr fun v hv => hlt v (hM.1.mem_iff.mp hv)
  -- the edges are pairwise different, also without their directions
  have hloop : ∀ e ∈ M, e.1 ≠ e.2 := by
    intro e he h
    obtain ⟨a, b, rfl⟩ := List.append_of_mem he
    have e1 : flattenEdges (a ++ e :: b) = flattenEdges a ++ ([e.1, e.2] ++ flattenEdges b) := by
      simp [flattenEdges]
    rw [e1] at hd
    have := hd.of_append_right.of_append_left
    simp [h] at this
  have hpw : M.Pairwise fun e f => undir e ≠ undir f := by
    rw [List.pairwise_iff_forall_sublist]
    intro e f hef h
    obtain ⟨R, hR⟩ := hef.exists_perm_append
    have h2 : (flattenEdges ([e, f] ++ R)).Nodup := (flatten_perm hR).nodup_iff.mp hd
    have e1 : flattenEdges ([e, f] ++ R) = [e.1, e.2, f.1, f.2] ++ flattenEdges R := rfl
    rw [e1] at h2
    have h3 := h2.of_append_left
    rcases undir_eq h with h | h <;> subst h <;> simp at h3
  have hund : (M.map undir).Nodup := List.pairwise_map.mpr hpw
  have hinj : ∀ e ∈ M, ∀ f ∈ M, undir e = undir f → e = f := fun e he f hf h =>
    List.inj_on_of_nodup_map hund he hf h
  have hMn : M.Nodup := hund.of_map
  refine ⟨M.permutations.flatMap fun s => (flips s).map flattenEdges, ?_, ?_, ?_⟩
  · refine List.nodup_flatMap.mpr ⟨fun s hsm => ?_, ?_⟩
    · have hp := List.mem_permutations.mp hsm
      refine (flips_nodup s fun e he => hloop e (hp.mem_iff.mp he)).map fun x y hxy => ?_
      rw [← pairUp_flatten x, ← pairUp_flatten y, hxy]
    · refine (List.nodup_permutations M hMn).imp_of_mem fun {s s'} h1 h2 hne => ?_
      rw [List.mem_permutations] at h1 h2
      show List.Disjoint _ _
      rw [List.disjoint_left]
      intro x hx hy
      obtain ⟨u, hu, rfl⟩ := List.mem_map.mp hx
      obtain ⟨v, hv, hvu⟩ := List.mem_map.mp hy
      have huv : v = u := by rw [← pairUp_flatten u, ← pairUp_flatten v, hvu]
      subst huv
      have e : s.map undir = s'.map undir :=
        ((flips_mem (K := K) s v hu).1).symm.trans (flips_mem (K := K) s' v hv).1
      refine hne (List.ext_getElem (by have := congrArg List.length e; simpa using this) fun i hi hi' => ?_)
      refine hinj _ (h1.mem_iff.mp (List.getElem_mem hi)) _ (h2.mem_iff.mp (List.getElem_mem hi')) ?_
      have := congrArg (fun l => l[i]?) e
      simpa [hi, hi'] using this
  · rw [List.length_flatMap]
    have : (M.permutations.map fun s => ((flips s).map flattenEdges).length) =
        M.permutations.map fun _ => 2 ^ (V.length / 2) := by
      refine List.map_congr_left fun s hsm => ?_
      rw [List.length_map, flips_length, (List.mem_permutations.mp hsm).length_eq, hlen]
    rw [this, List.map_const', List.sum_replicate, List.length_permutations, hlen, smul_eq_mul, mul_comm]
  · intro l hl
    obtain ⟨s, hsm, hl⟩ := List.mem_flatMap.mp hl
    obtain ⟨u, hu, rfl⟩ := List.mem_map.mp hl
    have hp := List.mem_permutations.mp hsm
    obtain ⟨-, f2, f3⟩ := flips_mem (K := K) s u hu
    have hv : Valid n s := fun e he => hval e (hp.mem_iff.mp he)
    refine ⟨List.mem_permutations.mpr (f2.trans ((flatten_perm hp).trans hM.1)), ?_⟩
    unfold Lucky
    rw [pairUp_flatten]
    refine ⟨f2.trans ((flatten_perm hp).trans hM.1), fun M' hM' => ?_⟩
    rw [f3 hs hv, edgeSum_perm c hp]
    exact hM.2 M' hM'

/-- **C111, together** On every metric with `k` vertices of odd degree in Prim's tree there are `2^(k/2) * (k/2)!`
different orders of these vertices such that `christofides` keeps the bound 3/2 in SEQ whenever the first shuffle
gives one of them, whatever the later shuffles are. -/
theorem C111_share {m : Mat (XNum K)} {c : Nat → Nat → K} (hm : Rep m c) (hn : 1 ≤ m.dim)
    (hmet : Metric m.dim c) {dbg : Bool} (hdbg : dbg = true → m.isMetric = true) :
    ∃ mst V, ∃ L : List (List Nat), primSeq m [] = .ok mst ∧ oddVertices mst = V ∧ V.length % 2 = 0 ∧ L.Nodup ∧
      L.length = 2 ^ (V.length / 2) * (V.length / 2).factorial ∧
      ∀ l ∈ L, l.Perm V ∧ ∀ r : MatchRng, r.Ok → r.vertices V = l →
        ∃ p, christofidesSeq dbg m r = .ok (.fin (tourCost c p), p ++ [0]) ∧ IsTour m.dim p ∧
          ∀ q, IsTour m.dim q → 2 * tourCost c p ≤ 3 * tourCost c q := by
  obtain ⟨mst, E, h1, h2, h3, h4⟩ := C111_lucky hm hn hmet hdbg
  have hev : (oddDegree m.dim E).length % 2 = 0 := oddSet_even (spanning_valid h2)
  obtain ⟨-, -, L, a1, a2, a3⟩ := C111_chance hmet.symm (V := oddDegree m.dim E) (List.nodup_range.filter _)
    oddSet_lt hev
  refine ⟨mst, _, L, h1, oddVertices_eq h3.adjOf, hev, a1, a2, fun l hl => ⟨List.mem_permutations.mp (a3 l hl).1, ?_⟩⟩
  intro r hr hrl
  refine (h4 r hr ?_).1
  rw [show r.vertices (oddDegree m.dim E) = l from hrl]
  exact (a3 l hl).2

/-- a lucky order of the four vertices of odd degree and what follows from it -/
example : Rep (Mat.ofFun 4 badC) badC ∧ Metric 4 badC ∧ (Mat.ofFun 4 badC).isMetric = true ∧
    (primSeq (Mat.ofFun 4 badC) [] >>= fun mst => .ok (oddVertices mst)) = .ok [0, 1, 2, 3] ∧
    Lucky badC [0, 1, 2, 3] [3, 0, 1, 2] ∧ ¬ Lucky badC [0, 1, 2, 3] [0, 1, 2, 3] ∧
    christofidesSeq true (Mat.ofFun 4 badC) ⟨fun l => l.rotate 3, fun _ l => l.reverse⟩ =
      .ok (.fin 32, [0, 1, 2, 3, 0]) := by
  refine ⟨rep_ofFun _ _, metric_bad, by decide +kernel, by decide +kernel, ?_, ?_, by decide +kernel⟩
  · refine ⟨by show [3, 0, 1, 2].Perm [0, 1, 2, 3]; decide, ?_⟩
    intro M' hM'
    have key : ∀ l ∈ [0, 1, 2, 3].permutations', edgeSum badC (pairUp [3, 0, 1, 2]) ≤ edgeSum badC (pairUp l) := by
      decide +kernel
    have := key (flattenEdges M') (List.mem_permutations'.mpr hM')
    rwa [pairUp_flatten] at this
  · intro h
    exact absurd (h.2 [(0, 3), (1, 2)] (by show [0, 3, 1, 2].Perm [0, 1, 2, 3]; decide)) (by decide +kernel)

/-- a stable matching which the later shuffles only reorder -/
example : TwoOpt badC [(3, 0), (1, 2)] ∧
    improveMatching (Mat.ofFun 4 badC) (fun k l => l.rotate k) 16 [(3, 0), (1, 2)] = .ok [(3, 0), (1, 2)] ∧
    improveMatching (Mat.ofFun 4 badC) (fun _ l => l) 16 [(0, 1), (2, 3)] ≠ .ok [(0, 1), (2, 3)] := by
  refine ⟨?_, by decide +kernel, by decide +kernel⟩
  unfold TwoOpt
  decide +kernel

/-- with four vertices eight of the 24 orders -/
example : 2 ^ (4 / 2) * (4 / 2).factorial = 8 ∧ [0, 1, 2, 3].permutations.length = 24 :=
  ⟨by decide, List.length_permutations _⟩

end Walky.Props
