import Verif.Lemmas.RelApprox
import Verif.Lemmas.EulerPartial
import Verif.Lemmas.FixedCli
import Verif.Props.Rounding
import Verif.Props.Christofides

/-! # Properties C74–C77: accuracy of bounds and approximations in double precision -/

namespace Walky.Props

open FloatOps XNum Spec

/-- `(1 + 2⁻⁵³)ᵏ`, the factor by which `k` rounded additions can change a sum -/
def growth (k : Nat) : ℚ := (1 + (2 : ℚ) ^ (-53 : ℤ)) ^ k

/-- `w` is `x` up to a relative error of `(1 + 2⁻⁵³)ᵏ - 1` (about `k · 10⁻¹⁶`) -/
def Accurate (k : Nat) (w x : ℚ) : Prop := |w - x| ≤ (growth k - 1) * x

/-- all finite entries are doubles between 0 and `M` -/
def DoubleCosts (M : ℚ) (m : Mat (XNum ℚ)) : Prop :=
  ∀ i j, i < m.dim → j < m.dim → ∀ x, m.get i j = .fin x → IsDouble x ∧ 0 ≤ x ∧ x ≤ M

theorem growth_eq (k : Nat) : growth k = (1 + pow2 (-53)) ^ k := by rw [growth, pow2_eq]

theorem one_le_growth (k : Nat) : 1 ≤ growth k := by
  rw [growth_eq]
  exact one_le_pow₀ (by have := pow2_pos (-53); linarith)

theorem growth_mono {a b : Nat} (h : a ≤ b) : growth a ≤ growth b := by
  rw [growth_eq, growth_eq]
  exact pow_le_pow_right₀ (by have := pow2_pos (-53); linarith) h

theorem Accurate.up {k : Nat} {w x : ℚ} (h : Accurate k w x) : w ≤ growth k * x := by
  have := (abs_le.mp h).2
  linarith

theorem Accurate.down {k : Nat} {w x : ℚ} (h : Accurate k w x) : (2 - growth k) * x ≤ w := by
  have := (abs_le.mp h).1
  linarith

theorem Accurate.mono {a b : Nat} {w x : ℚ} (h : Accurate a w x) (hx : 0 ≤ x) (hab : a ≤ b) :
    Accurate b w x :=
  h.trans (mul_le_mul_of_nonneg_right (by have := growth_mono hab; linarith) hx)

section
variable {m : Mat (XNum ℚ)} {c : Nat → Nat → ℚ} {M : ℚ}

theorem DoubleCosts.nn (h : DoubleCosts M m) (i j : Nat) (hi : i < m.dim) (hj : j < m.dim) :
    NN IsDouble (m.get i j) := fun x hx => ⟨(h i j hi hj x hx).1, (h i j hi hj x hx).2.1⟩

theorem DoubleCosts.cost (h : DoubleCosts M m) (hm : Rep m c) {i j : Nat} (hi : i < m.dim)
    (hj : j < m.dim) (hij : i ≠ j) : IsDouble (c i j) ∧ 0 ≤ c i j ∧ c i j ≤ M :=
  h i j hi hj _ (hm.off i j hi hj hij)

theorem DoubleCosts.nonneg (h : DoubleCosts M m) (hm : Rep m c) : Nonneg m.dim c :=
  fun _ _ hi hj hij => (h.cost hm hi hj hij).2.1

theorem DoubleCosts.single (h : DoubleCosts M m) (hm : Rep m c) (hn : m.dim = 1) :
    IsDouble (c 0 0) ∧ 0 ≤ c 0 0 ∧ c 0 0 ≤ M :=
  h 0 0 (by omega) (by omega) _ (hm.single hn)

theorem DoubleCosts.tour (h : DoubleCosts M m) (hm : Rep m c) {p : List Nat}
    (hp : IsTour m.dim p) : 0 ≤ tourCost c p ∧ tourCost c p ≤ m.dim * M := by
  have hlen := hp.length
  by_cases h2 : 2 ≤ m.dim
  · have hb := tourCost_bound (M := M) (c := c) (n := m.dim) (fun i j hi hj hij => by
      obtain ⟨-, k1, k2⟩ := h.cost hm hi hj hij
      rwa [abs_of_nonneg k1]) (validPre_prefix hp (List.prefix_refl _)) (by omega)
    rw [hlen] at hb
    refine ⟨?_, (le_abs_self _).trans hb⟩
    have hn := h.nonneg hm
    exact le_trans (by
      rw [← edgesCost_pairs]
      exact List.sum_nonneg fun x hx => by
        obtain ⟨e, he, rfl⟩ := List.mem_map.mp hx
        obtain ⟨a, b⟩ := mem_pairs he
        exact hn _ _ (hp.mem.mp a) (hp.mem.mp b) (pairs_ne hp.nodup he)) (closing_nonneg hn (by omega) hp)
  · by_cases h1 : m.dim = 1
    · obtain ⟨-, k1, k2⟩ := h.single hm h1
      have : p = [0] := by
        rw [IsTour, h1] at hp
        simpa using hp
      rw [this, h1]
      simp [tourCost]
      exact ⟨k1, k2⟩
    · have h0 : m.dim = 0 := by omega
      have : p = [] := by
        rw [IsTour, h0] at hp
        simpa using hp
      rw [this, h0]
      simp [tourCost]

theorem DoubleCosts.pos (h : DoubleCosts M m) (hm : Rep m c) (hn : 1 ≤ m.dim) : 0 ≤ M := by
  by_cases h1 : m.dim = 1
  · obtain ⟨-, k1, k2⟩ := h.single hm h1
    linarith
  · obtain ⟨-, k1, k2⟩ := h.cost hm (i := 0) (j := 1) (by omega) (by omega) (by omega)
    linarith

/-- the printed weight of a graph whose exact weight is the sum of at most `n` costs -/
theorem weight_acc (hc : DoubleCosts M m) (hm : Rep m c) {g : Graph (XNum ℚ)} {k : Nat}
    (hg : GE (NN IsDouble) k g) {F : List (Nat × Nat)}
    (hF : ∀ e ∈ F, e.1 < m.dim ∧ e.2 < m.dim ∧ e.1 ≠ e.2) (hlen : F.length ≤ m.dim)
    (hgl : g.length = m.dim) (hw : g.undirectedEdgeWeight = .fin (edgeSum c F)) (hM : 0 ≤ M) {k' : Nat}
    (hk : k + m.dim = k') (hB : growth k' * (2 * (m.dim * M)) ≤ (2 : ℚ) ^ (1023 : ℤ)) :
    ∃ w, @Graph.undirectedEdgeWeight _ binary64.ops g = .fin w ∧ Accurate k' w (edgeSum c F) ∧
      0 ≤ edgeSum c F := by
  subst hk
  have h0 : 0 ≤ edgeSum c F := List.sum_nonneg fun x hx => by
    obtain ⟨e, he, rfl⟩ := List.mem_map.mp hx
    obtain ⟨a, b, d⟩ := hF e he
    exact (hc.cost hm a b d).2.1
  have hle : edgeSum c F ≤ m.dim * M := by
    have := edgesCost_bound (M := M) (c := c) (l := F) (fun e he => by
      obtain ⟨a, b, d⟩ := hF e he
      obtain ⟨-, k1, k2⟩ := hc.cost hm a b d
      rwa [abs_of_nonneg k1])
    exact ((le_abs_self _).trans this).trans
      (mul_le_mul_of_nonneg_right (by exact_mod_cast hlen) hM)
  rw [growth_eq, ← pow2_eq] at hB
  obtain ⟨y, y1, y2⟩ := undirectedEdgeWeight_rel (l := F.map fun e : Nat × Nat => c e.1 e.2) summing64 hg
    (fun x hx => by
      obtain ⟨e, he, rfl⟩ := List.mem_map.mp hx
      obtain ⟨a, b, d⟩ := hF e he
      exact ⟨(hc.cost hm a b d).1, (hc.cost hm a b d).2.1⟩) hw
    (by
      rw [hgl]
      refine le_trans (mul_le_mul_of_nonneg_left ?_ ?_) hB
      · show 2 * edgeSum c F ≤ _
        linarith
      · have := (pow2_pos (-53)).le
        positivity)
  rw [hgl] at y2
  refine ⟨y, y1, ?_, h0⟩
  rw [Accurate, growth_eq]
  exact y2

end

/-! ## Lower bounds -/

/-- **C74 (minimum spanning trees)** The costs are symmetric doubles between 0 and `M` and
`2 n M (1 + 2⁻⁵³)^(3n+2) ≤ 2^1023`. In IEEE double precision all variants of Prim's algorithm return a
graph whose printed weight is the weight of a minimum spanning tree up to a relative error of
`(1 + 2⁻⁵³)^(3n+2) - 1`; so up to this factor it is a lower bound on every tour. -/
theorem C74_mst {m : Mat (XNum ℚ)} {c : Nat → Nat → ℚ} (hm : Rep m c) (hsym : Symm m.dim c) {M : ℚ}
    (hc : DoubleCosts M m) (hn : 1 ≤ m.dim)
    (hB : growth (3 * m.dim + 2) * (2 * (m.dim * M)) ≤ (2 : ℚ) ^ (1023 : ℤ)) :
    ∃ F, IsSpanningTree (List.range m.dim) F ∧
      (∀ F', IsSpanningTree (List.range m.dim) F' → edgeSum c F ≤ edgeSum c F') ∧
      (∀ w, Accurate (3 * m.dim + 2) w (edgeSum c F) →
        ∀ q, IsTour m.dim q → w ≤ growth (3 * m.dim + 2) * tourCost c q) ∧
      (∃ g w, @primSeq _ binary64.ops m [] = .ok g ∧
        @Graph.undirectedEdgeWeight _ binary64.ops g = .fin w ∧ Accurate (3 * m.dim + 2) w (edgeSum c F) ∧
        ∀ shape order, (∀ it l, (shape it l).flatten = l) → (∀ it n, (order it n).Perm (List.range n)) →
          @primPar _ binary64.ops shape order m [] = .ok g) ∧
      ∀ peek, PeekOk peek → ∃ g w, @primQueue _ binary64.ops peek m [] = .ok g ∧
        @Graph.undirectedEdgeWeight _ binary64.ops g = .fin w ∧ Accurate (3 * m.dim + 2) w (edgeSum c F) := by
  have hM := hc.pos hm hn
  have hce : citiesExcept m.dim [] = List.range m.dim := citiesExcept_nil m.dim
  obtain ⟨g, w, h1, h2, h3, -, F, h4, h5⟩ := C29_prim_minimum hm hsym [] (by simp) (by
    rw [hce]
    intro h
    have := congrArg List.length h
    simp at this
    omega)
  rw [hce] at h3 h4
  subst h5
  have hF : ∀ e ∈ F, e.1 < m.dim ∧ e.2 < m.dim ∧ e.1 ≠ e.2 := by
    intro e he
    simpa using h4.ends e he
  have hlen : F.length ≤ m.dim := by
    have := h4.count
    simp at this
    omega
  have key : ∀ t : Graph (XNum ℚ), GE (NN IsDouble) (2 * m.dim + 2) t → t.length = m.dim →
      t.undirectedEdgeWeight = .fin (edgeSum c F) → ∃ w, @Graph.undirectedEdgeWeight _ binary64.ops t = .fin w ∧
        Accurate (3 * m.dim + 2) w (edgeSum c F) := by
    intro t k1 k2 k3
    obtain ⟨w, w1, w2, -⟩ := weight_acc hc hm k1 hF hlen k2 k3 hM (by ring) hB
    exact ⟨w, w1, w2⟩
  have hgl : g.length = m.dim := by
    obtain ⟨g', E, k1, -, k3, -⟩ := prim_tree hm hn
    rw [h1] at k1
    rw [Except.ok.inj k1]
    exact k3.len
  refine ⟨F, h4, h3, ?_, ?_, ?_⟩
  · intro w hw q hq
    obtain ⟨g', w', k1, k2, k3⟩ := C32_mst_lower_bound hm hsym (hc.nonneg hm)
      (fun h => (hc.single hm h).2.1) hn
    rw [h1] at k1
    rw [← Except.ok.inj k1, h2] at k2
    have := k3 q hq
    rw [← XNum.fin.inj k2] at this
    exact hw.up.trans (mul_le_mul_of_nonneg_left this (by have := one_le_growth (3 * m.dim + 2); linarith))
  · obtain ⟨w, w1, w2⟩ := key g (primSeq_ge (nn_good isDouble_zero) hc.nn h1) hgl h2
    refine ⟨g, w, by rw [primSeq_same, h1], w1, w2, ?_⟩
    intro shape order hs ho
    rw [primPar_same, C30_par_eq_seq strictWeak_olt shape order hs ho, h1]
  · intro peek hpk
    obtain ⟨t, t', q1, q2, q3, q4⟩ := C31_queue_weight_partial hm hsym hpk [] (by simp)
    rw [h1] at q2
    rw [← Except.ok.inj q2] at q3 q4
    obtain ⟨w, w1, w2⟩ := key t (primQueue_ge (nn_good isDouble_zero) hc.nn hpk.mem q1) (by rw [q3, hgl])
      (by rw [q4, h2])
    exact ⟨t, w, by rw [primQueue_same, q1], w1, w2⟩

/-- **C74 (1-trees)** The same for the 1-tree bound of at least three cities: in double precision the
sequential and the rayon version print the same number, which is the exact bound `W` up to a relative
error of `(1 + 2⁻⁵³)^(3n+6) - 1`; and so does the MPI version on up to `n` processes. -/
theorem C74_one_tree {m : Mat (XNum ℚ)} {c : Nat → Nat → ℚ} (hm : Rep m c) (hsym : Symm m.dim c) {M : ℚ}
    (hc : DoubleCosts M m) (hn : 3 ≤ m.dim)
    (hB : growth (3 * m.dim + 6) * (2 * (m.dim * M)) ≤ (2 : ℚ) ^ (1023 : ℤ)) :
    ∃ W w, oneTreeLbSeq m = .ok (.fin W) ∧ (∀ q, IsTour m.dim q → W ≤ tourCost c q) ∧
      @oneTreeLbSeq _ binary64.ops m = .ok (.fin w) ∧ Accurate (3 * m.dim + 6) w W ∧
      (∀ q, IsTour m.dim q → w ≤ growth (3 * m.dim + 6) * tourCost c q) ∧
      (∀ shape : List (XNum ℚ) → RTree (XNum ℚ), (∀ l, (shape l).flatten = l) →
        @oneTreeLbPar _ binary64.ops shape m = .ok (.fin w)) ∧
      ∀ (shape : List (XNum ℚ) → RTree (XNum ℚ)) (size : Nat), (∀ l, (shape l).flatten.Perm l) →
        1 ≤ size → size ≤ m.dim → @oneTreeLbMpi _ binary64.ops shape size m = .ok (.fin w) := by
  have hM := hc.pos hm (by omega)
  -- the weight of one 1-tree
  have hone : ∀ v : Nat, ∃ x y : ℚ, v < m.dim → oneTreeWeight m v = .ok (.fin x) ∧
      @oneTreeWeight _ binary64.ops m v = .ok (.fin y) ∧ Accurate (3 * m.dim + 6) y x ∧ 0 ≤ x := by
    intro v
    by_cases hv : v < m.dim
    · obtain ⟨g, E, a, b, h1, h2, -, ⟨ha, hav, hb, hbv, hab⟩, -, -, h6⟩ := oneTree_exact hm hsym hn hv
      have hF : ∀ e ∈ E ++ [(v, a), (v, b)], e.1 < m.dim ∧ e.2 < m.dim ∧ e.1 ≠ e.2 := by
        intro e he
        rcases List.mem_append.mp he with he | he
        · obtain ⟨k1, k2, k3⟩ := h2.ends e he
          exact ⟨(mem_citiesExcept.mp k1).1, (mem_citiesExcept.mp k2).1, k3⟩
        · simp only [List.mem_cons, List.not_mem_nil, or_false] at he
          rcases he with rfl | rfl
          · exact ⟨hv, ha, hav.symm⟩
          · exact ⟨hv, hb, hbv.symm⟩
      have hlen : (E ++ [(v, a), (v, b)]).length ≤ m.dim := by
        have k1 := h2.count
        have k2 : (citiesExcept m.dim [v]).length < (List.range m.dim).length := by
          unfold citiesExcept
          refine List.length_filter_lt_length_iff_exists.mpr ⟨v, by simpa using hv, by simp⟩
        simp only [List.length_append, List.length_cons, List.length_nil, List.length_range] at *
        omega
      have hw := h6.undirected (fun e he => ⟨(hF e he).1, (hF e he).2.1⟩)
      obtain ⟨y, y1, y2, y3⟩ := weight_acc hc hm (oneTree_ge (nn_good isDouble_zero) hc.nn h1) hF hlen h6.len hw hM
        (by ring) hB
      refine ⟨_, y, fun _ => ⟨?_, ?_, y2, y3⟩⟩
      · unfold oneTreeWeight
        rw [h1, rm_bind_ok, hw]
        rfl
      · unfold oneTreeWeight
        rw [oneTree_same, h1, rm_bind_ok, y1]
        rfl
    · exact ⟨0, 0, fun h => absurd h hv⟩
  choose x y hxy using hone
  have hne : List.range m.dim ≠ [] := by
    intro h
    have := congrArg List.length h
    simp at this
    omega
  obtain ⟨W, a1, a2⟩ := best_max (f := oneTreeWeight m) (wt := x) (fun v hv => (hxy v hv).1) hne (by simp)
  obtain ⟨w, b1, b2⟩ := best_max (f := @oneTreeWeight _ binary64.ops m) (wt := y)
    (fun v hv => (hxy v hv).2.1) hne (by simp)
  have b1' : @oneTreeLbSeq _ binary64.ops m = .ok (.fin w) := b1
  have hacc : Accurate (3 * m.dim + 6) w W := by
    obtain ⟨v, hv, rfl⟩ := List.mem_map.mp a2.1
    obtain ⟨v', hv', rfl⟩ := List.mem_map.mp b2.1
    have hv : v < m.dim := by simpa using hv
    have hv' : v' < m.dim := by simpa using hv'
    have k1 := (hxy v hv).2.2.1.down
    have k2 := (hxy v' hv').2.2.1.up
    have k3 := a2.2 _ (List.mem_map.mpr ⟨v', by simpa using hv', rfl⟩)
    have k4 := b2.2 _ (List.mem_map.mpr ⟨v, by simpa using hv, rfl⟩)
    have k5 := one_le_growth (3 * m.dim + 6)
    have k6 : growth (3 * m.dim + 6) * x v' ≤ growth (3 * m.dim + 6) * x v :=
      mul_le_mul_of_nonneg_left k3 (by linarith)
    rw [Accurate, abs_le]
    constructor <;> linarith
  have hW : ∀ q, IsTour m.dim q → W ≤ tourCost c q := by
    intro q hq
    obtain ⟨w', k1, k2⟩ := C34_one_tree_bound_partial hm hsym hn
    have a1' : oneTreeLbSeq m = .ok (.fin W) := a1
    rw [a1'] at k1
    rw [XNum.fin.inj (Except.ok.inj k1)]
    exact k2 q hq
  refine ⟨W, w, a1, hW, b1', hacc, ?_, ?_, ?_⟩
  · intro q hq
    exact hacc.up.trans (mul_le_mul_of_nonneg_left (hW q hq)
      (by have := one_le_growth (3 * m.dim + 6); linarith))
  · intro shape hshape
    rw [@C35_par_eq_seq _ binary64.ops strictWeak_olt shape hshape m, b1']
  · intro shape size hshape k1 k2
    obtain ⟨w', c1, c2⟩ := oneTreeMpiOf_max (f := @oneTreeWeight _ binary64.ops m) (wt := y)
      (fun v hv => (hxy v hv).2.1) k1 k2 shape hshape
    rw [b2.unique c2]
    exact c1

/-! ## Nearest neighbour -/

/-- **C75** The costs are doubles between 0 and `M` and `n M (1 + 2⁻⁵³)ⁿ ≤ 2^1023`. In IEEE double
precision every start `i` gives the same tour `p i` as in exact arithmetic, and its cost is reported up
to a relative error of `(1 + 2⁻⁵³)ⁿ - 1`. The sequential and the rayon version return one of the tours
of the starts drawn, and the reported cost is at most `(1 + 2⁻⁵³)ⁿ` times the length of each of them;
the MPI version does so for all starts, on all ranks. -/
theorem C75_nearest_neighbour {m : Mat (XNum ℚ)} {c : Nat → Nat → ℚ} (hm : Rep m c) {M : ℚ}
    (hc : DoubleCosts M m) (hB : growth m.dim * (m.dim * M) ≤ (2 : ℚ) ^ (1023 : ℤ)) :
    ∃ (p : Nat → List Nat) (w : Nat → ℚ), (∀ i < m.dim, IsTour m.dim (p i) ∧
        singleNN m i = .ok (.fin (tourCost c (p i)), p i) ∧
        @singleNN _ binary64.ops m i = .ok (.fin (w i), p i) ∧ Accurate m.dim (w i) (tourCost c (p i))) ∧
      (∀ xs : List Nat, xs.Perm (List.range m.dim) → ∀ n, 1 ≤ n → n ≤ m.dim → ∃ j ∈ xs.take n,
        @nNNSeq _ binary64.ops xs m n = .ok (.fin (w j), p j) ∧
        (∀ shape : List (Solution (XNum ℚ)) → RTree (Solution (XNum ℚ)), (∀ l, (shape l).flatten = l) →
          @nNNPar _ binary64.ops shape xs m n = .ok (.fin (w j), p j)) ∧
        ∀ i ∈ xs.take n, w j ≤ growth m.dim * tourCost c (p i)) ∧
      (1 ≤ m.dim → ∀ xs : List Nat, xs.Perm (List.range m.dim) → ∃ j < m.dim,
        @nearestNeighbourSeq _ binary64.ops xs m = .ok (.fin (w j), p j) ∧
        (∀ shape : List (Solution (XNum ℚ)) → RTree (Solution (XNum ℚ)), (∀ l, (shape l).flatten = l) →
          @nearestNeighbourPar _ binary64.ops shape xs m = .ok (.fin (w j), p j)) ∧
        ∀ i < m.dim, w j ≤ growth m.dim * tourCost c (p i)) ∧
      ∀ (shape : Nat → List (XNum ℚ × Nat) → RTree (XNum ℚ × Nat)) (size : Nat),
        (∀ r l, (shape r l).flatten.Perm l) → 1 ≤ size → size ≤ m.dim → ∃ j < m.dim,
          @nnMpi _ binary64.ops shape size m = .ok (List.replicate size (.fin (w j), p j)) ∧
          ∀ i < m.dim, w j ≤ growth m.dim * tourCost c (p i) := by
  have hone : ∀ i : Nat, ∃ s : ℚ × List Nat, i < m.dim → IsTour m.dim s.2 ∧
      singleNN m i = .ok (.fin (tourCost c s.2), s.2) ∧
      @singleNN _ binary64.ops m i = .ok (.fin s.1, s.2) ∧ Accurate m.dim s.1 (tourCost c s.2) := by
    intro i
    by_cases hi : i < m.dim
    · obtain ⟨p, h1, h2, -⟩ := C37_single_truthful hm hi
      have hle := (hc.tour hm h2).2
      obtain ⟨y, y1, y2⟩ := singleNN_rel summing64 hc.nn h1 (by
        rw [growth_eq, ← pow2_eq] at hB
        refine le_trans (mul_le_mul_of_nonneg_left hle ?_) hB
        have := (pow2_pos (-53)).le
        positivity)
      exact ⟨(y, p), fun _ => ⟨h2, h1, y1, by rw [Accurate, growth_eq]; exact y2⟩⟩
    · exact ⟨(0, []), fun h => absurd h hi⟩
  choose s hs using hone
  have hf : ∀ i < m.dim, @singleNN _ binary64.ops m i = .ok (.fin (s i).1, (s i).2) := fun i hi => (hs i hi).2.2.1
  have hup : ∀ i < m.dim, (s i).1 ≤ growth m.dim * tourCost c (s i).2 := fun i hi => (hs i hi).2.2.2.up
  have hseq : ∀ xs : List Nat, xs.Perm (List.range m.dim) → ∀ n, 1 ≤ n → n ≤ m.dim → ∃ j ∈ xs.take n,
      @nNNSeq _ binary64.ops xs m n = .ok (.fin (s j).1, (s j).2) ∧
      (∀ shape : List (Solution (XNum ℚ)) → RTree (Solution (XNum ℚ)), (∀ l, (shape l).flatten = l) →
        @nNNPar _ binary64.ops shape xs m n = .ok (.fin (s j).1, (s j).2)) ∧
      ∀ i ∈ xs.take n, (s j).1 ≤ growth m.dim * tourCost c (s i).2 := by
    intro xs hxs n h1 h2
    obtain ⟨j, k1, k2, k3⟩ := nNNOf_best hf hxs h1 h2
    have k2' : @nNNSeq _ binary64.ops xs m n = .ok (.fin (s j).1, (s j).2) := k2
    refine ⟨j, k1, k2', ?_, fun i hi => (k3 i hi).trans (hup i (by simpa using hxs.subset (List.mem_of_mem_take hi)))⟩
    intro shape hshape
    rw [@C39_par_eq_seq _ binary64.ops strictWeak_olt shape hshape xs m n, k2']
  refine ⟨fun i => (s i).2, fun i => (s i).1, hs, hseq, ?_, ?_⟩
  · intro hn xs hxs
    have hlen : xs.length = m.dim := by simpa using hxs.length_eq
    obtain ⟨j, k1, k2, k3, k4⟩ := hseq xs hxs m.dim hn le_rfl
    rw [← hlen, List.take_length] at k1 k4
    rw [hlen] at k4
    exact ⟨j, by simpa using hxs.subset k1, k2, k3, fun i hi => k4 i (hxs.mem_iff.mpr (by simpa using hi))⟩
  · intro shape size hshape h1 h2
    obtain ⟨j, k1, k2, k3⟩ := nnMpiOf_best hf h1 h2 shape hshape
    refine ⟨j, k1, ?_, fun i hi => (k3 i hi).trans (hup i hi)⟩
    rw [nnMpi_of, k2]

/-! ## Christofides -/

/-- **C76 (partial)** The costs are doubles between 0 and `M` and `n M (1 + 2⁻⁵³)ⁿ ≤ 2^1023`; in debug
builds the matrix passes `is_metric`. In IEEE double precision Christofides' algorithm (sequential, and
for at least two cities MPI, whatever the random numbers and the number of processes) returns a
Hamiltonian cycle from city 0, and the reported cost is its length up to a relative error of
`(1 + 2⁻⁵³)ⁿ - 1`. So does PAR mode if it returns, in debug builds and if the matching repeats no edge.

Missing: PAR mode need not return (`C41_par_can_hang`), and its release build may return an incomplete tour
if the matching repeats an edge (`C41_par_release_wrong`). -/
theorem C76_christofides_partial {m : Mat (XNum ℚ)} {c : Nat → Nat → ℚ} (hm : Rep m c) {M : ℚ}
    (hc : DoubleCosts M m) (hn : 1 ≤ m.dim) (hB : growth m.dim * (m.dim * M) ≤ (2 : ℚ) ^ (1023 : ℤ))
    {dbg : Bool} (hdbg : dbg = true → @Mat.isMetric _ binary64.ops m = true) {r : MatchRng} (hr : r.Ok) :
    (∃ p w, @christofidesSeq _ binary64.ops dbg m r = .ok (.fin w, p ++ [0]) ∧ IsTour m.dim p ∧
      p.head? = some 0 ∧ Accurate m.dim w (tourCost c p)) ∧
    (2 ≤ m.dim → ∀ shufs : Nat → Nat → List (Nat × Nat) → List (Nat × Nat),
      (∀ k i l, (shufs k i l).Perm l) → ∀ size, 1 ≤ size →
      ∃ p w, @christofidesMpi _ binary64.ops dbg m r shufs size = .ok (.fin w, p ++ [0]) ∧
        IsTour m.dim p ∧ p.head? = some 0 ∧ Accurate m.dim w (tourCost c p)) ∧
    ∀ (s : ParSched (XNum ℚ)) (sol : Solution (XNum ℚ)), s.Ok → @Harmless _ binary64.ops dbg m r →
      @ChristofidesPar _ binary64.ops dbg m r s (.ok sol) →
      ∃ p w, sol = (.fin w, p ++ [0]) ∧ IsTour m.dim p ∧ p.head? = some 0 ∧
        Accurate m.dim w (tourCost c p) := by
  obtain ⟨mst, E, h1, h2, h3, -⟩ := prim_tree hm hn
  have hodd := oddVertices_eq h3.adjOf
  -- the tail
  have htail : ∀ {g : MGraph (XNum ℚ)} {p : List Nat}, christofidesTail dbg m g = .ok (.fin (tourCost c p), p ++ [0]) →
      IsTour m.dim p → ∃ w, @christofidesTail _ binary64.ops dbg m g = .ok (.fin w, p ++ [0]) ∧
        Accurate m.dim w (tourCost c p) := by
    intro g p hg hp
    have hle := (hc.tour hm hp).2
    obtain ⟨w, w1, w2⟩ := christofidesTail_rel summing64 hc.nn hg (by
      rw [growth_eq, ← pow2_eq] at hB
      refine le_trans (mul_le_mul_of_nonneg_left hle ?_) hB
      have := (pow2_pos (-53)).le
      positivity)
    exact ⟨w, w1, by rw [Accurate, growth_eq]; exact w2⟩
  have hgen : ∀ {f : Graph (XNum ℚ) → Mat (XNum ℚ) → RM (List (Nat × Nat))} {F : List (Nat × Nat)},
      f mst m = .ok F → Valid m.dim F →
      ∃ p w, @christofidesGeneric _ binary64.ops dbg m f = .ok (.fin w, p ++ [0]) ∧ IsTour m.dim p ∧
        p.head? = some 0 ∧ Accurate m.dim w (tourCost c p) := by
    intro f F hf hF
    obtain ⟨g, a1, a2, a3⟩ := fillSeq_ok (m := m) rfl h3.adjOf (spanning_valid h2) hF
    obtain ⟨p, p1, p2, p3⟩ := tail_tour hm hn h2 a2 a3 dbg
    obtain ⟨w, w1, w2⟩ := htail p1 p2
    exact ⟨p, w, by rw [christofidesGeneric_ops hdbg h1 hf a1, w1], p2, p3, w2⟩
  refine ⟨?_, ?_, ?_⟩
  · obtain ⟨F, k1, k2, -⟩ := @approxMatchingSeq_ok _ binary64.ops m r hr (oddSet m.dim E) oddSet_lt
      ((oddSet m.dim E).length ^ 2)
    exact hgen (f := @computeApproxMatching _ binary64.ops r)
      (by unfold computeApproxMatching; rw [hodd, k1]) k2
  · intro hn2 shufs hsh size hsize
    have hval : Valid m.dim (pairUp (r.vertices (oddSet m.dim E))) := valid_iff.mpr fun v hv =>
      oddSet_lt v ((hr.vertices _).mem_iff.mp ((flatten_pairUp_sublist _).subset hv))
    have hne : pairUp (r.vertices (oddSet m.dim E)) ≠ [] := by
      intro hc
      have k1 := length_pairUp (r.vertices (oddSet m.dim E))
      rw [hc, (hr.vertices _).length_eq] at k1
      have k2 := oddSet_two hn2 h2
      simp at k1
      omega
    obtain ⟨root, others, k1, k2⟩ := @mpiImproveMatching_ok _ binary64.ops m shufs hsh size
      ((oddSet m.dim E).length ^ 2) hsize _ hval hne _ (fun l' hl' => @matchingCost_ok _ binary64.ops m l' hl')
    have hF : Valid m.dim (@mpiBest _ binary64.ops root others).2 := by
      have hmem := @mpiBest_mem _ binary64.ops others root
      rw [← k1] at hmem
      obtain ⟨k, _, e⟩ := List.mem_map.mp hmem
      rw [← e]
      exact @impRun_valid _ binary64.ops _ _ (hsh k) _ _ hval
    exact hgen (f := @computeApproxMatchingMpi _ binary64.ops r shufs size) (by
      unfold computeApproxMatchingMpi
      rw [hodd, k2, rm_bind_ok]
      cases size with
      | zero => omega
      | succ k => rfl) hF
  · intro s sol hs hh h
    have hlen : min mst.length m.dim = m.dim := by rw [h3.len]; exact min_self _
    obtain ⟨g0, a1, a2, a3⟩ := fillMstPar_ok (m := m) rfl h3.adjOf (spanning_valid h2) (hs.columns m.dim)
    unfold ChristofidesPar ChristofidesGenericPar at h
    rw [primPar_same, C30_par_eq_seq strictWeak_olt s.shape s.update hs.shape hs.update, h1] at h
    simp only [hlen, a1] at h
    split at h
    · cases h
    · split at h
      · cases h
      · rename_i F hF
        obtain ⟨g, hg, hres⟩ := h
        obtain ⟨x, hx⟩ := christofidesTail_back hres.symm
        obtain ⟨p, p1, p2, p3⟩ : ∃ p, (x, sol.2) = (XNum.fin (tourCost c p), p ++ [0]) ∧ IsTour m.dim p ∧
            p.head? = some 0 := by
          rcases hh with rfl | hh
          · exact christofidesTail_debug hm hx
          · obtain ⟨F', k1, k2, -⟩ := @approxMatchingSeq_ok _ binary64.ops m r hr (oddSet m.dim E) oddSet_lt
              ((oddSet m.dim E).length ^ 2)
            have e : F = F' := by
              unfold computeApproxMatchingPar at hF
              rw [hodd, @approxMatchingPar_eq _ binary64.ops m r hr _ oddSet_lt _ hs.chunks, k1] at hF
              exact (Except.ok.inj hF).symm
            have hFn : NoRepeat F := hh mst F ((primSeq_same _ m []).trans h1) (by unfold computeApproxMatching; rw [hodd, e, k1])
            obtain ⟨b1, b2⟩ := fillPar_ok rfl h3.adjOf (spanning_valid h2) hFn (hs.columns m.dim) ⟨g0, a1, hg⟩
            obtain ⟨p, q1, q2, q3⟩ := tail_tour hm hn h2 b1 b2 dbg
            rw [q1] at hx
            exact ⟨p, (Except.ok.inj hx).symm, q2, q3⟩
        rw [p1] at hx
        obtain ⟨w, w1, w2⟩ := htail hx p2
        rw [← hres] at w1
        exact ⟨p, w, Except.ok.inj w1, p2, p3, w2⟩

/-! ## Example: the four cities of the examples -/

theorem small_isDouble {x : ℚ} (k1 : 0 ≤ x) (k2 : x ≤ 100) (k3 : x.den = 1) : IsDouble x := by
  have e : x = x.num * pow2 0 := by
    rw [show pow2 0 = 1 by norm_num [pow2_eq], mul_one]
    exact (Rat.den_eq_one_iff _).mp k3 |>.symm
  rw [e]
  refine isDouble_of_int ?_ (by norm_num) (by norm_num)
  rw [← Rat.coe_int_num_of_den_eq_one k3] at k1 k2
  have a1 : 0 ≤ x.num := by exact_mod_cast k1
  have a2 : x.num ≤ 100 := by exact_mod_cast k2
  rw [abs_of_nonneg a1]
  norm_num
  omega

private theorem ex_double : DoubleCosts 10 (Mat.ofFun 4 Ex.c4) := by
  have hb : ∀ i < 4, ∀ j < 4, 0 ≤ Ex.c4 i j ∧ Ex.c4 i j ≤ 10 ∧ (Ex.c4 i j).den = 1 := by decide +kernel
  intro i j hi hj x hx
  have hx : Ex.c4 i j = x := XNum.fin.inj hx
  obtain ⟨k1, k2, k3⟩ := hb i hi j hj
  rw [hx] at k1 k2 k3
  exact ⟨small_isDouble k1 (by linarith) k3, k1, k2⟩

theorem ex_size {k : Nat} (hk : k ≤ 24) {x : ℚ} (hx : 0 ≤ x) (hx' : x ≤ 200) :
    growth k * x ≤ (2 : ℚ) ^ (1023 : ℤ) := by
  have h1 : growth k ≤ 2 := (growth_mono hk).trans (by rw [growth]; norm_num)
  have h2 : (2 : ℚ) ^ (10 : ℤ) ≤ (2 : ℚ) ^ (1023 : ℤ) := zpow_le_zpow_right₀ (by norm_num) (by norm_num)
  refine le_trans (le_trans (mul_le_mul h1 hx' hx (by norm_num)) ?_) h2
  norm_num

/-- C74 for these cities -/
example : ∃ F g w, IsSpanningTree (List.range 4) F ∧
    @primSeq _ binary64.ops (Mat.ofFun 4 Ex.c4) [] = .ok g ∧
    @Graph.undirectedEdgeWeight _ binary64.ops g = .fin w ∧ Accurate 14 w (edgeSum Ex.c4 F) := by
  obtain ⟨F, h1, -, -, ⟨g, w, h2, h3, h4, -⟩, -⟩ := C74_mst (rep_ofFun 4 Ex.c4) Ex.symm4 ex_double (by decide)
    (ex_size (by decide) (by norm_num [Mat.ofFun]) (by norm_num [Mat.ofFun]))
  exact ⟨F, g, w, h1, h2, h3, h4⟩

/-- C74 for these cities -/
example : ∃ W w, oneTreeLbSeq (Mat.ofFun 4 Ex.c4) = .ok (.fin W) ∧
    @oneTreeLbSeq _ binary64.ops (Mat.ofFun 4 Ex.c4) = .ok (.fin w) ∧ Accurate 18 w W := by
  obtain ⟨W, w, h1, -, h2, h3, -⟩ := C74_one_tree (rep_ofFun 4 Ex.c4) Ex.symm4 ex_double (by decide)
    (ex_size (by decide) (by norm_num [Mat.ofFun]) (by norm_num [Mat.ofFun]))
  exact ⟨W, w, h1, h2, h3⟩

/-- C75 for these cities -/
example : ∃ p w, @singleNN _ binary64.ops (Mat.ofFun 4 Ex.c4) 2 = .ok (.fin w, p) ∧
    Accurate 4 w (tourCost Ex.c4 p) := by
  obtain ⟨p, w, h, -⟩ := C75_nearest_neighbour (rep_ofFun 4 Ex.c4) ex_double
    (ex_size (by decide) (by norm_num [Mat.ofFun]) (by norm_num [Mat.ofFun]))
  exact ⟨p 2, w 2, (h 2 (by decide)).2.2.1, (h 2 (by decide)).2.2.2⟩

/-- C76 for these cities -/
example : ∃ p w, @christofidesSeq _ binary64.ops false (Mat.ofFun 4 Ex.c4) exRng = .ok (.fin w, p ++ [0]) ∧
    Accurate 4 w (tourCost Ex.c4 p) := by
  obtain ⟨⟨p, w, h1, -, -, h2⟩, -⟩ := C76_christofides_partial (rep_ofFun 4 Ex.c4) ex_double (by decide)
    (ex_size (by decide) (by norm_num [Mat.ofFun]) (by norm_num [Mat.ofFun])) (dbg := false) (by simp) exRng_ok
  exact ⟨p, w, h1, h2⟩

/-! ## The command line -/

theorem christofidesSeq_metric {m : Mat (XNum ℚ)} {dbg : Bool} {r : MatchRng}
    {sol : Solution (XNum ℚ)} (h : @christofidesSeq _ binary64.ops dbg m r = .ok sol) :
    dbg = true → @Mat.isMetric _ binary64.ops m = true := by
  intro hd
  unfold christofidesSeq christofidesGeneric at h
  split at h
  · cases h
  · rename_i hc
    simpa [hd] using hc

theorem christofidesPar_metric {m : Mat (XNum ℚ)} {dbg : Bool} {r : MatchRng}
    {s : ParSched (XNum ℚ)} {sol : Solution (XNum ℚ)}
    (h : @ChristofidesPar _ binary64.ops dbg m r s (.ok sol)) :
    dbg = true → @Mat.isMetric _ binary64.ops m = true := by
  intro hd
  unfold ChristofidesPar ChristofidesGenericPar at h
  split at h
  · cases h
  · rename_i hc
    simpa [hd] using hc

/-- the line is a lower bound, up to the factor `(1 + 2⁻⁵³)^(3n+6)` -/
def BoundLine (n : Nat) (c : Nat → Nat → ℚ) (l : Line (XNum ℚ)) : Prop :=
  ∃ w, lower l = some (.fin w) ∧ ∀ q, IsTour n q → w ≤ growth (3 * n + 6) * tourCost c q

/-- **C77 (partial)** An accepted instance of at least three cities without edges from a vertex to
itself whose costs are doubles between 0 and `M`, `2 n M (1 + 2⁻⁵³)^(3n+6) ≤ 2^1023`. In IEEE double
precision, for all random numbers, numbers of CPUs and schedules, without MPI:
* `walky lower-bound` prints a number that is at most `(1 + 2⁻⁵³)^(3n+6)` times the length of every tour;
* `walky exact` with v0 or v1 on a single thread prints a tour and its length up to a relative error of
  `(1 + 2⁻⁵³)ⁿ - 1`, and up to this factor no tour is shorter;
* `walky approx nearest-neighbour` prints a tour and its length up to the same error;
* what `walky approx christofides` prints is, if it prints something, the length of a tour up to the same
  error; with a single thread in a release build it does print something;
* the optional lower bound after an approximation is one up to the factor above.

Missing: `walky exact` with v2 – v6 or several threads, for which the claim is false (`C66_v2_rounding`). -/
theorem C77_double_precision_partial {g : Graph (XNum ℚ)} (hacc : doConditionsHold g = .ok true)
    (hl : NoLoop g) (hn : 3 ≤ g.length) {M : ℚ}
    (hc : ∀ es ∈ g, ∀ e ∈ es, ∃ x, e.cost = .fin x ∧ IsDouble x ∧ 0 ≤ x ∧ x ≤ M)
    (hB : growth (3 * g.length + 6) * (2 * (g.length * M)) ≤ (2 : ℚ) ^ (1023 : ℤ)) :
    ∃ c : Nat → Nat → ℚ,
      (∀ (i : Nat) (es : List (Edge (XNum ℚ))), g[i]? = some es → ∀ e ∈ es, e.cost = .fin (c i e.dst)) ∧
      ∀ env : Env (XNum ℚ), env.Ok →
        (∀ a p out, @Runs _ binary64.ops env g (.lowerBound a p) out →
          ∃ line, out = .ok [line] ∧ BoundLine g.length c line) ∧
        (∀ a ∈ [ExactAlgorithm.v0, .v1], ∀ out, @Runs _ binary64.ops env g (.exact a .singleThreaded) out →
          ∃ q w, out = .ok [.bestCost (.fin w), .bestPermutation q] ∧ IsTour g.length q ∧
            Accurate g.length w (tourCost c q) ∧
            ∀ q', IsTour g.length q' → w ≤ growth g.length * tourCost c q') ∧
        (∀ p lb out, @Runs _ binary64.ops env g (.approx .nearestNeighbour p lb) out →
          ∃ q w rest, out = .ok (.nnWeight (.fin w) :: .nnTour q :: rest) ∧ IsTour g.length q ∧
            Accurate g.length w (tourCost c q) ∧ rest.length = (if lb = none then 0 else 1) ∧
            ∀ l ∈ rest, BoundLine g.length c l) ∧
        (∀ p lb lines, @Runs _ binary64.ops env g (.approx .christofides p lb) (.ok lines) →
          @Safe _ binary64.ops env g (.approx .christofides p lb) →
          ∃ q w rest, lines = .christofidesWeight (.fin w) :: rest ∧ IsTour g.length q ∧
            Accurate g.length w (tourCost c q) ∧ rest.length = (if lb = none then 0 else 1) ∧
            ∀ l ∈ rest, BoundLine g.length c l) ∧
        (env.dbg = false → ∀ lb out,
          @Runs _ binary64.ops env g (.approx .christofides .singleThreaded lb) out →
          ∃ lines, out = .ok lines) := by
  have hnn : NonnegCosts g := by
    intro i es hi e he
    obtain ⟨x, hx, -, h0, -⟩ := hc es (List.mem_of_getElem? hi) e he
    exact ⟨x, hx, h0⟩
  obtain ⟨m, c, hm0, hdim, hm, hsym, -, hcost⟩ := instance_matrix hacc hl hnn hn
  have hM : 0 ≤ M := by
    have h0 : 0 < g.length := by omega
    have hcomp := complete_of_accepted hacc hl
    obtain ⟨e, he, -⟩ := List.mem_map.mp ((hcomp.mem (List.getElem?_eq_getElem h0)).mpr
      ⟨(by omega : 1 < g.length), (by decide)⟩)
    obtain ⟨x, -, -, k1, k2⟩ := hc _ (List.getElem_mem h0) e he
    exact k1.trans k2
  have hpg : parseChecked g = .ok g := by
    unfold parseChecked
    rw [hacc]
    rfl
  have hm1 : naFromGraph g = .ok m := by
    rw [hpg, rm_bind_ok] at hm0
    exact hm0
  have hD : DoubleCosts M m := by
    obtain ⟨-, k⟩ := naFromGraph_pred (P := fun y => ∀ x, y = XNum.fin x → IsDouble x ∧ 0 ≤ x ∧ x ≤ M)
      (fun x hx => by rw [← XNum.fin.inj hx]; exact ⟨isDouble_zero, le_rfl, hM⟩)
      (fun x hx => by cases hx) (fun es hes e he x hx => by
        obtain ⟨y, hy, k⟩ := hc es hes e he
        rw [hy] at hx
        rwa [← XNum.fin.inj hx]) hm1
    exact k
  have hn3 : 3 ≤ m.dim := by omega
  rw [← hdim] at hB ⊢
  have h0 : 0 ≤ (m.dim : ℚ) * M := mul_nonneg (Nat.cast_nonneg _) hM
  have hB1 : growth (3 * m.dim + 2) * (2 * (m.dim * M)) ≤ (2 : ℚ) ^ (1023 : ℤ) :=
    (mul_le_mul_of_nonneg_right (growth_mono (by omega)) (by linarith)).trans hB
  have hB2 : growth m.dim * (m.dim * M) ≤ (2 : ℚ) ^ (1023 : ℤ) :=
    (mul_le_mul (growth_mono (by omega)) (by linarith) h0
      (by have := one_le_growth (3 * m.dim + 6); linarith)).trans hB
  refine ⟨c, hcost, fun env he => ?_⟩
  -- the lower bounds
  have hlb : ∀ a p, ∃ line, @lowerBoundRun _ binary64.ops env g a p = .ok [line] ∧ BoundLine m.dim c line := by
    intro a p
    unfold lowerBoundRun
    rw [parseChecked_same, hpg, rm_bind_ok, naFromGraph_same, hm1, rm_bind_ok]
    obtain ⟨F, -, -, f1, ⟨t, wt, t1, t2, t3, t4⟩, f2⟩ := C74_mst hm hsym hD (by omega) hB1
    obtain ⟨W, w, -, -, w1, -, w2, w3, -⟩ := C74_one_tree hm hsym hD hn3 hB
    have hmst : ∀ w, Accurate (3 * m.dim + 2) w (edgeSum c F) → BoundLine m.dim c (.mstBound (.fin w)) := by
      intro w hw
      refine ⟨w, rfl, fun q hq => (f1 w hw q hq).trans ?_⟩
      exact mul_le_mul_of_nonneg_right (growth_mono (by omega)) (hD.tour hm hq).1
    cases a with
    | oneTree =>
      refine ⟨.oneTreeBound (.fin w), ?_, w, rfl, w2⟩
      cases p with
      | singleThreaded => simp only [w1, rm_bind_ok, rm_pure]
      | multiThreaded => simp only [w3 _ he.oneTreeShape, rm_bind_ok, rm_pure]
    | mst =>
      refine ⟨.mstBound (.fin wt), ?_, hmst wt t3⟩
      cases p with
      | singleThreaded => simp only [t1, rm_bind_ok, rm_pure, t2]
      | multiThreaded => simp only [t4 _ _ he.sched.shape he.sched.update, rm_bind_ok, rm_pure, t2]
    | mstQueue =>
      obtain ⟨t', w', k1, k2, k3⟩ := f2 _ he.peek
      exact ⟨.mstBound (.fin w'), by simp only [k1, rm_bind_ok, rm_pure, k2], hmst w' k3⟩
  have hwith : ∀ p lb (l : List (Line (XNum ℚ))), ∃ rest,
      @withBound _ binary64.ops env g p lb (.ok l) = .ok (l ++ rest) ∧
      rest.length = (if lb = none then 0 else 1) ∧ ∀ l ∈ rest, BoundLine m.dim c l := by
    intro p lb l
    unfold withBound
    rw [rm_bind_ok]
    cases lb with
    | none => exact ⟨[], by simp, rfl, by simp⟩
    | some a =>
      obtain ⟨line, k1, k2⟩ := hlb a p
      refine ⟨[line], by simp only [k1, rm_bind_ok, rm_pure], by simp, by simpa using k2⟩
  have hwith_err : ∀ p lb e lines, @withBound _ binary64.ops env g p lb (.error e) ≠ .ok lines := by
    intro p lb e lines h
    unfold withBound at h
    rw [rm_bind_err] at h
    cases h
  have hm0' : (do @naFromGraph _ binary64.ops (← @parseChecked _ binary64.ops g)) = .ok m := hm0
  refine ⟨?_, ?_, ?_, ?_, ?_⟩
  · intro a p out h
    obtain ⟨line, k1, k2⟩ := hlb a p
    simp only [Runs] at h
    exact ⟨line, h.trans k1, k2⟩
  · intro a ha out h
    simp only [Runs, ExactRun, hm0'] at h
    obtain ⟨e0, e1⟩ := C66_relative_partial hm (fun i j hi hj hij => hD.cost hm hi hj hij) hn3 hB2
    simp only [List.mem_cons, List.not_mem_nil, or_false] at ha
    rcases ha with rfl | rfl
    · obtain ⟨q, w, k1, k2, k3, k4⟩ := e0
      simp only [k1] at h
      exact ⟨q, w, h, k2, k3, k4⟩
    · obtain ⟨q, w, k1, k2, k3, k4⟩ := e1 hsym
      simp only [k1] at h
      exact ⟨q, w, h, k2, k3, k4⟩
  · intro p lb out h
    simp only [Runs, ApproxRun, hm0'] at h
    obtain ⟨res, ha, hb⟩ := h
    obtain ⟨t, w, h1, -, h2, -⟩ := C75_nearest_neighbour hm hD hB2
    obtain ⟨j, j1, j2, j3, -⟩ := h2 (by omega) _ (he.starts m.dim)
    have hres : res = .ok (.fin (w j), t j) := by
      cases p with
      | singleThreaded => exact ha.trans j2
      | multiThreaded => exact ha.trans (j3 _ he.nnShape)
    subst hres
    obtain ⟨rest, r1, r2, r3⟩ := hwith p lb [.nnWeight (.fin (w j)), .nnTour (t j)]
    exact ⟨t j, w j, rest, hb.trans r1, (h1 j j1).1, (h1 j j1).2.2.2, r2, r3⟩
  · intro p lb lines h hsafe
    simp only [Runs, ApproxRun, hm0'] at h
    obtain ⟨res, ha, hb⟩ := h
    cases res with
    | error e => exact absurd hb.symm (hwith_err p lb e lines)
    | ok sol =>
      have hsol : ∃ q w, sol = (.fin w, q ++ [0]) ∧ IsTour m.dim q ∧ Accurate m.dim w (tourCost c q) := by
        cases p with
        | singleThreaded =>
          simp only at ha
          obtain ⟨⟨q, w, k1, k2, -, k3⟩, -⟩ := C76_christofides_partial hm hD (by omega) hB2
            (christofidesSeq_metric ha.symm) he.rng
          rw [← ha] at k1
          exact ⟨q, w, Except.ok.inj k1, k2, k3⟩
        | multiThreaded =>
          simp only at ha
          obtain ⟨-, -, k⟩ := C76_christofides_partial hm hD (by omega) hB2
            (christofidesPar_metric ha) he.rng
          obtain ⟨q, w, k1, k2, -, k3⟩ := k env.sched sol he.sched (hsafe m hm0') ha
          exact ⟨q, w, k1, k2, k3⟩
      obtain ⟨q, w, rfl, k2, k3⟩ := hsol
      obtain ⟨rest, r1, r2, r3⟩ := hwith p lb [.christofidesWeight (.fin w)]
      have e : Except.ok lines = (.ok ([.christofidesWeight (.fin w)] ++ rest) : RM (List (Line (XNum ℚ)))) :=
        hb.trans r1
      exact ⟨q, w, rest, Except.ok.inj e, k2, k3, r2, r3⟩
  · intro hdbg lb out h
    simp only [Runs, ApproxRun, hm0'] at h
    obtain ⟨res, ha, hb⟩ := h
    obtain ⟨⟨q, w, k1, -⟩, -⟩ := C76_christofides_partial hm hD (by omega) hB2 (dbg := env.dbg)
      (by rw [hdbg]; simp) he.rng
    rw [k1] at ha
    subst ha
    obtain ⟨rest, r1, -⟩ := hwith .singleThreaded lb [.christofidesWeight (.fin w)]
    exact ⟨_, hb.trans r1⟩

/-- the hypotheses of C77: six cities with the costs 10 and 11 -/
example : ∃ c : Nat → Nat → ℚ, ∀ out, @Runs _ binary64.ops env1 six (.lowerBound .oneTree .multiThreaded) out →
    ∃ line, out = .ok [line] ∧ BoundLine 6 c line := by
  obtain ⟨c, -, h⟩ := C77_double_precision_partial (g := six) (by decide +kernel) six_noLoop (by decide)
    (M := 11) (by
      intro es hes e he
      unfold six at hes
      obtain ⟨k, -, rfl⟩ := List.mem_map.mp hes
      obtain ⟨j, -, rfl⟩ := List.mem_map.mp he
      simp only
      split
      · exact ⟨11, rfl, small_isDouble (by norm_num) (by norm_num) rfl, by norm_num, by norm_num⟩
      · exact ⟨10, rfl, small_isDouble (by norm_num) (by norm_num) rfl, by norm_num, by norm_num⟩) (by
      have e : six.length = 6 := by decide
      rw [e]
      exact ex_size (by decide) (by norm_num) (by norm_num))
  exact ⟨c, (h env1 env1_ok).1 .oneTree .multiThreaded⟩

end Walky.Props
