import Verif.Lemmas.Near
import Verif.Lemmas.Bounds
import Verif.Lemmas.FixedPrim

/-! # The pruning bounds of v4 – v6 in a rounded arithmetic -/

namespace Walky

open FloatOps XNum Spec

variable {K : Type} [Field K] [LinearOrder K] [IsStrictOrderedRing K] {R : Rounding K} {B e M : K}

/-- Sums of approximations: `q.1` approximates `q.2.1` with an error of at most `q.2.2`. -/
theorem foldl_near (h : R.Near B e) (he : 0 ≤ e) : ∀ (l : List (K × K × K)) (x a k : K),
    (∀ q ∈ l, |q.1 - q.2.1| ≤ q.2.2) → |x - a| ≤ k →
    |a| + (l.map fun q => |q.2.1|).sum + k + (l.map fun q => q.2.2).sum + l.length * e ≤ B →
    ∃ y, (l.map fun q => fin q.1).foldl (@FloatOps.add _ R.ops) (fin x) = fin y ∧
      |y - (a + (l.map fun q => q.2.1).sum)| ≤ k + (l.map fun q => q.2.2).sum + l.length * e := by
  intro l
  induction l with
  | nil =>
    intro x a k _ hx _
    exact ⟨x, rfl, by simpa using hx⟩
  | cons q t ih =>
    intro x a k hl hx hB
    have hq := hl q (by simp)
    have hq0 : 0 ≤ q.2.2 := (abs_nonneg _).trans hq
    have ht1 : 0 ≤ (t.map fun q => |q.2.1|).sum := by
      refine List.sum_nonneg ?_
      intro z hz
      obtain ⟨r, -, rfl⟩ := List.mem_map.mp hz
      exact abs_nonneg _
    have ht2 : 0 ≤ (t.map fun q => q.2.2).sum := by
      refine List.sum_nonneg ?_
      intro z hz
      obtain ⟨r, hr, rfl⟩ := List.mem_map.mp hz
      exact (abs_nonneg _).trans (hl r (by simp [hr]))
    have ht3 : (0 : K) ≤ t.length * e := mul_nonneg (Nat.cast_nonneg _) he
    simp only [List.map_cons, List.sum_cons, List.length_cons, List.foldl_cons, Nat.cast_add,
      Nat.cast_one] at hB ⊢
    have hab := abs_add_le a q.2.1
    have hxq : |x + q.1| ≤ B := by
      have e1 : x + q.1 = ((x - a) + (q.1 - q.2.1)) + (a + q.2.1) := by ring
      rw [e1]
      have k1 := abs_add_le ((x - a) + (q.1 - q.2.1)) (a + q.2.1)
      have k2 := abs_add_le (x - a) (q.1 - q.2.1)
      linarith
    obtain ⟨y, hy, hy'⟩ := h.add hxq
    rw [hy]
    have hy2 : |y - (a + q.2.1)| ≤ k + q.2.2 + e := by
      have e1 : y - (a + q.2.1) = (y - (x + q.1)) + ((x - a) + (q.1 - q.2.1)) := by ring
      rw [e1]
      have k1 := abs_add_le (y - (x + q.1)) ((x - a) + (q.1 - q.2.1))
      have k2 := abs_add_le (x - a) (q.1 - q.2.1)
      linarith
    obtain ⟨z, hz, hz'⟩ := ih y (a + q.2.1) (k + q.2.2 + e) (fun r hr => hl r (by simp [hr])) hy2
      (by linarith)
    refine ⟨z, hz, ?_⟩
    rw [add_assoc] at hz'
    linarith

theorem sum_near (h : R.Near B e) (he : 0 ≤ e) {l : List (K × K × K)}
    (hl : ∀ q ∈ l, |q.1 - q.2.1| ≤ q.2.2)
    (hB : (l.map fun q => |q.2.1|).sum + (l.map fun q => q.2.2).sum + l.length * e ≤ B) :
    ∃ y, @FloatOps.sum _ R.ops (l.map fun q => fin q.1) = fin y ∧
      |y - (l.map fun q => q.2.1).sum| ≤ (l.map fun q => q.2.2).sum + l.length * e := by
  have := foldl_near h he l 0 0 0 hl (by simp) (by rw [abs_zero]; linarith)
  simp only [zero_add] at this
  exact this

/-- sums of numbers of size at most `M` -/
theorem sum_abs_le {ι : Type} {f : ι → K} {l : List ι} (h : ∀ x ∈ l, |f x| ≤ M) :
    (l.map fun x => |f x|).sum ≤ l.length * M ∧ |(l.map f).sum| ≤ l.length * M := by
  induction l with
  | nil => simp
  | cons x t ih =>
    obtain ⟨h1, h2⟩ := ih fun y hy => h y (by simp [hy])
    have h3 := h x (by simp)
    have h4 := abs_add_le (f x) (t.map f).sum
    simp only [List.map_cons, List.sum_cons, List.length_cons, Nat.cast_add, Nat.cast_one]
    exact ⟨by linarith, by linarith⟩

/-- `directed_edge_weight` of a graph with `k` directed edges of size at most `M` -/
theorem directedEdgeWeight_near (h : R.Near B e) (he : 0 ≤ e) (hM : 0 ≤ M) {k : Nat}
    {g : Graph (XNum K)} (hc : ∀ v ∈ g, ∀ d ∈ v, ∃ a, Edge.cost d = fin a ∧ |a| ≤ M)
    (hk : (g.map List.length).sum ≤ k) (hB : k * M + (k + g.length : Nat) * e ≤ B) :
    ∃ y, @Graph.directedEdgeWeight _ R.ops g = fin y ∧ |y - wsum g| ≤ (k + g.length : Nat) * e := by
  have hcost : ∀ v ∈ g, ∀ d ∈ v, Edge.cost d = fin (toK (Edge.cost d)) ∧ |toK (Edge.cost d)| ≤ M := by
    intro v hv d hd
    obtain ⟨a, h1, h2⟩ := hc v hv d hd
    rw [h1]
    exact ⟨rfl, h2⟩
  have hkK : (((g.map List.length).sum : Nat) : K) ≤ k := by exact_mod_cast hk
  have hk0 : (0 : K) ≤ k := Nat.cast_nonneg _
  have hlen : ∀ v ∈ g, (v.length : K) ≤ k := by
    intro v hv
    have : v.length ≤ k := le_trans
      (List.single_le_sum (fun _ _ => Nat.zero_le _) _ (List.mem_map.mpr ⟨v, hv, rfl⟩)) hk
    exact_mod_cast this
  have hg0 : (0 : K) ≤ g.length * e := mul_nonneg (Nat.cast_nonneg _) he
  push_cast at hB ⊢
  have hrow : ∀ v : List (Edge (XNum K)), ∃ x, v ∈ g → @FloatOps.sum _ R.ops (v.map Edge.cost) = fin x ∧
      |x - (v.map fun d => toK (Edge.cost d)).sum| ≤ v.length * e := by
    intro v
    by_cases hv : v ∈ g
    · have hs := sum_abs_le (f := fun d => toK (Edge.cost d)) (fun d hd => (hcost v hv d hd).2)
      have b1 := mul_le_mul_of_nonneg_right (hlen v hv) hM
      have b2 := mul_le_mul_of_nonneg_right (hlen v hv) he
      obtain ⟨x, x1, x2⟩ := sum_near (l := v.map fun d => (toK (Edge.cost d), toK (Edge.cost d), 0)) h he
        (fun q hq => by
          obtain ⟨d, -, rfl⟩ := List.mem_map.mp hq
          simp) (by
          simp only [List.length_map, List.map_map, Function.comp_def, List.map_const', List.sum_replicate,
            smul_zero, add_zero]
          linarith [hs.1])
      refine ⟨x, fun _ => ⟨?_, ?_⟩⟩
      · rw [← x1]
        congr 1
        rw [List.map_map]
        exact List.map_congr_left fun d hd => (hcost v hv d hd).1
      · simpa [List.map_map, Function.comp_def] using x2
    · exact ⟨0, fun h => absurd h hv⟩
  choose f hf using hrow
  -- sizes of the rows
  have hsum1 : (g.map fun v => |(v.map fun d => toK (Edge.cost d)).sum|).sum ≤
      (((g.map List.length).sum : Nat) : K) * M := by
    clear hB hk hkK hlen hg0 hf
    induction g with
    | nil => simp
    | cons v t ih =>
      have h1 := ih (fun w hw => hc w (by simp [hw])) (fun w hw => hcost w (by simp [hw]))
      have h2 := (sum_abs_le (f := fun d => toK (Edge.cost d)) (fun d hd => (hcost v (by simp) d hd).2)).2
      simp only [List.map_cons, List.sum_cons]
      push_cast
      linarith
  have hsum2 : (g.map fun v => (v.length : K) * e).sum = (((g.map List.length).sum : Nat) : K) * e := by
    clear hB hk hkK hlen hg0 hf hsum1 hc hcost
    induction g with
    | nil => simp
    | cons v t ih =>
      simp only [List.map_cons, List.sum_cons, ih]
      push_cast
      ring
  have b1 := mul_le_mul_of_nonneg_right hkK hM
  have b2 := mul_le_mul_of_nonneg_right hkK he
  obtain ⟨y, y1, y2⟩ := sum_near (l := g.map fun v =>
      (f v, (v.map fun d => toK (Edge.cost d)).sum, (v.length : K) * e)) h he (fun q hq => by
      obtain ⟨v, hv, rfl⟩ := List.mem_map.mp hq
      exact (hf v hv).2) (by
      simp only [List.length_map, List.map_map, Function.comp_def]
      rw [hsum2]
      linarith)
  simp only [List.length_map, List.map_map, Function.comp_def] at y1 y2
  rw [hsum2] at y2
  refine ⟨y, ?_, ?_⟩
  · rw [← y1]
    unfold Graph.directedEdgeWeight
    congr 1
    exact List.map_congr_left fun v hv => (hf v hv).1
  · unfold wsum
    linarith

/-- the number of edges of a run of Prim's algorithm -/
theorem PrimRun.length_le {c : Nat → Nat → K} {n : Nat} {ex : List Nat} {start : Nat}
    {P : List (Nat × Nat)} (h : PrimRun c (fun j => j < n ∧ j ∉ ex) [start] P) : P.length ≤ n := by
  rw [h.length]
  unfold remaining
  exact (List.length_filter_le _ _).trans (by simp)

/-- The bound of v5, v6 and the MPI solvers. -/
theorem mstBound_near (h : R.Near B e) (he : 0 ≤ e) (hM : 0 ≤ M) {m : Mat (XNum K)}
    {c : Nat → Nat → K} (hm : Rep m c) (hc : CostBound m.dim c M)
    (hB : (2 * m.dim : Nat) * M + (3 * m.dim : Nat) * e ≤ B) {p : List Nat} (hp : ∀ v ∈ p, v < m.dim) :
    ∃ y, @mstBound _ R.ops m p = .ok (fin y) ∧
      |y| ≤ (2 * m.dim : Nat) * M + (3 * m.dim : Nat) * e ∧
      (Symm m.dim c → ∀ t : List Nat, t.Nodup → (∀ j, j ∈ t ↔ j < m.dim ∧ j ∉ p) →
        y ≤ 2 * pathCost c t + (3 * m.dim : Nat) * e) := by
  have hd0 : (0 : K) ≤ m.dim := Nat.cast_nonneg _
  have h0 : (0 : K) ≤ (3 * m.dim : Nat) * e := mul_nonneg (Nat.cast_nonneg _) he
  have h0' : (0 : K) ≤ (2 * m.dim : Nat) * M := mul_nonneg (Nat.cast_nonneg _) hM
  rcases primSeq_exact hm p hp with ⟨h1, h2⟩ | ⟨start, P, h1, h2, h3, h4, h5⟩
  · refine ⟨0, ?_, by rw [abs_zero]; linarith, fun _ t _ ht => ?_⟩
    · unfold mstBound
      rw [primSeq_same, h2]
      rfl
    · have : t = [] := by
        rw [List.eq_nil_iff_forall_not_mem]
        intro j hj
        have := (ht j).mp hj
        exact this.2 (h1 j this.1)
      rw [this]
      simpa using h0
  · have hlen : P.length ≤ m.dim := h3.length_le
    have hlenK : ((2 * P.length : Nat) : K) ≤ (2 * m.dim : Nat) := by
      exact_mod_cast Nat.mul_le_mul_left 2 hlen
    have hb1 := mul_le_mul_of_nonneg_right hlenK hM
    have hb2 := mul_le_mul_of_nonneg_right hlenK he
    have hPlt : ∀ q ∈ P, q.1 < m.dim ∧ q.2 < m.dim := fun q hq => ⟨(h5 q hq).1.1, (h5 q hq).2.1.1⟩
    have hPc : ∀ q ∈ P, |c q.2 q.1| ≤ M := fun q hq =>
      hc _ _ (h5 q hq).2.1.1 (h5 q hq).1.1 (h5 q hq).2.2.symm
    obtain ⟨y, y1, y2⟩ := directedEdgeWeight_near h he hM (k := 2 * P.length) (g := treeGraph c m.dim P)
      (by
        intro v hv d hd
        obtain ⟨i, hi, rfl⟩ := List.mem_iff_getElem.mp hv
        obtain ⟨-, q, hq, h⟩ := (mem_treeGraph c m.dim P (fun q hq => (h5 q hq).2.2) i d).mp
          ⟨_, List.getElem?_eq_getElem hi, hd⟩
        rcases h with ⟨-, rfl⟩ | ⟨-, rfl⟩
        · exact ⟨_, rfl, hPc q hq⟩
        · exact ⟨_, rfl, hPc q hq⟩)
      (count_treeGraph c m.dim P hPlt).le (by
        rw [length_treeGraph]
        push_cast at hb1 hb2 hB ⊢
        linarith)
    rw [length_treeGraph] at y2
    have hw : wsum (treeGraph c m.dim P) = 2 * (P.map fun q => c q.2 q.1).sum := wsum_treeGraph c m.dim P hPlt
    have hwb : |wsum (treeGraph c m.dim P)| ≤ (2 * P.length : Nat) * M := by
      rw [hw, abs_mul, abs_of_pos (by norm_num : (0 : K) < 2)]
      have := (sum_abs_le (f := fun q : Nat × Nat => c q.2 q.1) hPc).2
      push_cast
      linarith
    have herr : |y - wsum (treeGraph c m.dim P)| ≤ (3 * m.dim : Nat) * e := by
      refine y2.trans ?_
      push_cast at hb2 ⊢
      linarith
    refine ⟨y, ?_, ?_, fun hsym t hnd ht => ?_⟩
    · unfold mstBound
      rw [primSeq_same, h4]
      simp only [rm_bind_ok, rm_pure]
      rw [y1]
    · have e1 : y = (y - wsum (treeGraph c m.dim P)) + wsum (treeGraph c m.dim P) := by ring
      rw [e1]
      have := abs_add_le (y - wsum (treeGraph c m.dim P)) (wsum (treeGraph c m.dim P))
      linarith
    · obtain ⟨x, x1, x2⟩ := mstBound_le_path hm hsym hp hnd ht
      unfold mstBound at x1
      rw [h4] at x1
      simp only [rm_bind_ok, rm_pure] at x1
      rw [directedEdgeWeight_fin _ (finG_treeGraph _ _ _)] at x1
      have hx : wsum (treeGraph c m.dim P) = x := XNum.fin.inj (Except.ok.inj x1)
      have := (abs_le.mp herr).2
      linarith

omit [IsStrictOrderedRing K] in
/-- the shortest edges of v4 are finite or missing -/
theorem shortestLaterEdge_bound {m : Mat (XNum K)} {c : Nat → Nat → K} (hm : Rep m c)
    (hc : CostBound m.dim c M) (sub : List Nat) {i : Nat} (hi : i < m.dim) :
    shortestLaterEdge m sub i = XNum.inf ∨ ∃ a, shortestLaterEdge m sub i = fin a ∧ |a| ≤ M := by
  unfold shortestLaterEdge
  refine foldl_inv _ (fun _ b => b = XNum.inf ∨ ∃ a, b = fin a ∧ |a| ≤ M) _ _ (Or.inl rfl) ?_
  rintro done k rest b hl hb
  have hk : k ∈ List.range' (i + 1) (m.dim - (i + 1)) := by rw [hl]; simp
  rw [List.mem_range'_1] at hk
  split
  · exact hb
  · split
    · right
      exact ⟨c i k, hm.off i k hi (by omega) (by omega), hc _ _ hi (by omega) (by omega)⟩
    · exact hb

omit [IsStrictOrderedRing K] in
theorem shortestLaterEdge_same (m : Mat (XNum K)) (sub : List Nat) (i : Nat) :
    @shortestLaterEdge _ R.ops m sub i = shortestLaterEdge m sub i := rfl

/-- The bound of v4 is a finite number. -/
theorem nnOfRemaining_near (h : R.Near B e) (he : 0 ≤ e) (hM : 0 ≤ M) {m : Mat (XNum K)}
    {c : Nat → Nat → K} (hm : Rep m c) (hc : CostBound m.dim c M)
    (hB : m.dim * M + m.dim * e ≤ B) (sub : List Nat) :
    ∃ y, @nnOfRemaining _ R.ops m sub = fin y ∧ |y| ≤ m.dim * M + m.dim * e := by
  have key : ∃ y, @nnOfRemaining _ R.ops m sub = fin y ∧ |y| ≤ ((List.range m.dim).length : K) * (M + e) := by
    unfold nnOfRemaining
    refine foldl_inv _ (fun done b => ∃ y, b = fin y ∧ |y| ≤ (done.length : K) * (M + e)) _ _
      ⟨0, rfl, by simp⟩ ?_
    rintro done i rest b hl ⟨y, rfl, hy⟩
    have hi : i < m.dim := by
      have : i ∈ List.range m.dim := by rw [hl]; simp
      simpa using this
    have hlen : done.length + 1 ≤ m.dim := by
      have := congrArg List.length hl
      simp at this
      omega
    have hlK : (done.length : K) + 1 ≤ m.dim := by exact_mod_cast hlen
    have hMe : 0 ≤ M + e := by linarith
    have hb1 := mul_le_mul_of_nonneg_right hlK hMe
    have hkeep : |y| ≤ ((done ++ [i]).length : K) * (M + e) := by
      simp only [List.length_append, List.length_cons, List.length_nil, zero_add]
      push_cast
      linarith
    split
    · exact ⟨y, rfl, hkeep⟩
    · rw [shortestLaterEdge_same]
      rcases shortestLaterEdge_bound hm hc sub hi with h' | ⟨a, h', ha⟩
      · rw [h']
        exact ⟨y, rfl, hkeep⟩
      · rw [h']
        obtain ⟨z, hz, hz'⟩ := h.add (a := y) (b := a) (by
          have := abs_add_le y a
          linarith)
        refine ⟨z, ?_, ?_⟩
        · exact hz
        · have e1 : z = (z - (y + a)) + (y + a) := by ring
          rw [e1]
          have k1 := abs_add_le (z - (y + a)) (y + a)
          have k2 := abs_add_le y a
          simp only [List.length_append, List.length_cons, List.length_nil, zero_add]
          push_cast
          linarith
  obtain ⟨y, h1, h2⟩ := key
  refine ⟨y, h1, ?_⟩
  rw [List.length_range] at h2
  linarith

end Walky
