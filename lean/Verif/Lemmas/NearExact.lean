import Verif.Lemmas.NearBounds
import Verif.Model.Mpi
import Verif.Props.ExactPartial

/-! # The solvers v4 – v6 and the searches of the parallel solvers in a rounded arithmetic -/

namespace Walky

open FloatOps XNum Spec

variable {K : Type} [Field K] [LinearOrder K] [IsStrictOrderedRing K] {R : Rounding K} {B e M : K}

/-- The sizes occurring in the searches fit into the range with absolute error `e`. -/
structure Rounding.Fits (R : Rounding K) (B e M : K) (m : Mat (XNum K)) (c : Nat → Nat → K) : Prop where
  near : R.Near B e
  e0 : 0 ≤ e
  M0 : 0 ≤ M
  rep : Rep m c
  bound : CostBound m.dim c M
  dim : 2 ≤ m.dim
  size : (3 * m.dim : Nat) * M + (2 * m.dim * m.dim + 3 * m.dim + 1 : Nat) * e ≤ B

variable {m : Mat (XNum K)} {c : Nat → Nat → K}

theorem Rounding.Fits.dfsSize (h : R.Fits B e M m c) :
    m.dim * M + (2 * m.dim * m.dim + 1 : Nat) * e ≤ B := by
  have h1 := h.size
  have h2 : (0 : K) ≤ m.dim * M := mul_nonneg (Nat.cast_nonneg _) h.M0
  have h3 : (0 : K) ≤ m.dim * e := mul_nonneg (Nat.cast_nonneg _) h.e0
  push_cast at h1 ⊢
  linarith

/-- The current cost plus a bound -/
theorem Rounding.Fits.test (h : R.Fits B e M m c) {p : List Nat} (hp : ValidPre m.dim p) {x y : K}
    (hx : |x - pathCost c p| ≤ drift m.dim p.length e)
    (hy : |y| ≤ (2 * m.dim : Nat) * M + (3 * m.dim : Nat) * e) :
    ∃ z, @FloatOps.add _ R.ops (fin x) (fin y) = fin z ∧ |z - (x + y)| ≤ e ∧ z ≤ B := by
  have hle : |x + y| + e ≤ B := ?_
  · obtain ⟨z, z1, z2⟩ := h.near.add (le_of_add_le_of_nonneg_left hle h.e0)
    refine ⟨z, z1, z2, ?_⟩
    have k1 := (abs_le.mp z2).2
    have k2 := le_abs_self (x + y)
    linarith
  have h1 := pathCost_bound h.bound h.M0 hp
  have hl : (p.length : K) ≤ m.dim := by exact_mod_cast hp.length_le
  have h2 := mul_le_mul_of_nonneg_right hl h.M0
  have hd : drift m.dim p.length e ≤ (2 * m.dim * m.dim : Nat) * e := by
    unfold drift
    refine mul_le_mul_of_nonneg_right ?_ h.e0
    exact_mod_cast Nat.mul_le_mul_left _ hp.length_le
  have e1 : x + y = ((x - pathCost c p) + pathCost c p) + y := by ring
  have k1 := abs_add_le ((x - pathCost c p) + pathCost c p) y
  have k2 := abs_add_le (x - pathCost c p) (pathCost c p)
  have hs := h.size
  have he := h.e0
  rw [e1]
  push_cast at hd hs hy ⊢
  linarith

/-- The bound `cur + lb` of v5 and v6 against twice the length of a tour -/
theorem Rounding.Fits.twice (h : R.Fits B e M m c) (hc : Nonneg m.dim c)
    {p q : List Nat} (hq : IsTour m.dim q) (hpq : p <+: q) {x y z : K}
    (hx : |x - pathCost c p| ≤ drift m.dim p.length e)
    (hy : ∀ t : List Nat, t.Nodup → (∀ j, j ∈ t ↔ j < m.dim ∧ j ∉ p) →
      y ≤ 2 * pathCost c t + (3 * m.dim : Nat) * e) (hz : |z - (x + y)| ≤ e) :
    z ≤ 2 * tourCost c q + (2 * m.dim * m.dim + 3 * m.dim + 1 : Nat) * e := by
  obtain ⟨t, rfl⟩ := hpq
  have hr := rest_of_tour hq
  have h1 := hy t hr.1 hr.2
  obtain ⟨h2, h3, h4⟩ := Props.tour_split_ge hc (fun h' => by have := h.dim; omega) hq
  have hl : p.length ≤ m.dim := by
    have := hq.length
    simp at this
    omega
  have hd : drift m.dim p.length e ≤ (2 * m.dim * m.dim : Nat) * e := by
    unfold drift
    refine mul_le_mul_of_nonneg_right ?_ h.e0
    exact_mod_cast Nat.mul_le_mul_left _ hl
  have k1 := (abs_le.mp hx).2
  have k2 := (abs_le.mp hz).2
  push_cast at h1 hd ⊢
  linarith

/-- A solution: nothing, or a tour with its length up to `(2 n² + 1) e` -/
def SolNear (n : Nat) (c : Nat → Nat → K) (e : K) (s : Solution (XNum K)) : Prop :=
  s = (XNum.inf, []) ∨ (IsTour n s.2 ∧ ∃ w, s.1 = fin w ∧ |w - tourCost c s.2| ≤ (2 * n * n + 1 : Nat) * e)

/-- twice the length of a tour, up to rounding -/
abbrev twiceNear (n : Nat) (c : Nat → Nat → K) (e : K) (q : List Nat) : XNum K :=
  fin (2 * tourCost c q + (2 * n * n + 3 * n + 1 : Nat) * e)

omit [IsStrictOrderedRing K] in
theorem ne_inf_of_le {b b' : XNum K} (h : FloatOps.le b b' = true) (h' : b' ≠ XNum.inf) :
    b ≠ XNum.inf := by
  rintro rfl
  cases b' with
  | inf => exact h' rfl
  | _ => cases h

/-- The recursion of v4 – v6 and of the parallel solvers, for every test which compares the current cost
plus a finite number with the best known cost. `G` is what the pruned branches guarantee. -/
theorem dfs_near_from (h : R.Fits B e M m c) {σ : Type} {test : PruneTest σ (XNum K)}
    {J : σ → Prop} {G : XNum K → List Nat → Prop}
    (hmono : ∀ b b' q, FloatOps.le b b' = true → G b' q → G b q)
    (hleaf : ∀ b y q, IsTour m.dim q → |y - tourCost c q| ≤ (2 * m.dim * m.dim + 1 : Nat) * e →
      FloatOps.le b (fin y) = true → G b q)
    (htest : ∀ a p x b, J a → ValidPre m.dim p → 2 ≤ p.length → Proper b →
      |x - pathCost c p| ≤ drift m.dim p.length e →
      ∃ go a', test a p (fin x) b = .ok (go, a') ∧ J a' ∧
        (go = false → ∀ q, IsTour m.dim q → p <+: q → G b q))
    {pre : List Nat} (hv : ValidPre m.dim pre) {x : K}
    (hx : |x - pathCost c pre| ≤ drift m.dim pre.length e) {a : σ} (ha : J a) :
    ∃ r, @dfs _ R.ops _ m test (m.dim + 1) pre (fin x) ((XNum.inf, []), a) = .ok r ∧
      (r.1 = (XNum.inf, []) ∨ pre <+: r.1.2) ∧ SolNear m.dim c e r.1 ∧
      ∀ q, IsTour m.dim q → pre <+: q → G r.1.1 q := by
  obtain ⟨r, r1, -, r2, r3⟩ := dfs_near (test := test) h.near h.e0 h.M0 h.rep h.bound h.dim h.dfsSize
    hmono hleaf htest (m.dim + 1) pre x ((XNum.inf, []), a) hv (by omega) hx ha proper_inf
  refine ⟨r, r1, ?_, ?_, r3⟩
  · rcases r2 with r2 | ⟨-, r2, -⟩
    · exact Or.inl r2
    · exact Or.inr r2
  · rcases r2 with r2 | ⟨k1, -, -, w, k2, k3⟩
    · exact Or.inl r2
    · refine Or.inr ⟨k1, w, k2, k3.trans (le_of_eq ?_)⟩
      unfold drift
      push_cast
      ring

theorem leaf_twice (hn : Nonneg m.dim c) (h : R.Fits B e M m c) {b : XNum K} {y : K} {q : List Nat}
    (hq : IsTour m.dim q) (hy : |y - tourCost c q| ≤ (2 * m.dim * m.dim + 1 : Nat) * e)
    (hb : FloatOps.le b (fin y) = true) : FloatOps.le b (twiceNear m.dim c e q) = true := by
  refine XNum.le_trans' hb ?_
  simp only [XNum.le_fin, decide_eq_true_eq]
  obtain ⟨h2, -, h4⟩ := Props.tour_split_ge hn (fun h' => by have := h.dim; omega) (p := q) (t := [])
    (by simpa using hq)
  simp only [List.append_nil, pathCost_nil, add_zero] at h4
  have k1 := (abs_le.mp hy).2
  have he : (0 : K) ≤ (3 * m.dim : Nat) * e := mul_nonneg (Nat.cast_nonneg _) h.e0
  push_cast at k1 he ⊢
  linarith

/-- the bound of v5 and v6 -/
theorem Rounding.Fits.mst (h : R.Fits B e M m c) {p : List Nat} (hp : ∀ v ∈ p, v < m.dim) :
    ∃ y, @mstBound _ R.ops m p = .ok (fin y) ∧
      |y| ≤ (2 * m.dim : Nat) * M + (3 * m.dim : Nat) * e ∧
      (Symm m.dim c → ∀ t : List Nat, t.Nodup → (∀ j, j ∈ t ↔ j < m.dim ∧ j ∉ p) →
        y ≤ 2 * pathCost c t + (3 * m.dim : Nat) * e) := by
  refine mstBound_near h.near h.e0 h.M0 h.rep h.bound ?_ hp
  have hs := h.size
  have k1 : (0 : K) ≤ m.dim * M := mul_nonneg (Nat.cast_nonneg _) h.M0
  have k2 : (0 : K) ≤ (2 * m.dim * m.dim + 1 : Nat) * e := mul_nonneg (Nat.cast_nonneg _) h.e0
  push_cast at hs k2 ⊢
  linarith

omit [Field K] [LinearOrder K] [IsStrictOrderedRing K] in
theorem proper_cases {b : XNum K} (h : Proper b) : b = XNum.inf ∨ ∃ x, b = fin x := h

/-- The recursion with the test of the MPI solvers, `g` is the best cost known globally. -/
theorem dfsMpi_near (h : R.Fits B e M m c) {g : XNum K} (hg : Proper g) {pre : List Nat}
    (hv : ValidPre m.dim pre) {x : K} (hx : |x - pathCost c pre| ≤ drift m.dim pre.length e) :
    ∃ r, @dfs _ R.ops _ m (@testMpi _ R.ops m g) (m.dim + 1) pre (fin x) ((XNum.inf, []), ()) = .ok r ∧
      (r.1 = (XNum.inf, []) ∨ pre <+: r.1.2) ∧ SolNear m.dim c e r.1 ∧
      (∀ q, IsTour m.dim q → pre <+: q →
        FloatOps.le r.1.1 (fin B) = true ∨ FloatOps.le g (fin B) = true) ∧
      (Symm m.dim c → Nonneg m.dim c → ∀ q, IsTour m.dim q → pre <+: q →
        FloatOps.le r.1.1 (twiceNear m.dim c e q) = true ∨ FloatOps.le g (twiceNear m.dim c e q) = true) := by
  have hprop : ∀ b, Proper b → Proper (if FloatOps.lt g b = true then g else b) := by
    intro b hb
    split
    · exact hg
    · exact hb
  have hpruned : ∀ {b : XNum K} {z T : K}, Proper b → FloatOps.le (fin z) b = false → z ≤ T →
      FloatOps.le b (fin T) = true := by
    intro b z T hb hgo hz
    rcases proper_cases hb with rfl | ⟨w, rfl⟩
    · simp at hgo
    · simp only [XNum.le_fin, decide_eq_false_iff_not, not_le] at hgo
      simp only [XNum.le_fin, decide_eq_true_eq]
      linarith
  -- the test
  have htest : ∀ (p : List Nat) (x : K) (b : XNum K), ValidPre m.dim p → Proper b →
      |x - pathCost c p| ≤ drift m.dim p.length e →
      ∃ z, @testMpi _ R.ops m g () p (fin x) b =
        .ok (FloatOps.le (fin z) (if FloatOps.lt g b = true then g else b), ()) ∧ z ≤ B ∧
        (Symm m.dim c → Nonneg m.dim c → ∀ q, IsTour m.dim q → p <+: q →
          z ≤ 2 * tourCost c q + (2 * m.dim * m.dim + 3 * m.dim + 1 : Nat) * e) := by
    intro p x b hp hb hx
    obtain ⟨y, y1, y2, y3⟩ := h.mst hp.2
    obtain ⟨z, z1, z2, z3⟩ := h.test hp hx y2
    refine ⟨z, ?_, z3, fun hsym hnn q hq hpq => h.twice hnn hq hpq hx (y3 hsym) z2⟩
    unfold testMpi
    rw [y1]
    simp only [rm_bind_ok, rm_pure]
    rw [z1]
    rfl
  obtain ⟨r, r1, r2, r3, r4⟩ := dfs_near_from (test := @testMpi _ R.ops m g) (J := fun _ => True)
    (G := fun b _ => FloatOps.le b (fin B) = true ∨ FloatOps.le g (fin B) = true) h
    (fun b b' q hb hb' => hb'.imp_left fun hb' => XNum.le_trans' hb hb')
    (fun b y q hq hy hb => Or.inl (XNum.le_trans' hb (by
      simp only [XNum.le_fin, decide_eq_true_eq]
      have k1 := tourCost_bound h.bound ⟨hq.nodup, fun v hv => hq.mem.mp hv⟩ (by rw [hq.length]; exact h.dim)
      rw [hq.length] at k1
      have k2 := (abs_le.mp hy).2
      have k3 := (abs_le.mp k1).2
      have k4 := h.dfsSize
      linarith)))
    (fun _ p x b _ hp _ hb hx => by
      obtain ⟨z, z1, z2, -⟩ := htest p x b hp hb hx
      refine ⟨_, (), z1, trivial, fun hgo q _ _ => ?_⟩
      have hle := hpruned (hprop b hb) hgo z2
      split at hle
      · exact Or.inr hle
      · exact Or.inl hle) hv hx (a := ()) trivial
  refine ⟨r, r1, r2, r3, r4, fun hsym hnn => ?_⟩
  obtain ⟨r', r1', -, -, r4'⟩ := dfs_near_from (test := @testMpi _ R.ops m g) (J := fun _ => True)
    (G := fun b q => FloatOps.le b (twiceNear m.dim c e q) = true ∨
      FloatOps.le g (twiceNear m.dim c e q) = true) h
    (fun b b' q hb hb' => hb'.imp_left fun hb' => XNum.le_trans' hb hb')
    (fun b y q hq hy hb => Or.inl (leaf_twice hnn h hq hy hb))
    (fun _ p x b _ hp _ hb hx => by
      obtain ⟨z, z1, -, z2⟩ := htest p x b hp hb hx
      refine ⟨_, (), z1, trivial, fun hgo q hq hpq => ?_⟩
      have hz := z2 hsym hnn q hq hpq
      have hle := hpruned (hprop b hb) hgo hz
      split at hle
      · exact Or.inr hle
      · exact Or.inl hle) hv hx (a := ()) trivial
  rw [r1] at r1'
  have : r = r' := Except.ok.inj r1'
  rw [this]
  exact r4'

omit [IsStrictOrderedRing K] in
/-- v5 is the search of the MPI solvers without a global best cost. -/
theorem test5_eq (m : Mat (XNum K)) : @test5 _ R.ops m = @testMpi _ R.ops m XNum.inf := by
  funext a p x b
  unfold test5 testMpi
  have : @FloatOps.lt _ R.ops XNum.inf b = false := by
    change FloatOps.lt (XNum.inf : XNum K) b = false
    cases b <;> rfl
  rw [this]
  rfl

/-- v4 -/
theorem v4_near (h : R.Fits B e M m c) : ∃ p w, @fourthImprovedSolver _ R.ops m = .ok (fin w, p) ∧
    IsTour m.dim p ∧ |w - tourCost c p| ≤ (2 * m.dim * m.dim + 1 : Nat) * e := by
  obtain ⟨r, r1, -, r3, r4⟩ := dfs_near_from (test := @test4 _ R.ops m) (J := fun _ => True)
    (G := fun b _ => b ≠ XNum.inf) h (fun b b' q hb hb' => ne_inf_of_le hb hb')
    (fun b y q _ _ hb => ne_inf_of_le hb (by simp))
    (fun _ p x b _ hp _ hb hx => by
      have hs := h.size
      have k0 : (0 : K) ≤ m.dim * M := mul_nonneg (Nat.cast_nonneg _) h.M0
      have k2 : (0 : K) ≤ m.dim * e := mul_nonneg (Nat.cast_nonneg _) h.e0
      have k3 : (0 : K) ≤ (2 * m.dim * m.dim + 1 : Nat) * e := mul_nonneg (Nat.cast_nonneg _) h.e0
      push_cast at hs k3
      obtain ⟨y, y1, y2⟩ := nnOfRemaining_near h.near h.e0 h.M0 h.rep h.bound
        (by linarith) p
      obtain ⟨z, z1, z2, -⟩ := h.test hp hx (y2.trans (by push_cast; linarith))
      refine ⟨FloatOps.le (fin z) b, (), ?_, trivial, fun hgo q _ _ => ?_⟩
      · unfold test4
        rw [y1, z1]
        rfl
      · rintro rfl
        simp at hgo) (pre := []) ⟨by simp, by simp⟩ (x := 0) (by simp [drift]) (a := ()) trivial
  rcases r3 with r3 | ⟨k1, w, k2, k3⟩
  · exact absurd (by rw [r3]) (r4 _ (isTour_range _) List.nil_prefix)
  · refine ⟨r.1.2, w, ?_, k1, k3⟩
    unfold fourthImprovedSolver solveDfs
    have r1' : @dfs _ R.ops _ m (@test4 _ R.ops m) (m.dim + 1) [] (@FloatOps.zero _ R.ops)
      ((@FloatOps.inf _ R.ops, []), ()) = .ok r := r1
    rw [r1', rm_bind_ok, rm_pure, ← k2]

/-- v5 -/
theorem v5_near (h : R.Fits B e M m c) : ∃ p w, @fifthImprovedSolver _ R.ops m = .ok (fin w, p) ∧
    IsTour m.dim p ∧ |w - tourCost c p| ≤ (2 * m.dim * m.dim + 1 : Nat) * e ∧
    (Symm m.dim c → Nonneg m.dim c → ∀ q, IsTour m.dim q →
      w ≤ 2 * tourCost c q + (2 * m.dim * m.dim + 3 * m.dim + 1 : Nat) * e) := by
  obtain ⟨r, r1, -, r3, r4, r5⟩ := dfsMpi_near h proper_inf (pre := []) ⟨by simp, by simp⟩ (x := 0)
    (by simp [drift])
  rcases r3 with r3 | ⟨k1, w, k2, k3⟩
  · rcases r4 _ (isTour_range _) List.nil_prefix with h' | h'
    · rw [r3] at h'
      simp at h'
    · simp at h'
  · refine ⟨r.1.2, w, ?_, k1, k3, fun hsym hnn q hq => ?_⟩
    · unfold fifthImprovedSolver solveDfs
      rw [test5_eq]
      have r1' : @dfs _ R.ops _ m (@testMpi _ R.ops m XNum.inf) (m.dim + 1) [] (@FloatOps.zero _ R.ops)
        ((@FloatOps.inf _ R.ops, []), ()) = .ok r := r1
      rw [r1', rm_bind_ok, rm_pure, ← k2]
    · rcases r5 hsym hnn q hq List.nil_prefix with h' | h'
      · rw [k2] at h'
        simpa only [XNum.le_fin, decide_eq_true_eq] using h'
      · simp at h'

/-- v6, for every hash function -/
theorem v6_near (h : R.Fits B e M m c) (hash : List Nat → Nat) :
    ∃ p w, @sixthImprovedSolver _ R.ops m hash = .ok (fin w, p) ∧
    IsTour m.dim p ∧ |w - tourCost c p| ≤ (2 * m.dim * m.dim + 1 : Nat) * e := by
  obtain ⟨r, r1, -, r3, r4⟩ := dfs_near_from (test := @test6 _ R.ops m hash)
    (J := fun cache => ∀ k v, cache.lookup k = some v →
      ∃ y, v = fin y ∧ |y| ≤ (2 * m.dim : Nat) * M + (3 * m.dim : Nat) * e)
    (G := fun b _ => b ≠ XNum.inf) h (fun b b' q hb hb' => ne_inf_of_le hb hb')
    (fun b y q _ _ hb => ne_inf_of_le hb (by simp))
    (fun cache p x b hJ hp _ hb hx => by
      obtain ⟨y, y1, y2, -⟩ := h.mst hp.2
      unfold test6
      rw [y1]
      simp only [rm_bind_ok]
      cases hl : cache.lookup (hash p) with
      | some v =>
        obtain ⟨y', rfl, y2'⟩ := hJ _ _ hl
        obtain ⟨z, z1, z2, -⟩ := h.test hp hx y2'
        refine ⟨FloatOps.le (fin z) b, cache, ?_, hJ, fun hgo q _ _ => ?_⟩
        · simp only [z1]
          rfl
        · rintro rfl
          simp at hgo
      | none =>
        obtain ⟨z, z1, z2, -⟩ := h.test hp hx y2
        refine ⟨FloatOps.le (fin z) b, (hash p, fin y) :: cache, ?_, ?_, fun hgo q _ _ => ?_⟩
        · simp only [z1]
          rfl
        · intro k v hk
          rw [List.lookup_cons] at hk
          split at hk
          · injection hk with hk
            exact ⟨y, hk.symm, y2⟩
          · exact hJ k v hk
        · rintro rfl
          simp at hgo) (pre := []) ⟨by simp, by simp⟩ (x := 0) (by simp [drift]) (a := []) (by simp)
  rcases r3 with r3 | ⟨k1, w, k2, k3⟩
  · exact absurd (by rw [r3]) (r4 _ (isTour_range _) List.nil_prefix)
  · refine ⟨r.1.2, w, ?_, k1, k3⟩
    unfold sixthImprovedSolver solveDfs
    have r1' : @dfs _ R.ops _ m (@test6 _ R.ops m hash) (m.dim + 1) [] (@FloatOps.zero _ R.ops)
      ((@FloatOps.inf _ R.ops, []), []) = .ok r := r1
    rw [r1', rm_bind_ok, rm_pure, ← k2]

/-- The search of the MPI solvers below a prefix -/
theorem searchMpi_near (h : R.Fits B e M m c) {g : XNum K} (hg : Proper g) {pre : List Nat}
    (hv : ValidPre m.dim pre) :
    ∃ r, @searchMpi _ R.ops m g pre = .ok r ∧ (r = (XNum.inf, []) ∨ pre <+: r.2) ∧ SolNear m.dim c e r ∧
      (∀ q, IsTour m.dim q → pre <+: q →
        FloatOps.le r.1 (fin B) = true ∨ FloatOps.le g (fin B) = true) ∧
      (Symm m.dim c → Nonneg m.dim c → ∀ q, IsTour m.dim q → pre <+: q →
        FloatOps.le r.1 (twiceNear m.dim c e q) = true ∨ FloatOps.le g (twiceNear m.dim c e q) = true) := by
  have hl := hv.length_le
  obtain ⟨x, x1, x2⟩ := evaluatePath_near h.near h.e0 h.M0 h.rep h.bound hv (by
    have hlK : (pre.length : K) ≤ m.dim := by exact_mod_cast hl
    have k1 := mul_le_mul_of_nonneg_right hlK h.M0
    have k2 := mul_le_mul_of_nonneg_right hlK h.e0
    have hs := h.size
    have k3 : (0 : K) ≤ m.dim * M := mul_nonneg (Nat.cast_nonneg _) h.M0
    have k4 : (0 : K) ≤ (2 * m.dim * m.dim + 2 * m.dim + 1 : Nat) * e :=
      mul_nonneg (Nat.cast_nonneg _) h.e0
    push_cast at hs k4
    linarith)
  have hd : ((pre.length - 1 : Nat) : K) * e ≤ drift m.dim pre.length e := by
    unfold drift
    refine mul_le_mul_of_nonneg_right ?_ h.e0
    have : pre.length - 1 ≤ 2 * m.dim * pre.length := by
      have := h.dim
      nlinarith [Nat.sub_le pre.length 1]
    exact_mod_cast this
  obtain ⟨r, r1, r2⟩ := dfsMpi_near h hg hv (x2.trans hd)
  refine ⟨r.1, ?_, r2⟩
  unfold searchMpi
  rw [x1]
  simp only [rm_bind_ok]
  have r1' : @dfs _ R.ops _ m (@testMpi _ R.ops m g) (m.dim + 1) pre (fin x)
      ((@FloatOps.inf _ R.ops, []), ()) = .ok r := r1
  rw [r1', rm_bind_ok, rm_pure]

omit [IsStrictOrderedRing K] in
theorem searchPrefix_eq (m : Mat (XNum K)) (pre : List Nat) :
    @searchPrefix _ R.ops m pre = @searchMpi _ R.ops m XNum.inf pre := by
  unfold searchPrefix searchMpi
  rw [test5_eq]

end Walky
