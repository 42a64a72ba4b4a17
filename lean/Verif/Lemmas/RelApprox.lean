import Verif.Lemmas.RelSum
import Verif.Lemmas.FixedApprox
import Verif.Lemmas.NearestNeighbour
import Verif.Lemmas.Christofides

/-! # Relative errors of the approximation algorithms and the lower bounds -/

namespace Walky

open FloatOps XNum Spec

variable {K : Type} [Field K] [LinearOrder K] [IsStrictOrderedRing K] {R : Rounding K} {B u S : K}
  {D : K → Prop} {m : Mat (XNum K)}

/-! ## Nearest neighbour -/

omit [IsStrictOrderedRing K] in
theorem add_eq_fin {x y : XNum K} {b : K} (h : FloatOps.add x y = fin b) :
    ∃ a d, x = fin a ∧ y = fin d ∧ b = a + d := by
  cases x <;> cases y <;> first
    | exact ⟨_, _, rfl, rfl, (XNum.fin.inj h).symm⟩
    | cases h

theorem nnLoop_mono (hP : ∀ i j, i < m.dim → j < m.dim → NN D (m.get i j)) :
    ∀ (fuel : Nat) (s t : NNState (XNum K)) (b : K), nnLoop m fuel s = .ok t → t.distance = fin b →
      ∃ a, s.distance = fin a ∧ a ≤ b := by
  intro fuel
  induction fuel with
  | zero =>
    intro s t b h ht
    unfold nnLoop at h
    split at h
    · cases h
    · rw [Except.ok.inj h]; exact ⟨b, ht, le_rfl⟩
  | succ fuel ih =>
    intro s t b h ht
    unfold nnLoop at h
    split at h
    · have e3 : FloatOps.inf = (.inf : XNum K) := rfl
      rw [e3] at h
      cases hs : (List.range m.dim).foldlM (nnScanStep m s.visited s.current) (none, .inf) with
      | error => rw [hs] at h; cases h
      | ok r =>
        have hd : NN D r.2 := nnScan_pred hP _ _ _ _ _ (fun a ha => by cases ha) hs
        obtain ⟨nearest, d⟩ := r
        rw [hs] at h
        simp only [rm_bind_ok] at h
        cases nearest with
        | none => cases h
        | some x =>
          simp only at h
          split at h
          · obtain ⟨a, ha, hab⟩ := ih _ t b h ht
            obtain ⟨a0, d0, k1, k2, k3⟩ := add_eq_fin ha
            have := (hd d0 k2).2
            exact ⟨a0, k1, by linarith⟩
          · cases h
    · rw [Except.ok.inj h]; exact ⟨b, ht, le_rfl⟩

/-- The loop in rounded arithmetic takes the same decisions. -/
theorem nnLoop_rel (hR : R.Summing D B u S) (hP : ∀ i j, i < m.dim → j < m.dim → NN D (m.get i j)) :
    ∀ (fuel k : Nat) (s t : NNState (XNum K)) (a b x δ : K), 0 ≤ δ → Approx D S δ x a →
      s.distance = fin a → nnLoop m fuel s = .ok t → t.distance = fin b →
      m.dim - s.path.length ≤ k → (1 + δ) * (1 + u) ^ k * b ≤ B →
      ∃ y, @nnLoop _ R.ops m fuel (NNState.mk s.path s.visited s.current (fin x)) =
          .ok (NNState.mk t.path t.visited t.current (fin y)) ∧
        Approx D S ((1 + δ) * (1 + u) ^ k - 1) y b := by
  intro fuel
  have hu := hR.upos
  have hgrow : ∀ {δ x a : K} (k : Nat), 0 ≤ δ → Approx D S δ x a →
      Approx D S ((1 + δ) * (1 + u) ^ k - 1) x a := by
    intro δ x a k hδ h
    refine h.mono ?_
    have : 1 ≤ (1 + u) ^ k := one_le_pow₀ (by linarith)
    nlinarith
  induction fuel with
  | zero =>
    intro k s t a b x δ hδ hx hs h ht hk hB
    unfold nnLoop at h ⊢
    simp only
    split at h
    · cases h
    · rename_i hlen
      rw [if_neg hlen]
      have := Except.ok.inj h
      subst this
      rw [hs] at ht
      rw [← XNum.fin.inj ht]
      exact ⟨x, rfl, hgrow k hδ hx⟩
  | succ fuel ih =>
    intro k s t a b x δ hδ hx hs h ht hk hB
    unfold nnLoop at h ⊢
    simp only
    split at h
    · rename_i hlen
      rw [if_pos hlen]
      have e : @nnScanStep _ R.ops m s.visited s.current = nnScanStep m s.visited s.current := rfl
      have e2 : @FloatOps.inf _ R.ops = (.inf : XNum K) := rfl
      have e3 : FloatOps.inf = (.inf : XNum K) := rfl
      rw [e, e2]
      rw [e3] at h
      cases hsc : (List.range m.dim).foldlM (nnScanStep m s.visited s.current) (none, .inf) with
      | error => rw [hsc] at h; cases h
      | ok r =>
        have hd : NN D r.2 := nnScan_pred hP _ _ _ _ _ (fun a ha => by cases ha) hsc
        obtain ⟨nearest, d⟩ := r
        rw [hsc] at h
        simp only [rm_bind_ok] at h ⊢
        cases nearest with
        | none => cases h
        | some v =>
          simp only at h ⊢
          split at h
          · rename_i hv
            rw [if_pos hv]
            obtain ⟨a', ha', hab'⟩ := nnLoop_mono hP _ _ t b h ht
            simp only at ha'
            obtain ⟨a0, d0, k1, k2, k3⟩ := add_eq_fin ha'
            rw [hs] at k1
            have k1 := XNum.fin.inj k1
            subst k1
            obtain ⟨hd1, hd2⟩ := hd d0 k2
            obtain ⟨j, rfl⟩ : ∃ j, k = j + 1 := ⟨k - 1, by omega⟩
            have hb0 : 0 ≤ b := by have := hx.pos; linarith
            have hp1 : 1 ≤ (1 + u) ^ (j + 1) := one_le_pow₀ (by linarith)
            have hdA : Approx D S δ d0 d0 := (Approx.refl hd1 hd2).mono hδ
            obtain ⟨y, y1, -, -, y2⟩ := hx.add hR hdA (by
              refine le_trans ?_ hB
              rw [← k3]
              have q1 : (1 + δ) * a' ≤ (1 + δ) * b := mul_le_mul_of_nonneg_left hab' (by linarith)
              have q2 : (1 + δ) * b * 1 ≤ (1 + δ) * b * (1 + u) ^ (j + 1) :=
                mul_le_mul_of_nonneg_left hp1 (by positivity)
              nlinarith)
            subst k2
            rw [y1]
            have e4 : (1 + δ) * (1 + u) ^ (j + 1) = (1 + ((1 + δ) * (1 + u) - 1)) * (1 + u) ^ j := by ring
            rw [e4] at hB ⊢
            rw [← k3] at y2
            exact ih j (NNState.mk (s.path ++ [v]) (s.visited.set v true) v
              (FloatOps.add s.distance (fin d0))) t a' b y _ (hδ.trans (grow_nonneg hu hδ)) y2 ha' h ht
              (by simp; omega) hB
          · cases h
    · rename_i hlen
      rw [if_neg hlen]
      have := Except.ok.inj h
      subst this
      rw [hs] at ht
      rw [← XNum.fin.inj ht]
      exact ⟨x, rfl, hgrow k hδ hx⟩

/-- `single_nearest_neighbour` -/
theorem singleNN_rel (hR : R.Summing D B u S) (hP : ∀ i j, i < m.dim → j < m.dim → NN D (m.get i j))
    {i : Nat} {b : K} {p : List Nat} (h : singleNN m i = .ok (fin b, p))
    (hB : (1 + u) ^ m.dim * b ≤ B) :
    ∃ y, @singleNN _ R.ops m i = .ok (fin y, p) ∧ |y - b| ≤ ((1 + u) ^ m.dim - 1) * b := by
  have hu := hR.upos
  unfold singleNN at h ⊢
  split at h
  · rename_i hi
    rw [if_pos hi]
    cases hl : nnLoop m m.dim
      (NNState.mk [i] ((List.replicate m.dim false).set i true) i FloatOps.zero) with
    | error => rw [hl] at h; cases h
    | ok t =>
      rw [hl, rm_bind_ok] at h
      cases he : m.entry t.current i with
      | error => rw [he] at h; cases h
      | ok w =>
        rw [he, rm_bind_ok, rm_pure] at h
        have h := Prod.mk.inj (Except.ok.inj h)
        obtain ⟨a, d, k1, k2, k3⟩ := add_eq_fin h.1
        obtain ⟨hd1, hd2⟩ := entry_pred (P := NN D) hP he d k2
        obtain ⟨n, hn⟩ : ∃ n, m.dim = n + 1 := ⟨m.dim - 1, by omega⟩
        obtain ⟨z, hz, hz0⟩ := nnLoop_mono hP _ _ t a hl k1
        have hz : (0 : K) = z := XNum.fin.inj hz
        subst hz
        have hp1 : 1 ≤ 1 + u := by linarith
        have hpn : 0 < (1 + u) ^ n := by positivity
        rw [hn, pow_succ] at hB
        have hB1 : (1 + 0) * (1 + u) ^ n * a ≤ B := by
          refine le_trans ?_ hB
          rw [add_zero, one_mul, mul_assoc]
          refine mul_le_mul_of_nonneg_left ?_ hpn.le
          nlinarith
        obtain ⟨x, x1, x2⟩ := nnLoop_rel hR hP m.dim n
          (NNState.mk [i] ((List.replicate m.dim false).set i true) i FloatOps.zero) t 0 a 0 0 le_rfl
          (Approx.refl hR.zero le_rfl) rfl hl k1 (by simp; omega) hB1
        rw [add_zero, one_mul] at x2
        have x1' : @nnLoop _ R.ops m m.dim
          (NNState.mk [i] ((List.replicate m.dim false).set i true) i (@FloatOps.zero _ R.ops)) =
            .ok (NNState.mk t.path t.visited t.current (fin x)) := x1
        have h1n : 1 ≤ (1 + u) ^ n := one_le_pow₀ hp1
        obtain ⟨y, y1, -, -, y2⟩ := x2.add hR ((Approx.refl hd1 hd2).mono (by linarith : 0 ≤ (1 + u) ^ n - 1)) (by
          rw [add_sub_cancel, ← k3]
          refine le_trans ?_ hB
          rw [mul_assoc]
          refine mul_le_mul_of_nonneg_left ?_ hpn.le
          nlinarith)
        refine ⟨y, ?_, ?_⟩
        · rw [x1', rm_bind_ok]
          simp only
          rw [he, rm_bind_ok, k2, y1, h.2]
          rfl
        · have := y2.err
          rw [add_sub_cancel, ← pow_succ, ← hn, ← k3] at this
          exact this
  · cases h

/-! ## The best of several results

The same selections in exact and in rounded arithmetic, for the results `s i` of any function. -/

theorem rel_bounds {ε w a : K} (h : |w - a| ≤ ε * a) : w ≤ (1 + ε) * a ∧ (1 - ε) * a ≤ w := by
  have := abs_le.mp h
  constructor <;> linarith

/-- the smallest of a list of results -/
theorem best_sols {f : Nat → RM (Solution (XNum K))} {n : Nat} {s : Nat → K × List Nat}
    (hf : ∀ i < n, f i = .ok (fin (s i).1, (s i).2)) {xs : List Nat} (hne : xs ≠ [])
    (hxs : ∀ i ∈ xs, i < n) :
    ∃ sols, xs.mapM f = .ok sols ∧ ∃ j ∈ xs, minByFirst solLt sols = some (fin (s j).1, (s j).2) ∧
      ∀ i ∈ xs, (s j).1 ≤ (s i).1 := by
  have hmap : xs.mapM f = .ok ((xs.map s).map fun s => (XNum.fin s.1, s.2)) := by
    rw [mapM_ok (g := fun i => (XNum.fin (s i).1, (s i).2)) (fun i hi => hf i (hxs i hi))]
    simp
  obtain ⟨w, p, h1, h2, h3⟩ := minByFirst_sols (l := xs.map s) (by simpa using hne)
  obtain ⟨j, hj, hjp⟩ := List.mem_map.mp h2
  refine ⟨_, hmap, j, hj, by rw [h1, hjp], ?_⟩
  intro i hi
  rw [hjp]
  exact h3.2 _ (List.mem_map.mpr ⟨_, List.mem_map.mpr ⟨i, hi, rfl⟩, rfl⟩)

/-- `n_nearest_neighbour` for an arbitrary search -/
def nNNOf (f : Nat → RM (Solution (XNum K))) (xs : List Nat) (dim n : Nat) : RM (Solution (XNum K)) :=
  if n = 0 then .error .assert
  else if dim < n then .error .assert
  else do
    let sols ← (nRandomNumbers xs n).mapM f
    unwrapO (minByFirst solLt sols)

theorem nNNOf_best {f : Nat → RM (Solution (XNum K))} {dim : Nat} {s : Nat → K × List Nat}
    (hf : ∀ i < dim, f i = .ok (fin (s i).1, (s i).2)) {xs : List Nat}
    (hxs : xs.Perm (List.range dim)) {n : Nat} (h1 : 1 ≤ n) (h2 : n ≤ dim) :
    ∃ j ∈ xs.take n, nNNOf f xs dim n = .ok (fin (s j).1, (s j).2) ∧
      ∀ i ∈ xs.take n, (s j).1 ≤ (s i).1 := by
  have hlen : xs.length = dim := by simpa using hxs.length_eq
  obtain ⟨sols, k1, j, k2, k3, k4⟩ := best_sols hf (xs := xs.take n)
    (by
      intro h
      have := congrArg List.length h
      simp only [List.length_take, List.length_nil] at this
      omega)
    (fun i hi => by simpa using hxs.subset (List.mem_of_mem_take hi))
  refine ⟨j, k2, ?_, k4⟩
  unfold nNNOf nRandomNumbers
  rw [if_neg (by omega), if_neg (by omega), k1, rm_bind_ok, k3]
  rfl

/-- `nearest_neighbour_mpi` for an arbitrary search -/
def nnMpiOf (f : Nat → RM (Solution (XNum K))) (shape : Nat → List (XNum K × Nat) → RTree (XNum K × Nat))
    (size dim : Nat) : RM (List (Solution (XNum K))) := do
  let ls ← (List.range size).mapM fun rank => do
    let sols ← (nnChunk dim size rank).mapM f
    unwrapO (minByFirst solLt sols)
  let contrib := (ls.map Prod.fst).zip (List.range size)
  let rs ← (List.range size).mapM fun r => unwrapO ((shape r contrib).reduce costRankOp)
  match rs with
  | [] => .ok []
  | r0 :: _ =>
    if rs.all (fun r => r.2 = r0.2) then do
      let win ← idx ls r0.2
      return rs.map fun r => (r.1, win.2)
    else .error .explicit

omit [IsStrictOrderedRing K] in
theorem nnMpi_of (shape : Nat → List (XNum K × Nat) → RTree (XNum K × Nat)) (size : Nat) :
    @nnMpi _ R.ops shape size m = nnMpiOf (@singleNN _ R.ops m) shape size m.dim := by
  have e1 : @costRankOp _ R.ops = costRankOp := rfl
  have e2 : @solLt _ R.ops = solLt := rfl
  unfold nnMpi nnMpiOf nnLocal
  rw [e1, e2]
  congr 1
  funext ls
  simp only
  congr 1
  funext rs
  cases rs <;> rfl

theorem nnMpiOf_best {f : Nat → RM (Solution (XNum K))} {dim : Nat} {s : Nat → K × List Nat}
    (hf : ∀ i < dim, f i = .ok (fin (s i).1, (s i).2)) {size : Nat} (h1 : 1 ≤ size) (h2 : size ≤ dim)
    (shape : Nat → List (XNum K × Nat) → RTree (XNum K × Nat))
    (hshape : ∀ r l, (shape r l).flatten.Perm l) :
    ∃ j < dim, nnMpiOf f shape size dim = .ok (List.replicate size (fin (s j).1, (s j).2)) ∧
      ∀ i < dim, (s j).1 ≤ (s i).1 := by
  have hloc : ∀ r : Nat, ∃ k : Nat, r < size → k < dim ∧ (do
      let sols ← (nnChunk dim size r).mapM f
      unwrapO (minByFirst solLt sols)) = .ok (XNum.fin (s k).1, (s k).2) ∧
      ∀ i ∈ nnChunk dim size r, (s k).1 ≤ (s i).1 := by
    intro r
    by_cases hr : r < size
    · obtain ⟨sols, k1, j, k2, k3, k4⟩ := best_sols hf
        (nnChunk_ne_nil (r := r) h1 h2) (fun i hi => nnChunk_lt hr hi)
      refine ⟨j, fun _ => ⟨nnChunk_lt hr k2, ?_, k4⟩⟩
      rw [k1, rm_bind_ok, k3]
      rfl
    · exact ⟨0, fun h => absurd h hr⟩
  choose t ht using hloc
  have hmap : ((List.range size).mapM fun rank => do
      let sols ← (nnChunk dim size rank).mapM f
      unwrapO (minByFirst solLt sols)) =
      .ok ((List.range size).map fun r => (XNum.fin (s (t r)).1, (s (t r)).2)) :=
    mapM_ok (fun r hr => (ht r (by simpa using hr)).2.1)
  have hcontrib : (((List.range size).map fun r => (XNum.fin (s (t r)).1, (s (t r)).2)).map Prod.fst).zip
      (List.range size) = (List.range size).map fun r => (XNum.fin (s (t r)).1, r) := by
    rw [List.map_map, List.zip_map_left]
    rw [List.zip_eq_zipWith, List.zipWith_self, List.map_map]
    rfl
  have hred : ∀ r, ∃ j < size,
      (shape r ((List.range size).map fun r => (XNum.fin (s (t r)).1, r))).reduce
      costRankOp = some (.fin (s (t j)).1, j) ∧
      ∀ i < size, (s (t j)).1 < (s (t i)).1 ∨ (s (t j)).1 = (s (t i)).1 ∧ j ≤ i := by
    intro r
    have hp := hshape r ((List.range size).map fun r => (XNum.fin (s (t r)).1, r))
    obtain ⟨x, e1, e2, e3⟩ := costRank_reduce _ (fun x hx => by
        have := hp.subset hx
        obtain ⟨j, _, rfl⟩ := List.mem_map.mp this
        exact ⟨_, rfl⟩)
      (fun h0 => by
        rw [h0] at hp
        have := hp.length_eq
        simp at this
        omega)
    obtain ⟨j, hj, rfl⟩ := List.mem_map.mp (hp.subset e2)
    refine ⟨j, by simpa using hj, e1, ?_⟩
    intro i hi
    obtain ⟨v, u, d1, d2, d3⟩ := e3 (.fin (s (t i)).1, i)
      (hp.mem_iff.mpr (List.mem_map.mpr ⟨i, by simpa using hi, rfl⟩))
    injection d1 with d1
    injection d2 with d2
    rw [d1, d2]
    exact d3
  obtain ⟨j, hj, _, hmin⟩ := hred 0
  have hall : ∀ r, (shape r ((List.range size).map fun r => (XNum.fin (s (t r)).1, r))).reduce
      costRankOp = some (.fin (s (t j)).1, j) := by
    intro r
    obtain ⟨j', hj', e, hmin'⟩ := hred r
    have : j' = j := by
      rcases hmin j' hj' with a | ⟨a, a'⟩ <;> rcases hmin' j hj with b | ⟨b, b'⟩
      · exact absurd (a.trans b) (lt_irrefl _)
      · exact absurd a (not_lt.mpr b.le)
      · exact absurd b (not_lt.mpr a.le)
      · omega
    rw [e, this]
  have hrs : (List.range size).mapM (fun r => unwrapO ((shape r ((List.range size).map fun r =>
      (XNum.fin (s (t r)).1, r))).reduce costRankOp)) =
      .ok (List.replicate size (XNum.fin (s (t j)).1, j)) := by
    rw [mapM_ok (g := fun _ => (XNum.fin (s (t j)).1, j)) (fun r _ => by rw [hall r]; rfl)]
    rw [List.map_const']
    simp
  refine ⟨t j, (ht j hj).1, ?_, ?_⟩
  · unfold nnMpiOf
    rw [hmap]
    simp only [rm_bind_ok]
    rw [hcontrib, hrs]
    simp only [rm_bind_ok]
    obtain ⟨k, rfl⟩ : ∃ k, size = k + 1 := ⟨size - 1, by omega⟩
    simp only [List.replicate_succ]
    rw [if_pos (by simp), idx_ok (a := (XNum.fin (s (t j)).1, (s (t j)).2)) (by simp [hj])]
    simp
  · intro i hi
    obtain ⟨r, hr, hir⟩ := mem_nnChunk h1 hi
    have h3 := (ht r hr).2.2 i hir
    rcases hmin r hr with a | ⟨a, _⟩
    · exact a.le.trans h3
    · exact a.le.trans h3

/-- the largest of the values, on one process -/
theorem best_max {f : Nat → RM (XNum K)} {n : Nat} {wt : Nat → K}
    (hf : ∀ v < n, f v = .ok (fin (wt v))) {xs : List Nat} (hne : xs ≠ []) (hxs : ∀ i ∈ xs, i < n) :
    ∃ w, (do let ws ← xs.mapM f; let r ← maxByL ws; unwrapO r) = .ok (fin w) ∧ IsMax w (xs.map wt) := by
  have hmap : xs.mapM f = .ok ((xs.map wt).map XNum.fin) := by
    rw [mapM_ok (g := fun v => XNum.fin (wt v)) (fun v hv => hf v (hxs v hv))]
    simp
  obtain ⟨w, h1, h2⟩ := maxByL_fin (l := xs.map wt) (by simpa using hne)
  exact ⟨w, by rw [hmap, rm_bind_ok, h1]; rfl, h2⟩

/-- `one_tree_lower_bound_mpi` for arbitrary values -/
def oneTreeMpiOf (f : Nat → RM (XNum K)) (shape : List (XNum K) → RTree (XNum K)) (size dim : Nat) :
    RM (XNum K) := do
  let ls ← (List.range size).mapM fun rank => do
    let ws ← (stepBy rank size dim).mapM f
    let r ← maxByL ws
    unwrapO r
  unwrapO ((shape ls).reduce mpiMax)

theorem oneTreeMpiOf_max {f : Nat → RM (XNum K)} {dim : Nat} {wt : Nat → K}
    (hf : ∀ v < dim, f v = .ok (fin (wt v))) {size : Nat} (h1 : 1 ≤ size) (h2 : size ≤ dim)
    (shape : List (XNum K) → RTree (XNum K)) (hshape : ∀ l, (shape l).flatten.Perm l) :
    ∃ w, oneTreeMpiOf f shape size dim = .ok (fin w) ∧ IsMax w ((List.range dim).map wt) := by
  have hloc : ∀ r : Nat, ∃ x : K, r < size → (do
      let ws ← (stepBy r size dim).mapM f
      let r ← maxByL ws
      unwrapO r) = .ok (.fin x) ∧ IsMax x ((stepBy r size dim).map wt) := by
    intro r
    by_cases hr : r < size
    · obtain ⟨x, k1, k2⟩ := best_max hf (xs := stepBy r size dim) (by
          have : r ∈ stepBy r size dim := by
            simp [stepBy]
            omega
          intro h0
          rw [h0] at this
          simp at this) (fun v hv => by
          have := List.mem_of_mem_filter hv
          simpa using this)
      exact ⟨x, fun _ => ⟨k1, k2⟩⟩
    · exact ⟨0, fun h => absurd h hr⟩
  choose x hx using hloc
  have hmap : ((List.range size).mapM fun rank => do
      let ws ← (stepBy rank size dim).mapM f
      let r ← maxByL ws
      unwrapO r) = .ok (((List.range size).map x).map XNum.fin) := by
    rw [mapM_ok (g := fun v => XNum.fin (x v)) (fun r hr => (hx r (by simpa using hr)).1)]
    simp
  obtain ⟨w', k1, k2⟩ := RTree.reduce_max (l := (List.range size).map x)
    (shape (((List.range size).map x).map XNum.fin)) (hshape _) (by simp; omega)
  refine ⟨w', ?_, ?_⟩
  · unfold oneTreeMpiOf
    rw [hmap, rm_bind_ok, k1]
    rfl
  · obtain ⟨r, hr, hrw⟩ := List.mem_map.mp k2.1
    have hr' : r < size := by simpa using hr
    constructor
    · have := (hx r hr').2.1
      rw [hrw] at this
      obtain ⟨v, hv, hvw⟩ := List.mem_map.mp this
      exact List.mem_map.mpr ⟨v, List.mem_of_mem_filter hv, hvw⟩
    · intro y hy
      obtain ⟨v, hv, rfl⟩ := List.mem_map.mp hy
      have hr2 : v % size < size := Nat.mod_lt _ h1
      have hmem : v ∈ stepBy (v % size) size dim := by
        have hv : v < dim := by simpa using hv
        have hsub : (v - v % size) % size = 0 := Nat.sub_mod_eq_zero_of_mod_eq (by simp)
        simp [stepBy, hv, Nat.mod_le, hsub]
      exact ((hx _ hr2).2.2 _ (List.mem_map.mpr ⟨v, hmem, rfl⟩)).trans
        (k2.2 _ (List.mem_map.mpr ⟨_, by simpa using hr2, rfl⟩))

/-! ## Christofides -/

/-- The tail of the algorithm in rounded arithmetic. -/
theorem christofidesTail_rel (hR : R.Summing D B u S)
    (hP : ∀ i j, i < m.dim → j < m.dim → NN D (m.get i j)) {dbg : Bool} {g : MGraph (XNum K)} {b : K}
    {ham : List Nat} (h : christofidesTail dbg m g = .ok (fin b, ham)) (hB : (1 + u) ^ m.dim * b ≤ B) :
    ∃ y, @christofidesTail _ R.ops dbg m g = .ok (fin y, ham) ∧
      |y - b| ≤ ((1 + u) ^ m.dim - 1) * b := by
  have hu := hR.upos
  have hu1 : 1 ≤ 1 + u := by linarith
  unfold christofidesTail at h ⊢
  cases hw : eulerianCycle dbg g with
  | error => rw [hw] at h; cases h
  | ok walk =>
    rw [hw, rm_bind_ok] at h
    simp only [rm_bind_ok]
    cases hh : hamiltonianFromEulerian m.dim walk with
    | error => rw [hh] at h; cases h
    | ok ham' =>
      rw [hh, rm_bind_ok] at h
      simp only [rm_bind_ok]
      have hl := hamiltonian_length hh
      cases hc : (ham'.zip ham'.tail).mapM (fun e => m.entry e.1 e.2) with
      | error => rw [hc] at h; cases h
      | ok costs =>
        rw [hc, rm_bind_ok] at h
        simp only [rm_bind_ok]
        split at h
        · cases h
        · rename_i hd
          rw [if_neg hd]
          have h := Prod.mk.inj (Except.ok.inj h)
          obtain ⟨h1, h2⟩ := mapM_entry_pred (P := NN D) hP _ _ hc
          have h3 : costs.length ≤ m.dim := by
            rw [h1]
            simp
            omega
          have hfin := (foldl_add_fin (l := costs) h.1).2
          have hco : ∀ x ∈ costs, x = fin (toK x) ∧ D (toK x) ∧ 0 ≤ toK x := by
            intro x hx
            obtain ⟨a, ha⟩ := hfin x hx
            have := h2 x hx a ha
            rw [ha]
            exact ⟨rfl, this⟩
          have hb : b = (costs.map toK).sum := by
            have e := sum_fin costs hfin
            rw [h.1] at e
            exact XNum.fin.inj e
          have hb0 : 0 ≤ b := by
            rw [hb]
            refine List.sum_nonneg fun x hx => ?_
            obtain ⟨y, hy, rfl⟩ := List.mem_map.mp hx
            exact (hco y hy).2.2
          have hpow : (1 + u) ^ costs.length ≤ (1 + u) ^ m.dim := pow_le_pow_right₀ hu1 h3
          obtain ⟨y, y1, y2⟩ := sum_rel (l := costs.map fun x => (toK x, toK x)) (δ := 0) hR le_rfl
            (fun q hq => by
              obtain ⟨e, he, rfl⟩ := List.mem_map.mp hq
              exact Approx.refl (hco e he).2.1 (hco e he).2.2) (by
              simp only [List.length_map, List.map_map, add_zero, one_mul]
              have : (List.map (Prod.snd ∘ fun x => (toK x, toK x)) costs).sum = b := by rw [hb]; rfl
              rw [this]
              exact (mul_le_mul_of_nonneg_right hpow hb0).trans hB)
          have e1 : (costs.map fun x => (toK x, toK x)).map (fun q => (fin q.1 : XNum K)) = costs := by
            rw [List.map_map]
            conv_rhs => rw [← List.map_id costs]
            exact List.map_congr_left fun x hx => (hco x hx).1.symm
          have e2 : ((costs.map fun x => (toK x, toK x)).map Prod.snd).sum = b := by
            rw [hb, List.map_map]; rfl
          rw [e1] at y1
          rw [e2] at y2
          refine ⟨y, by rw [y1, h.2]; rfl, ?_⟩
          have := y2.err
          simp only [List.length_map, add_zero, one_mul] at this
          exact this.trans (mul_le_mul_of_nonneg_right (by linarith) hb0)

omit [IsStrictOrderedRing K] in
/-- If the rounded tail returns, so does the exact one, with the same cycle. -/
theorem christofidesTail_back {dbg : Bool} {g : MGraph (XNum K)} {sol : Solution (XNum K)}
    (h : @christofidesTail _ R.ops dbg m g = .ok sol) :
    ∃ x, christofidesTail dbg m g = .ok (x, sol.2) := by
  unfold christofidesTail at h ⊢
  cases hw : eulerianCycle dbg g with
  | error => rw [hw] at h; cases h
  | ok walk =>
    rw [hw, rm_bind_ok] at h
    simp only [rm_bind_ok]
    cases hh : hamiltonianFromEulerian m.dim walk with
    | error => rw [hh] at h; cases h
    | ok ham' =>
      rw [hh, rm_bind_ok] at h
      simp only [rm_bind_ok]
      cases hc : (ham'.zip ham'.tail).mapM (fun e => m.entry e.1 e.2) with
      | error => rw [hc] at h; cases h
      | ok costs =>
        rw [hc, rm_bind_ok] at h
        simp only [rm_bind_ok]
        split at h
        · cases h
        · rename_i hd
          rw [if_neg hd, ← Except.ok.inj h]
          exact ⟨_, rfl⟩

/-- The algorithm up to the tail does not depend on the rounding, except for the matching. -/
theorem christofidesGeneric_ops {dbg : Bool} (hdbg : dbg = true → @Mat.isMetric _ R.ops m = true)
    {mst : Graph (XNum K)} (h1 : primSeq m [] = .ok mst)
    {f : Graph (XNum K) → Mat (XNum K) → RM (List (Nat × Nat))} {M : List (Nat × Nat)}
    (h4 : f mst m = .ok M) {g : MGraph (XNum K)} (hg : fillSeq m mst M = .ok g) :
    @christofidesGeneric _ R.ops dbg m f = @christofidesTail _ R.ops dbg m g := by
  unfold christofidesGeneric
  have hd' : (dbg && !(@Mat.isMetric _ R.ops m)) = false := by
    cases dbg with
    | false => rfl
    | true => rw [hdbg rfl]; rfl
  rw [hd']
  simp only [Bool.false_eq_true, if_false]
  rw [primSeq_same, h1, rm_bind_ok, h4, rm_bind_ok]
  rw [hg, rm_bind_ok]

end Walky
