import Verif.Lemmas.FixedPrim
import Verif.Lemmas.Matching
import Verif.Model.NearestNeighbour
import Verif.Model.Christofides

/-! # Lemmas: the approximation algorithms in rounded arithmetic -/

set_option linter.unusedSectionVars false

namespace Walky

open XNum

variable {K : Type} [Field K] [LinearOrder K] [IsStrictOrderedRing K]
variable {R : Rounding K} {T : AddSubgroup K} {N M : K} {m : Mat (XNum K)} {P : XNum K → Prop}

/-! ## Nearest neighbour -/

theorem nnScan_pred (hm : ∀ i j, i < m.dim → j < m.dim → P (m.get i j)) (visited : List Bool)
    (current : Nat) (l : List Nat) (s r : Option Nat × XNum K) (hs : P s.2)
    (h : l.foldlM (nnScanStep m visited current) s = .ok r) : P r.2 := by
  induction l generalizing s with
  | nil => rw [← Except.ok.inj h]; exact hs
  | cons j t ih =>
    rw [List.foldlM_cons] at h
    cases hq : nnScanStep m visited current s j with
    | error => rw [hq] at h; cases h
    | ok s1 =>
      rw [hq] at h
      refine ih s1 ?_ h
      unfold nnScanStep at hq
      cases hv : idx visited j with
      | error => rw [hv] at hq; cases hq
      | ok v =>
        rw [hv] at hq
        simp only [rm_bind_ok, rm_pure] at hq
        split at hq
        · rw [← Except.ok.inj hq]; exact hs
        · cases he : m.entry current j with
          | error => rw [he] at hq; cases hq
          | ok d =>
            rw [he] at hq
            simp only [rm_bind_ok] at hq
            split at hq <;> rw [← Except.ok.inj hq]
            · exact entry_pred hm he
            · exact hs

theorem nnLoop_same (hR : R.ExactOn T N) (hM : 0 ≤ M) (hm : FixedMat T M m) :
    ∀ (fuel : Nat) (s : NNState (XNum K)) (A : K), FX T A s.distance → A + fuel * M ≤ N →
      @nnLoop _ R.ops m fuel s = nnLoop m fuel s ∧
      ∀ s', nnLoop m fuel s = .ok s' → FX T (A + fuel * M) s'.distance := by
  intro fuel
  induction fuel with
  | zero =>
    intro s A hA h
    unfold nnLoop
    split
    · exact ⟨rfl, fun s' hs => by cases hs⟩
    · refine ⟨rfl, fun s' hs => ?_⟩
      rw [← Except.ok.inj hs]
      simpa using hA
  | succ fuel ih =>
    intro s A hA h
    push_cast at h ⊢
    have hf : 0 ≤ (fuel : K) * M := mul_nonneg (Nat.cast_nonneg _) hM
    unfold nnLoop
    split
    · have e : @nnScanStep _ R.ops m s.visited s.current = nnScanStep m s.visited s.current := rfl
      have e2 : @FloatOps.inf _ R.ops = (.inf : XNum K) := rfl
      rw [e, e2]
      have e3 : FloatOps.inf = (.inf : XNum K) := rfl
      rw [e3]
      cases hs : (List.range m.dim).foldlM (nnScanStep m s.visited s.current) (none, .inf) with
      | error => exact ⟨rfl, fun s' hs => by cases hs⟩
      | ok r =>
        have hd := nnScan_pred hm _ _ _ _ _ (fx_inf T M) hs
        obtain ⟨nearest, d⟩ := r
        simp only [rm_bind_ok]
        cases nearest with
        | none => exact ⟨rfl, fun s' hs => by cases hs⟩
        | some x =>
          simp only
          obtain ⟨h1, h2⟩ := hA.add hR hd (by linarith)
          rw [h1]
          split
          · have := ih { path := s.path ++ [x], visited := s.visited.set x true, current := x,
                         distance := FloatOps.add s.distance d } (A + M) h2 (by linarith)
            exact ⟨this.1, fun s' hs' => (this.2 s' hs').mono (by linarith)⟩
          · exact ⟨rfl, fun s' hs => by cases hs⟩
    · refine ⟨rfl, fun s' hs => ?_⟩
      rw [← Except.ok.inj hs]
      exact hA.mono (by linarith)

theorem singleNN_same (hR : R.ExactOn T N) (hM : 0 ≤ M) (hm : FixedMat T M m)
    (hN : (m.dim + 1) * M ≤ N) (i : Nat) : @singleNN _ R.ops m i = singleNN m i := by
  unfold singleNN
  refine ite_congr rfl (fun _ => ?_) fun _ => rfl
  obtain ⟨h1, h2⟩ := nnLoop_same hR hM hm m.dim
    (NNState.mk [i] ((List.replicate m.dim false).set i true) i (.fin 0)) 0 (fx_zero T le_rfl)
    (by linarith)
  have h1 : @nnLoop _ R.ops m m.dim
      (NNState.mk [i] ((List.replicate m.dim false).set i true) i (@FloatOps.zero _ R.ops)) =
    nnLoop m m.dim
      (NNState.mk [i] ((List.replicate m.dim false).set i true) i FloatOps.zero) := h1
  rw [h1]
  cases h : nnLoop m m.dim
      (NNState.mk [i] ((List.replicate m.dim false).set i true) i FloatOps.zero) with
  | error => rfl
  | ok s =>
    simp only [rm_bind_ok]
    cases hw : m.entry s.current i with
    | error => rfl
    | ok w =>
      simp only [rm_bind_ok, rm_pure]
      rw [((h2 s h).add hR (entry_fx hm hw) (by linarith)).1]

theorem nNNSeq_same (hR : R.ExactOn T N) (hM : 0 ≤ M) (hm : FixedMat T M m)
    (hN : (m.dim + 1) * M ≤ N) (xs : List Nat) (n : Nat) :
    @nNNSeq _ R.ops xs m n = nNNSeq xs m n := by
  unfold nNNSeq
  rw [funext (singleNN_same hR hM hm hN)]
  rfl

theorem nNNPar_same (hR : R.ExactOn T N) (hM : 0 ≤ M) (hm : FixedMat T M m)
    (hN : (m.dim + 1) * M ≤ N)
    (shape : List (Solution (XNum K)) → RTree (Solution (XNum K))) (xs : List Nat) (n : Nat) :
    @nNNPar _ R.ops shape xs m n = nNNPar shape xs m n := by
  unfold nNNPar
  rw [funext (singleNN_same hR hM hm hN)]
  rfl

theorem nnMpi_same (hR : R.ExactOn T N) (hM : 0 ≤ M) (hm : FixedMat T M m)
    (hN : (m.dim + 1) * M ≤ N)
    (shape : Nat → List (XNum K × Nat) → RTree (XNum K × Nat)) (size : Nat) :
    @nnMpi _ R.ops shape size m = nnMpi shape size m := by
  unfold nnMpi nnLocal
  rw [funext (singleNN_same hR hM hm hN)]
  rfl

/-! ## Matching -/

theorem optimizeTwo_same (hR : R.ExactOn T N) (hm : FixedMat T M m) (hN : 2 * M ≤ N) (a b : Nat × Nat) :
    @optimizeTwo _ R.ops m a b = optimizeTwo m a b := by
  unfold optimizeTwo
  dsimp only
  cases h01 : m.entry a.1 a.2 with
  | error => rfl
  | ok c01 =>
  cases h23 : m.entry b.1 b.2 with
  | error => rfl
  | ok c23 =>
  cases h02 : m.entry a.1 b.1 with
  | error => rfl
  | ok c02 =>
  cases h13 : m.entry a.2 b.2 with
  | error => rfl
  | ok c13 =>
  cases h03 : m.entry a.1 b.2 with
  | error => rfl
  | ok c03 =>
  cases h12 : m.entry a.2 b.1 with
  | error => rfl
  | ok c12 =>
  simp only [rm_bind_ok]
  rw [((entry_fx hm h01).add hR (entry_fx hm h23) (by linarith)).1,
    ((entry_fx hm h02).add hR (entry_fx hm h13) (by linarith)).1,
    ((entry_fx hm h03).add hR (entry_fx hm h12) (by linarith)).1]
  rfl

theorem improvePairs_same (hR : R.ExactOn T N) (hm : FixedMat T M m) (hN : 2 * M ≤ N) :
    ∀ l, @improvePairs _ R.ops m l = improvePairs m l
  | [] => rfl
  | [_] => rfl
  | a :: b :: t => by
    unfold improvePairs
    rw [optimizeTwo_same hR hm hN, improvePairs_same hR hm hN t]

theorem improveMatching_same (hR : R.ExactOn T N) (hm : FixedMat T M m) (hN : 2 * M ≤ N)
    (shuf : Nat → List (Nat × Nat) → List (Nat × Nat)) (tries : Nat) (l : List (Nat × Nat)) :
    @improveMatching _ R.ops m shuf tries l = improveMatching m shuf tries l := by
  unfold improveMatching
  rw [funext (improvePairs_same hR hm hN)]

theorem improveChunk_same (hR : R.ExactOn T N) (hm : FixedMat T M m) (hN : 2 * M ≤ N) :
    @improveChunk _ R.ops m = improveChunk m := by
  funext l k
  unfold improveChunk
  rw [funext fun a => funext fun b => optimizeTwo_same hR hm hN a b]

theorem parImproveMatching_same (hR : R.ExactOn T N) (hm : FixedMat T M m) (hN : 2 * M ≤ N)
    (shuf : Nat → List (Nat × Nat) → List (Nat × Nat)) (order : Nat → Nat → List Nat) (tries : Nat)
    (l : List (Nat × Nat)) :
    @parImproveMatching _ R.ops m shuf order tries l = parImproveMatching m shuf order tries l := by
  unfold parImproveMatching
  rw [improveChunk_same hR hm hN]

/-! ## Christofides -/

theorem mapM_entry_pred (hm : ∀ i j, i < m.dim → j < m.dim → P (m.get i j)) (l : List (Nat × Nat))
    (r : List (XNum K)) (h : l.mapM (fun e => m.entry e.1 e.2) = .ok r) :
    r.length = l.length ∧ ∀ x ∈ r, P x := by
  induction l generalizing r with
  | nil =>
    rw [List.mapM_nil] at h
    rw [← Except.ok.inj h]
    simp
  | cons e t ih =>
    rw [List.mapM_cons] at h
    cases he : m.entry e.1 e.2 with
    | error => rw [he] at h; cases h
    | ok w =>
      rw [he] at h
      simp only [rm_bind_ok] at h
      cases ht : t.mapM (fun e => m.entry e.1 e.2) with
      | error => rw [ht] at h; cases h
      | ok r' =>
        rw [ht] at h
        rw [← Except.ok.inj h]
        obtain ⟨h1, h2⟩ := ih r' ht
        refine ⟨by simp [h1], fun x hx => ?_⟩
        rcases List.mem_cons.mp hx with h3 | h3
        · rw [h3]; exact entry_pred hm he
        · exact h2 x h3

theorem matchingCost_same (hR : R.ExactOn T N) (hM : 0 ≤ M) (hm : FixedMat T M m)
    (l : List (Nat × Nat)) (hN : l.length * M ≤ N) :
    @matchingCost _ R.ops m l = matchingCost m l := by
  unfold matchingCost
  cases h : l.mapM (fun e => m.entry e.1 e.2) with
  | error => rfl
  | ok r =>
    obtain ⟨h1, h2⟩ := mapM_entry_pred hm l r h
    simp only [rm_bind_ok, rm_pure]
    rw [(sum_same hR hM h2 (by rw [h1]; exact hN)).1]

theorem firstVisits_length : ∀ (l : List Nat) (v : List Bool) (r : List Bool),
    firstVisits v l = .ok r → ((l.zip r).filterMap fun x => if x.2 then some x.1 else none).length ≤
      v.count false
  | [], v, r, h => by simp
  | i :: t, v, r, h => by
    unfold firstVisits at h
    cases hv : idx v i with
    | error => rw [hv] at h; cases h
    | ok b =>
      rw [hv] at h
      simp only [rm_bind_ok] at h
      have hi : v[i]? = some b := by
        unfold idx at hv
        split at hv
        · rename_i a ha
          rw [ha, Except.ok.inj hv]
        · cases hv
      cases b with
      | true =>
        simp only [if_true] at h
        cases hr : firstVisits v t with
        | error => rw [hr] at h; cases h
        | ok r' =>
          rw [hr] at h
          rw [← Except.ok.inj h]
          simpa using firstVisits_length t v r' hr
      | false =>
        simp only [Bool.false_eq_true, if_false] at h
        cases hr : firstVisits (v.set i true) t with
        | error => rw [hr] at h; cases h
        | ok r' =>
          rw [hr] at h
          rw [← Except.ok.inj h]
          have h1 := firstVisits_length t _ r' hr
          have hlt : i < v.length := by
            by_contra hc
            rw [List.getElem?_eq_none (by omega)] at hi
            cases hi
          have h2 : (v.set i true).count false + 1 = v.count false := by
            rw [List.count_set hlt]
            have h3 : v[i] = false := by
              rw [List.getElem?_eq_getElem hlt] at hi
              exact Option.some.inj hi
            have h4 : 0 < v.count false := by
              rw [List.count_pos_iff, ← h3]
              exact List.getElem_mem hlt
            simp [h3]
            omega
          simp only [List.zip_cons_cons, List.filterMap_cons, if_true, List.length_cons]
          omega

theorem hamiltonian_length {dim : Nat} {walk ham : List Nat}
    (h : hamiltonianFromEulerian dim walk = .ok ham) : ham.length ≤ dim + 1 := by
  unfold hamiltonianFromEulerian at h
  cases hf : firstVisits (List.replicate dim false) walk with
  | error => rw [hf] at h; cases h
  | ok flags =>
    rw [hf] at h
    simp only [rm_bind_ok] at h
    have h1 := firstVisits_length _ _ _ hf
    rw [List.count_replicate_self] at h1
    cases hk : unwrapO ((walk.zip flags).filterMap fun x => if x.2 then some x.1 else none).head? with
    | error => rw [hk] at h; cases h
    | ok f =>
      rw [hk] at h
      rw [← Except.ok.inj h]
      simp only [List.length_append, List.length_singleton]
      omega

theorem christofidesTail_same (hR : R.ExactOn T N) (hM : 0 ≤ M) (hm : FixedMat T M m)
    (hN : (m.dim + 1) * M ≤ N) (dbg : Bool) (g : MGraph (XNum K)) :
    @christofidesTail _ R.ops dbg m g = christofidesTail dbg m g := by
  unfold christofidesTail
  cases hw : eulerianCycle dbg g with
  | error => rfl
  | ok walk =>
    simp only [rm_bind_ok]
    cases hh : hamiltonianFromEulerian m.dim walk with
    | error => rfl
    | ok ham =>
      simp only [rm_bind_ok]
      have hl := hamiltonian_length hh
      cases hc : (ham.zip ham.tail).mapM (fun e => m.entry e.1 e.2) with
      | error => rfl
      | ok costs =>
        simp only [rm_bind_ok]
        obtain ⟨h1, h2⟩ := mapM_entry_pred hm _ _ hc
        have h3 : costs.length ≤ m.dim + 1 := by
          rw [h1]
          simp
          omega
        have h4 : (costs.length : K) * M ≤ (m.dim + 1) * M :=
          mul_le_mul_of_nonneg_right (by exact_mod_cast h3) hM
        rw [(sum_same hR hM h2 (by linarith)).1]

theorem improvePairs_length : ∀ (l r : List (Nat × Nat)), improvePairs m l = .ok r →
    r.length = l.length
  | [], r, h => by rw [← Except.ok.inj h]
  | [_], r, h => by rw [← Except.ok.inj h]
  | a :: b :: t, r, h => by
    unfold improvePairs at h
    cases h1 : optimizeTwo m a b with
    | error => rw [h1] at h; cases h
    | ok x =>
      rw [h1] at h
      simp only [rm_bind_ok] at h
      cases h2 : improvePairs m t with
      | error => rw [h2] at h; cases h
      | ok t' =>
        rw [h2] at h
        rw [← Except.ok.inj h]
        simp [improvePairs_length t t' h2]

theorem improveMatching_length {shuf : Nat → List (Nat × Nat) → List (Nat × Nat)}
    (hs : ∀ k l, (shuf k l).Perm l) {tries : Nat} {l r : List (Nat × Nat)}
    (h : improveMatching m shuf tries l = .ok r) : r.length = l.length := by
  unfold improveMatching at h
  split at h
  · rw [← Except.ok.inj h]
  · generalize List.range tries = ks at h
    rename_i hl
    clear hl
    induction ks generalizing l with
    | nil => rw [← Except.ok.inj h]
    | cons k ks ih =>
      rw [List.foldlM_cons] at h
      cases hq : improvePairs m (shuf k l) with
      | error => rw [hq] at h; cases h
      | ok l' =>
        rw [hq] at h
        rw [ih h, improvePairs_length _ _ hq, (hs k l).length_eq]

theorem mapM_congr' {β γ : Type} {f g : β → RM γ} {l : List β} (h : ∀ x ∈ l, f x = g x) :
    l.mapM f = l.mapM g := by
  induction l with
  | nil => rfl
  | cons a t ih =>
    rw [List.mapM_cons, List.mapM_cons, h a (by simp), ih fun x hx => h x (by simp [hx])]

theorem mpiImproveMatching_same (hR : R.ExactOn T N) (hM : 0 ≤ M) (hm : FixedMat T M m)
    (hN2 : 2 * M ≤ N) {shufs : Nat → Nat → List (Nat × Nat) → List (Nat × Nat)}
    (hs : ∀ r k l, (shufs r k l).Perm l) (size tries : Nat) (l : List (Nat × Nat))
    (hN : l.length * M ≤ N) :
    @mpiImproveMatching _ R.ops m shufs size tries l = mpiImproveMatching m shufs size tries l := by
  unfold mpiImproveMatching
  have e : ((List.range size).mapM fun k => do
      let l' ← @improveMatching _ R.ops m (shufs k) tries l
      let cost ← @matchingCost _ R.ops m l'
      if k ≠ 0 ∧ l'.isEmpty then .error .index
      else return (cost, l')) = ((List.range size).mapM fun k => do
      let l' ← improveMatching m (shufs k) tries l
      let cost ← matchingCost m l'
      if k ≠ 0 ∧ l'.isEmpty then .error .index
      else return (cost, l')) := by
    apply mapM_congr'
    intro k _
    rw [improveMatching_same hR hm hN2]
    cases h : improveMatching m (shufs k) tries l with
    | error => rfl
    | ok l' =>
      simp only [rm_bind_ok]
      rw [matchingCost_same hR hM hm l' (by rw [improveMatching_length (hs k) h]; exact hN)]
  rw [e]
  rfl

theorem oddVertices_length {k : Nat} {g : Graph (XNum K)} (h : GE (FX T M) k g) :
    (oddVertices g).length ≤ k := by
  refine le_trans ?_ h.count
  unfold oddVertices
  clear h
  suffices H : ∀ j, ((g.zipIdx j).filterMap fun x =>
      if x.1.length % 2 = 1 then some x.2 else none).length ≤ (g.map List.length).sum from H 0
  induction g with
  | nil => intro j; simp
  | cons v t ih =>
    intro j
    rw [List.zipIdx_cons, List.filterMap_cons]
    have := ih (j + 1)
    simp only [List.map_cons, List.sum_cons]
    by_cases hv : v.length % 2 = 1
    · rw [if_pos hv]
      simp only [List.length_cons]
      omega
    · rw [if_neg hv]
      simp only
      omega

/-- the matching computers agree on the graphs that occur -/
theorem christofidesGeneric_same (hR : R.ExactOn T N) (hM : 0 ≤ M) (hm : FixedMat T M m)
    (hN : (m.dim + 1) * M ≤ N) {dbg : Bool} (hd : dbg = true → @Mat.isMetric _ R.ops m = m.isMetric)
    {f g : Graph (XNum K) → Mat (XNum K) → RM (List (Nat × Nat))}
    (hfg : ∀ t, GE (FX T M) (2 * m.dim + 2) t → f t m = g t m) :
    @christofidesGeneric _ R.ops dbg m f = christofidesGeneric dbg m g := by
  unfold christofidesGeneric
  rw [primSeq_same]
  have hd' : (dbg && !(@Mat.isMetric _ R.ops m)) = (dbg && !m.isMetric) := by
    cases dbg with
    | false => rfl
    | true => rw [hd rfl]
  rw [hd']
  refine ite_congr rfl (fun _ => rfl) fun _ => ?_
  cases h : primSeq m [] with
  | error => rfl
  | ok t =>
    simp only [rm_bind_ok]
    rw [hfg t (primSeq_ge (fx_good T hM) hm h)]
    cases g t m with
    | error => rfl
    | ok l =>
      simp only [rm_bind_ok]
      cases fillSeq m t l with
      | error => rfl
      | ok q =>
        simp only [rm_bind_ok]
        exact christofidesTail_same hR hM hm hN dbg q

theorem christofidesSeq_same (hR : R.ExactOn T N) (hM : 0 ≤ M) (hm : FixedMat T M m)
    (hN : (m.dim + 1) * M ≤ N) (hN2 : 2 * M ≤ N) {dbg : Bool}
    (hd : dbg = true → @Mat.isMetric _ R.ops m = m.isMetric) (r : MatchRng) :
    @christofidesSeq _ R.ops dbg m r = christofidesSeq dbg m r :=
  christofidesGeneric_same hR hM hm hN hd fun _ _ => improveMatching_same hR hm hN2 _ _ _

theorem christofidesMpi_same (hR : R.ExactOn T N) (hM : 0 ≤ M) (hm : FixedMat T M m)
    (hN : (m.dim + 1) * M ≤ N) (hN2 : 2 * M ≤ N) {dbg : Bool}
    (hd : dbg = true → @Mat.isMetric _ R.ops m = m.isMetric) {r : MatchRng} (hr : r.Ok)
    {shufs : Nat → Nat → List (Nat × Nat) → List (Nat × Nat)}
    (hs : ∀ r k l, (shufs r k l).Perm l) (size : Nat) :
    @christofidesMpi _ R.ops dbg m r shufs size = christofidesMpi dbg m r shufs size := by
  refine christofidesGeneric_same hR hM hm hN hd fun t ht => ?_
  unfold computeApproxMatchingMpi
  rw [mpiImproveMatching_same hR hM hm hN2 hs]
  refine le_trans (mul_le_mul_of_nonneg_right ?_ hM) hN
  have h1 := oddVertices_length ht
  have h2 : (pairUp (r.vertices (oddVertices t))).length ≤ m.dim + 1 := by
    rw [length_pairUp, (hr.vertices _).length_eq]
    omega
  exact_mod_cast h2

theorem christofidesPar_same (hR : R.ExactOn T N) (hM : 0 ≤ M) (hm : FixedMat T M m)
    (hN : (m.dim + 1) * M ≤ N) (hN2 : 2 * M ≤ N) {dbg : Bool}
    (hd : dbg = true → @Mat.isMetric _ R.ops m = m.isMetric) (r : MatchRng) (s : ParSched (XNum K))
    (res : RM (Solution (XNum K))) :
    @ChristofidesPar _ R.ops dbg m r s res ↔ ChristofidesPar dbg m r s res := by
  unfold ChristofidesPar ChristofidesGenericPar
  have hd' : (dbg && !(@Mat.isMetric _ R.ops m)) = (dbg && !m.isMetric) := by
    cases dbg with
    | false => rfl
    | true => rw [hd rfl]
  rw [hd', primPar_same]
  split
  · rfl
  · cases primPar s.shape s.update m [] with
    | error => rfl
    | ok t =>
      simp only
      have e : @computeApproxMatchingPar _ R.ops r s.chunks t m = computeApproxMatchingPar r s.chunks t m :=
        parImproveMatching_same hR hm hN2 _ _ _ _
      rw [e]
      cases computeApproxMatchingPar r s.chunks t m with
      | error => rfl
      | ok l =>
        simp only
        cases fillMstPar (s.columns (min t.length m.dim)) (emptyMulti m) t with
        | error => rfl
        | ok g0 =>
          simp only
          refine exists_congr fun g => and_congr Iff.rfl ?_
          rw [christofidesTail_same hR hM hm hN]

end Walky
