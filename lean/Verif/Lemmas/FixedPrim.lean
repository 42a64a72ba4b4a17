import Verif.Lemmas.Fixed
import Verif.Model.OneTree

/-! # Lemmas: Prim's algorithm and its weights in rounded arithmetic -/

set_option linter.unusedSectionVars false

namespace Walky

open XNum

variable {K : Type} [Field K] [LinearOrder K] [IsStrictOrderedRing K]

/-! ## The trees do not depend on the rounding -/

section
variable (R : Rounding K)

theorem primLoop_same {σ : Type} (ops : MinCostOps σ (XNum K)) (m : Mat (XNum K)) (start : Nat) :
    ∀ k it d adj, @primLoop _ R.ops σ ops m start k it d adj = primLoop ops m start k it d adj := by
  intro k
  induction k with
  | zero => intros; rfl
  | succ k ih =>
    intro it d adj
    unfold primLoop
    refine bind_congr fun x => ?_
    refine ite_congr rfl (fun _ => rfl) fun _ => ?_
    refine bind_congr fun d => bind_congr fun adj => ?_
    refine ite_congr rfl (fun _ => ?_) fun _ => rfl
    exact bind_congr fun d => ih _ _ _

theorem primGeneric_same {σ : Type} (ops : MinCostOps σ (XNum K)) (m : Mat (XNum K)) (ex : List Nat) :
    @primGeneric _ R.ops σ ops m ex = primGeneric ops m ex := by
  unfold primGeneric
  refine bind_congr fun s => ite_congr rfl (fun _ => rfl) fun _ => ?_
  refine bind_congr fun d => bind_congr fun d => ?_
  rw [primLoop_same]

theorem primSeq_same (m : Mat (XNum K)) (ex : List Nat) :
    @primSeq _ R.ops m ex = primSeq m ex := primGeneric_same R vecOps m ex

theorem primPar_same (shape : Nat → List (Nat × Edge (XNum K)) → RTree (Nat × Edge (XNum K)))
    (order : Nat → Nat → List Nat) (m : Mat (XNum K)) (ex : List Nat) :
    @primPar _ R.ops shape order m ex = primPar shape order m ex :=
  primGeneric_same R (parOps shape order) m ex

theorem primQueue_same (peek : Nat → List (Nat × XNum K) → Option (Nat × XNum K))
    (m : Mat (XNum K)) (ex : List Nat) :
    @primQueue _ R.ops peek m ex = primQueue peek m ex := by
  have h : @pqOps _ R.ops peek = pqOps peek := rfl
  unfold primQueue
  rw [h, primGeneric_same]

end

/-! ## Number and costs of the edges -/

variable {R : Rounding K} {T : AddSubgroup K} {N M : K} {P : XNum K → Prop}

/-- `P` holds for `0` and infinity -/
structure Good (P : XNum K → Prop) : Prop where
  zero : P (.fin 0)
  inf : P .inf

theorem fx_good (T : AddSubgroup K) (hM : 0 ≤ M) : Good (FX T M) := ⟨fx_zero T hM, fx_inf T M⟩

theorem entry_pred {m : Mat (XNum K)} (hm : ∀ i j, i < m.dim → j < m.dim → P (m.get i j)) {i j : Nat}
    {x : XNum K} (h : m.entry i j = .ok x) : P x := by
  unfold Mat.entry at h
  split at h
  · rename_i hij
    rw [← Except.ok.inj h]
    exact hm i j hij.1 hij.2
  · cases h

/-- the graph has at most `k` directed edges, with costs in `P` -/
structure GE (P : XNum K → Prop) (k : Nat) (g : Graph (XNum K)) : Prop where
  count : (g.map List.length).sum ≤ k
  cost : ∀ v ∈ g, ∀ e ∈ v, P (Edge.cost e)

theorem GE.push {k : Nat} {g g' : Graph (XNum K)} (h : GE P k g) {i : Nat} {e : Edge (XNum K)}
    (he : P e.cost) (hp : g.pushEdge i e = .ok g') : GE P (k + 1) g' := by
  unfold Graph.pushEdge at hp
  split at hp
  · rename_i hi
    rw [← Except.ok.inj hp]
    constructor
    · have : ((g.modify i (· ++ [e])).map List.length).sum = (g.map List.length).sum + 1 := by
        clear hp h
        induction g generalizing i with
        | nil => simp at hi
        | cons v t ih =>
          cases i with
          | zero => simp; omega
          | succ i =>
            have := ih (by simpa using hi)
            simp only [List.modify_succ_cons, List.map_cons, List.sum_cons] at this ⊢
            omega
      rw [this]
      have := h.count
      omega
    · intro v hv e' he'
      rcases mem_modify hv with h1 | ⟨w, hw, rfl⟩
      · exact h.cost v h1 e' he'
      · rcases List.mem_append.mp he' with h2 | h2
        · exact h.cost w hw e' h2
        · rw [List.mem_singleton.mp h2]
          exact he
  · cases hp

theorem GE.mono {k k' : Nat} {g : Graph (XNum K)} (h : GE P k g) (hk : k ≤ k') : GE P k' g :=
  ⟨h.count.trans hk, h.cost⟩

theorem GE.nil {n : Nat} : GE P 0 (List.replicate n []) := by
  constructor
  · simp
  · intro v hv e he
    rw [List.eq_of_mem_replicate hv] at he
    simp at he

theorem GE.dropLast {k : Nat} {g : Graph (XNum K)} (h : GE P k g) : GE P k g.dropLast := by
  constructor
  · refine le_trans ?_ h.count
    exact ((List.dropLast_sublist g).map List.length).sum_le_sum (fun _ _ => Nat.zero_le _)
  · intro v hv
    exact h.cost v (List.mem_of_mem_dropLast hv)

theorem directedEdgeWeight_same (hR : R.ExactOn T N) (hM : 0 ≤ M) {k : Nat} {g : Graph (XNum K)}
    (h : GE (FX T M) k g) (hk : k * M ≤ N) :
    @Graph.directedEdgeWeight _ R.ops g = g.directedEdgeWeight ∧ FX T (k * M) g.directedEdgeWeight := by
  unfold Graph.directedEdgeWeight FloatOps.sum
  suffices H : ∀ (a : Nat) (A : K) (acc : XNum K), 0 ≤ A → FX T A acc →
      (g.map List.length).sum ≤ a → A + a * M ≤ N →
      (g.map fun v => (v.map Edge.cost).foldl (@FloatOps.add _ R.ops) (.fin 0)).foldl
        (@FloatOps.add _ R.ops) acc =
      (g.map fun v => (v.map Edge.cost).foldl FloatOps.add (.fin 0)).foldl FloatOps.add acc ∧
      FX T (A + a * M)
        ((g.map fun v => (v.map Edge.cost).foldl FloatOps.add (.fin 0)).foldl FloatOps.add acc) by
    have := H k 0 (.fin 0) le_rfl (fx_zero T le_rfl) h.count (by linarith)
    rw [zero_add] at this
    exact this
  have hc := h.cost
  clear h hk
  induction g with
  | nil =>
    intro a A acc _ ha _ h
    exact ⟨rfl, ha.mono (by have : 0 ≤ (a : K) * M := mul_nonneg (Nat.cast_nonneg _) hM; linarith)⟩
  | cons v t ih =>
    intro a A acc hA ha hl h
    simp only [List.map_cons, List.sum_cons, List.foldl_cons] at hl ⊢
    obtain ⟨b, rfl⟩ : ∃ b, a = v.length + b := ⟨a - v.length, by omega⟩
    push_cast at h ⊢
    have hb : 0 ≤ (b : K) * M := mul_nonneg (Nat.cast_nonneg _) hM
    have hv0 : 0 ≤ (v.length : K) * M := mul_nonneg (Nat.cast_nonneg _) hM
    obtain ⟨h1, h2⟩ := sum_same hR hM (l := v.map Edge.cost)
      (fun x hx => by
        obtain ⟨e, he, rfl⟩ := List.mem_map.mp hx
        exact hc v (by simp) e he) (by rw [List.length_map]; linarith)
    rw [List.length_map] at h2
    obtain ⟨h3, h4⟩ := ha.add hR h2 (by linarith)
    have := ih (fun w hw => hc w (by simp [hw])) b (A + v.length * M) _ (by linarith) h4 (by omega)
      (by linarith)
    have h1' : (v.map Edge.cost).foldl (@FloatOps.add _ R.ops) (.fin 0) = FloatOps.sum (v.map Edge.cost) :=
      h1
    rw [h1', h3]
    exact ⟨this.1, this.2.mono (by linarith)⟩

theorem undirectedEdgeWeight_same (hR : R.ExactOn T N) (hM : 0 ≤ M) {k : Nat} {g : Graph (XNum K)}
    (h : GE (FX T M) k g) (hk : k * M ≤ N) :
    @Graph.undirectedEdgeWeight _ R.ops g = g.undirectedEdgeWeight := by
  obtain ⟨h1, h2⟩ := directedEdgeWeight_same hR hM h hk
  unfold Graph.undirectedEdgeWeight
  rw [h1, h2.half hR hk]

/-! ## The trees have few edges with costs from the matrix -/

/-- `G` holds for all states of the algorithm with data structure `ops`, and costs found are in `P` -/
structure OpsGood {σ : Type} (P : XNum K → Prop) (m : Mat (XNum K))
    (ops : MinCostOps σ (XNum K)) (G : σ → Prop) : Prop where
  init : ∀ d n, G (ops.fromDefault ⟨d, .inf⟩ n)
  find : ∀ it d v e, G d → ops.find it d = .ok (v, e) → P e.cost
  mark : ∀ d v d', G d → ops.markUsed d v = .ok d' → G d'
  update : ∀ it d v d', G d → v < m.dim → ops.update it d v (m.get v) m.dim = .ok d' → G d'
  set : ∀ d v w d', G d → ops.setCost d v ⟨w, .fin 0⟩ = .ok d' → G d'

theorem primLoop_ge {σ : Type} {m : Mat (XNum K)} {ops : MinCostOps σ (XNum K)} {G : σ → Prop}
    (hG : OpsGood P m ops G) (start : Nat) :
    ∀ k it d adj j adj', G d → GE P j adj → primLoop ops m start k it d adj = .ok adj' →
      GE P (j + 2 * k) adj' := by
  intro k
  induction k with
  | zero =>
    intro it d adj j adj' _ h1 h2
    rw [← Except.ok.inj h2]
    exact h1
  | succ k ih =>
    intro it d adj j adj' hd h1 h2
    unfold primLoop at h2
    cases hf : ops.find it d with
    | error => rw [hf] at h2; cases h2
    | ok r =>
      obtain ⟨v, e⟩ := r
      have he := hG.find _ _ _ _ hd hf
      rw [hf] at h2
      simp only [rm_bind_ok, rm_pure] at h2
      split at h2
      · rw [← Except.ok.inj h2]
        exact h1.mono (by omega)
      · cases hm : ops.markUsed d v with
        | error => rw [hm] at h2; cases h2
        | ok d1 =>
          rw [hm] at h2
          simp only [rm_bind_ok] at h2
          cases hp : primPush start adj v e with
          | error => rw [hp] at h2; cases h2
          | ok adj1 =>
            rw [hp] at h2
            simp only [rm_bind_ok] at h2
            have h3 : GE P (j + 2) adj1 := by
              unfold primPush at hp
              split at hp
              · cases hq : adj.pushEdge v e with
                | error => rw [hq] at hp; cases hp
                | ok adj2 =>
                  rw [hq] at hp
                  exact (h1.push he hq).push (e := ⟨v, e.cost⟩) he hp
              · rw [← Except.ok.inj hp]
                exact h1.mono (by omega)
            split at h2
            · rename_i hv
              cases hu : ops.update it d1 v (m.get v) m.dim with
              | error => rw [hu] at h2; cases h2
              | ok d2 =>
                rw [hu] at h2
                simp only [rm_bind_ok] at h2
                exact (ih _ _ _ _ _ (hG.update _ _ _ _ (hG.mark _ _ _ hd hm) hv hu) h3 h2).mono
                  (by omega)
            · cases h2

theorem primGeneric_ge {σ : Type} {m : Mat (XNum K)} {ops : MinCostOps σ (XNum K)} {G : σ → Prop}
    (hG : OpsGood P m ops G) {ex : List Nat} {g : Graph (XNum K)}
    (h : primGeneric ops m ex = .ok g) : GE P (2 * m.dim + 2) g := by
  unfold primGeneric at h
  cases hs : firstNotExcluded ex (ex.length + 1) 0 with
  | error => simp [hs] at h
  | ok s =>
    simp only [hs, rm_bind_ok, rm_pure] at h
    split at h
    · rw [← Except.ok.inj h]
      exact ⟨by simp, by simp⟩
    · cases hd : ops.setCost (ops.fromDefault ⟨m.dim, FloatOps.inf⟩ (m.dim + 1)) s
        ⟨s, FloatOps.zero⟩ with
      | error => rw [hd] at h; cases h
      | ok d =>
        rw [hd] at h
        simp only [rm_bind_ok] at h
        have g1 : G d := hG.set _ _ _ _ (hG.init _ _) hd
        cases hx : ex.foldlM (fun d v => ops.markUsed d v) d with
        | error => rw [hx] at h; cases h
        | ok d2 =>
          rw [hx] at h
          simp only [rm_bind_ok] at h
          have g2 : G d2 := by
            clear hd h hs
            induction ex generalizing d with
            | nil => rw [← Except.ok.inj hx]; exact g1
            | cons v t ih =>
              rw [List.foldlM_cons] at hx
              cases hv : ops.markUsed d v with
              | error => rw [hv] at hx; cases hx
              | ok d3 =>
                rw [hv] at hx
                exact ih d3 (hG.mark _ _ _ g1 hv) hx
          cases hl : primLoop ops m s (m.dim + 1) 0 d2 (List.replicate (m.dim + 1) []) with
          | error => rw [hl] at h; cases h
          | ok adj =>
            rw [hl] at h
            rw [← Except.ok.inj h]
            exact ((primLoop_ge hG s _ _ _ _ _ _ g2 GE.nil hl).mono (by omega)).dropLast

/-- all recorded costs are in `P` -/
def DistGood (P : XNum K → Prop) (d : Dist (XNum K)) : Prop := ∀ p ∈ d, P (Edge.cost p.1)

theorem DistGood.modify {d : Dist (XNum K)} (h : DistGood P d) (i : Nat)
    (f : Edge (XNum K) × Bool → Edge (XNum K) × Bool)
    (hf : ∀ p, P (Edge.cost p.1) → P (Edge.cost (f p).1)) : DistGood P (d.modify i f) := by
  intro p hp
  rw [List.mem_iff_getElem?] at hp
  obtain ⟨j, hj⟩ := hp
  rw [List.getElem?_modify] at hj
  cases hg : d[j]? with
  | none => simp [hg] at hj
  | some w =>
    have hw := h w (List.mem_of_getElem? hg)
    simp only [hg, Option.map_eq_map, Option.map_some, Option.some.injEq] at hj
    split at hj
    · rw [← hj]; exact hf w hw
    · rw [← hj]; exact hw

theorem foldl_mem {β ι : Type} (f : β → ι → β) (P : β → Prop) (l : List ι) (b : β) (h0 : P b)
    (h : ∀ b, P b → ∀ i ∈ l, P (f b i)) : P (l.foldl f b) := by
  induction l generalizing b with
  | nil => exact h0
  | cons a t ih => exact ih _ (h b h0 a (by simp)) (fun b hb i hi => h b hb i (by simp [hi]))

theorem Dist.candidates_good {d : Dist (XNum K)} (h : DistGood P d) {x : Nat × Edge (XNum K)}
    (hx : x ∈ d.candidates) : P x.2.cost := by
  unfold Dist.candidates at hx
  rw [List.mem_filterMap] at hx
  obtain ⟨⟨p, i⟩, h1, h2⟩ := hx
  simp only at h2
  split at h2
  · cases h2
  · rw [← Option.some.inj h2]
    exact h p (List.fst_mem_of_mem_zipIdx h1)

theorem vecOps_good (hP : Good P) {m : Mat (XNum K)} (hm : ∀ i j, i < m.dim → j < m.dim → P (m.get i j)) :
    OpsGood P m vecOps (DistGood P) where
  init d n := by
    intro p hp
    rw [List.eq_of_mem_replicate hp]
    exact hP.inf
  find it d v e hd h := by
    have h : d.find = (v, e) := Except.ok.inj h
    unfold Dist.find at h
    cases hx : minByFirst Dist.candLt d.candidates with
    | none =>
      rw [hx] at h
      have := congrArg (fun x => Edge.cost x.2) h
      simp only [Option.getD_none] at this
      rw [← this]
      exact hP.inf
    | some x =>
      rw [hx, Option.getD_some] at h
      have := Dist.candidates_good hd (minByFirst_mem hx)
      rw [h] at this
      exact this
  mark d v d' hd h := by
    simp only [vecOps, Dist.markUsed] at h
    split at h
    · rw [← Except.ok.inj h]
      exact hd.modify _ _ (fun p hp => hp)
    · cases h
  update it d v d' hd hv h := by
    rw [← Except.ok.inj h]
    refine foldl_mem _ (DistGood P) _ d hd ?_
    intro d hd j hj
    refine hd.modify _ _ (fun p hp => ?_)
    split
    · exact hm v j hv (List.mem_range.mp hj)
    · exact hp
  set d v w d' hd h := by
    simp only [vecOps, Dist.setCost] at h
    split at h
    · rw [← Except.ok.inj h]
      exact hd.modify _ _ (fun p _ => hP.zero)
    · cases h

theorem primSeq_ge (hP : Good P) {m : Mat (XNum K)} (hm : ∀ i j, i < m.dim → j < m.dim → P (m.get i j)) {ex : List Nat}
    {g : Graph (XNum K)} (h : primSeq m ex = .ok g) : GE P (2 * m.dim + 2) g :=
  primGeneric_ge (vecOps_good hP hm) h

theorem RTree.reduce_mem {β : Type} (f : β → β → β) (hf : ∀ a b, f a b = a ∨ f a b = b) (t : RTree β)
    {x : β} (h : t.reduce f = some x) : x ∈ t.flatten := by
  induction t generalizing x with
  | empty => cases h
  | leaf y => rw [← Option.some.inj h]; simp [RTree.flatten]
  | node l r ihl ihr =>
    simp only [RTree.flatten, List.mem_append]
    simp only [RTree.reduce] at h
    cases hl : l.reduce f with
    | none =>
      rw [hl] at h
      exact Or.inr (ihr h)
    | some a =>
      cases hr : r.reduce f with
      | none =>
        rw [hl, hr] at h
        exact Or.inl (ihl (by rw [hl]; exact h))
      | some b =>
        rw [hl, hr] at h
        have h : f a b = x := Option.some.inj h
        rcases hf a b with h1 | h1
        · exact Or.inl (ihl (by rw [hl, ← h, h1]))
        · exact Or.inr (ihr (by rw [hr, ← h, h1]))

theorem parOps_good (hP : Good P) {m : Mat (XNum K)} (hm : ∀ i j, i < m.dim → j < m.dim → P (m.get i j))
    {shape : Nat → List (Nat × Edge (XNum K)) → RTree (Nat × Edge (XNum K))}
    {order : Nat → Nat → List Nat} (hs : ∀ it l, (shape it l).flatten = l)
    (ho : ∀ it n, (order it n).Perm (List.range n)) :
    OpsGood P m (parOps shape order) (DistGood P) where
  init d n := by
    intro p hp
    rw [List.eq_of_mem_replicate hp]
    exact hP.inf
  find it d v e hd h := by
    have h : ((shape it d.candidates).minBy Dist.candLt).getD (d.length, ⟨d.length, .inf⟩) = (v, e) :=
      Except.ok.inj h
    cases hx : (shape it d.candidates).minBy Dist.candLt with
    | none =>
      rw [hx] at h
      have := congrArg (fun x => Edge.cost x.2) h
      simp only [Option.getD_none] at this
      rw [← this]
      exact hP.inf
    | some x =>
      rw [hx, Option.getD_some] at h
      have h1 := RTree.reduce_mem _ (fun a b => by split <;> simp) _ hx
      rw [hs] at h1
      have := Dist.candidates_good hd h1
      rw [h] at this
      exact this
  mark := (vecOps_good hP hm).mark
  update it d v d' hd hv h := by
    rw [← Except.ok.inj h]
    refine foldl_mem _ (DistGood P) _ d hd ?_
    intro d hd j hj
    refine hd.modify _ _ (fun p hp => ?_)
    split
    · exact hm v j hv (List.mem_range.mp ((ho _ _).mem_iff.mp hj))
    · exact hp
  set := (vecOps_good hP hm).set

theorem primPar_ge (hP : Good P) {m : Mat (XNum K)} (hm : ∀ i j, i < m.dim → j < m.dim → P (m.get i j)) {ex : List Nat}
    {shape : Nat → List (Nat × Edge (XNum K)) → RTree (Nat × Edge (XNum K))}
    {order : Nat → Nat → List Nat} (hs : ∀ it l, (shape it l).flatten = l)
    (ho : ∀ it n, (order it n).Perm (List.range n))
    {g : Graph (XNum K)} (h : primPar shape order m ex = .ok g) : GE P (2 * m.dim + 2) g :=
  primGeneric_ge (parOps_good hP hm hs ho) h

/-- all priorities are in `P` -/
def PQGood (P : XNum K → Prop) (s : PQ (XNum K)) : Prop := ∀ x ∈ s.queue, P x.2

theorem pqOps_good (hP : Good P) {m : Mat (XNum K)} (hm : ∀ i j, i < m.dim → j < m.dim → P (m.get i j))
    {peek : Nat → List (Nat × XNum K) → Option (Nat × XNum K)}
    (hp : ∀ it q x, peek it q = some x → x ∈ q) :
    OpsGood P m (pqOps peek) (PQGood P) where
  init d n := by
    intro p hp
    obtain ⟨i, -, rfl⟩ := List.mem_map.mp hp
    exact hP.inf
  find it d v e hd h := by
    simp only [pqOps] at h
    cases hx : peek it d.queue with
    | none =>
      rw [hx] at h
      simp only [Option.getD_none] at h
      cases hi : idx d.conn d.conn.length with
      | error => rw [hi] at h; cases h
      | ok t =>
        rw [hi] at h
        have := congrArg (fun x => Edge.cost x.2) (Except.ok.inj h)
        rw [← this]
        exact hP.inf
    | some x =>
      rw [hx] at h
      simp only [Option.getD_some] at h
      cases hi : idx d.conn x.1 with
      | error => rw [hi] at h; cases h
      | ok t =>
        rw [hi] at h
        have := congrArg (fun x => Edge.cost x.2) (Except.ok.inj h)
        rw [← this]
        exact hd x (hp _ _ _ hx)
  mark d v d' hd h := by
    simp only [pqOps] at h
    split at h
    · rw [← Except.ok.inj h]
      intro x hx
      exact hd x (List.mem_filter.mp hx).1
    · cases h
  update it d v d' hd hv h := by
    have hr : ∀ j ∈ List.range m.dim, j < m.dim := fun j hj => List.mem_range.mp hj
    simp only [pqOps] at h
    generalize List.range m.dim = l at h hr
    induction l generalizing d with
    | nil => rw [← Except.ok.inj h]; exact hd
    | cons j t ih =>
      rw [List.foldlM_cons] at h
      cases hq : PQ.relax v (m.get v) d j with
      | error => rw [hq] at h; cases h
      | ok d1 =>
        rw [hq] at h
        refine ih d1 ?_ h (fun i hi => hr i (by simp [hi]))
        unfold PQ.relax at hq
        cases hu : idx d.used j with
        | error => rw [hu] at hq; cases hq
        | ok u =>
          rw [hu] at hq
          simp only [rm_bind_ok, rm_pure] at hq
          have hgood : ∀ x ∈ d.queue.map (fun x => if x.1 = j then (j, m.get v j) else x),
              P x.2 := by
            intro x hx
            obtain ⟨y, hy, rfl⟩ := List.mem_map.mp hx
            split
            · exact hm v j hv (hr j (by simp))
            · exact hd y hy
          split at hq
          · rw [← Except.ok.inj hq]; exact hd
          · split at hq
            · cases hq
            · split at hq <;> split at hq
              · split at hq
                · rw [← Except.ok.inj hq]; exact hgood
                · cases hq
              · rw [← Except.ok.inj hq]; exact hgood
              · split at hq
                · rw [← Except.ok.inj hq]; exact hd
                · cases hq
              · rw [← Except.ok.inj hq]; exact hd
  set d v w d' hd h := by
    simp only [pqOps] at h
    split at h
    · rw [← Except.ok.inj h]
      intro x hx
      obtain ⟨y, hy, rfl⟩ := List.mem_map.mp hx
      split
      · exact hP.zero
      · exact hd y hy
    · cases h

theorem primQueue_ge (hP : Good P) {m : Mat (XNum K)} (hm : ∀ i j, i < m.dim → j < m.dim → P (m.get i j)) {ex : List Nat}
    {peek : Nat → List (Nat × XNum K) → Option (Nat × XNum K)}
    (hp : ∀ it q x, peek it q = some x → x ∈ q)
    {g : Graph (XNum K)} (h : primQueue peek m ex = .ok g) : GE P (2 * m.dim + 2) g :=
  primGeneric_ge (pqOps_good hP hm hp) h

/-! ## 1-trees -/

theorem addUndirectedEdge_ge {k : Nat} {g g' : Graph (XNum K)} (h : GE P k g) {u v : Nat}
    {x : XNum K} (hx : P x) (hg : g.addUndirectedEdge u v x = .ok g') : GE P (k + 2) g' := by
  unfold Graph.addUndirectedEdge at hg
  split at hg
  · cases hq : g.pushEdge u ⟨v, x⟩ with
    | error => rw [hq] at hg; cases hg
    | ok g2 =>
      rw [hq] at hg
      exact (h.push (e := ⟨v, x⟩) hx hq).push (e := ⟨u, x⟩) hx hg
  · cases hg

theorem oneTree_same (R : Rounding K) (m : Mat (XNum K)) (s : Nat) :
    @oneTree _ R.ops m s = oneTree m s := by
  unfold oneTree
  rw [primSeq_same]
  rfl

theorem oneTree_ge (hP : Good P) {m : Mat (XNum K)} (hm : ∀ i j, i < m.dim → j < m.dim → P (m.get i j)) {s : Nat}
    {g : Graph (XNum K)} (h : oneTree m s = .ok g) : GE P (2 * m.dim + 6) g := by
  unfold oneTree at h
  split at h
  · rename_i hs
    cases hp : primSeq m [s] with
    | error => rw [hp] at h; cases h
    | ok t =>
      rw [hp] at h
      simp only [rm_bind_ok] at h
      have h0 : ∀ st : Edge (XNum K) × Edge (XNum K), P st.1.cost ∧ P st.2.cost →
          ∀ j ∈ List.range m.dim, P (twoMinStep s (m.get s) st j).1.cost ∧
            P (twoMinStep s (m.get s) st j).2.cost := by
        intro st hst j hj
        have hj' := hm s j hs (List.mem_range.mp hj)
        unfold twoMinStep
        split
        · exact hst
        · split
          · exact ⟨hj', hst.1⟩
          · split
            · exact ⟨hst.1, hj'⟩
            · exact hst
      have h1 := foldl_mem (twoMinStep s (m.get s)) (fun st => P st.1.cost ∧ P st.2.cost)
        (List.range m.dim) (⟨s, .inf⟩, ⟨s, .inf⟩) ⟨hP.inf, hP.inf⟩ h0
      obtain ⟨g1, hg1⟩ : ∃ g1, t.addUndirectedEdge s
          ((List.range m.dim).foldl (twoMinStep s (m.get s)) (⟨s, .inf⟩, ⟨s, .inf⟩)).1.dst
          ((List.range m.dim).foldl (twoMinStep s (m.get s)) (⟨s, .inf⟩, ⟨s, .inf⟩)).1.cost = .ok g1 := by
        cases hq : t.addUndirectedEdge s
          ((List.range m.dim).foldl (twoMinStep s (m.get s)) (⟨s, .inf⟩, ⟨s, .inf⟩)).1.dst
          ((List.range m.dim).foldl (twoMinStep s (m.get s)) (⟨s, .inf⟩, ⟨s, .inf⟩)).1.cost with
        | error =>
          have : FloatOps.inf = (XNum.inf : XNum K) := rfl
          rw [this, hq] at h; cases h
        | ok g1 => exact ⟨g1, rfl⟩
      have e : FloatOps.inf = (XNum.inf : XNum K) := rfl
      rw [e, hg1] at h
      simp only [rm_bind_ok] at h
      exact addUndirectedEdge_ge (addUndirectedEdge_ge (primSeq_ge hP hm hp) h1.1 hg1) h1.2 h
  · cases h

theorem oneTreeWeight_same (hR : R.ExactOn T N) (hM : 0 ≤ M) {m : Mat (XNum K)} (hm : FixedMat T M m)
    (hN : (2 * m.dim + 6) * M ≤ N) (s : Nat) :
    @oneTreeWeight _ R.ops m s = oneTreeWeight m s := by
  unfold oneTreeWeight
  rw [oneTree_same]
  cases h : oneTree m s with
  | error => rfl
  | ok g =>
    simp only [rm_bind_ok, rm_pure]
    rw [undirectedEdgeWeight_same hR hM (oneTree_ge (fx_good T hM) hm h) (by push_cast; exact hN)]

theorem oneTreeLbSeq_same (hR : R.ExactOn T N) (hM : 0 ≤ M) {m : Mat (XNum K)} (hm : FixedMat T M m)
    (hN : (2 * m.dim + 6) * M ≤ N) : @oneTreeLbSeq _ R.ops m = oneTreeLbSeq m := by
  unfold oneTreeLbSeq
  rw [funext (oneTreeWeight_same hR hM hm hN)]
  rfl

theorem oneTreeLbPar_same (hR : R.ExactOn T N) (hM : 0 ≤ M) {m : Mat (XNum K)} (hm : FixedMat T M m)
    (hN : (2 * m.dim + 6) * M ≤ N) (shape : List (XNum K) → RTree (XNum K)) :
    @oneTreeLbPar _ R.ops shape m = oneTreeLbPar shape m := by
  unfold oneTreeLbPar
  rw [funext (oneTreeWeight_same hR hM hm hN)]
  rfl

theorem oneTreeLbMpi_same (hR : R.ExactOn T N) (hM : 0 ≤ M) {m : Mat (XNum K)} (hm : FixedMat T M m)
    (hN : (2 * m.dim + 6) * M ≤ N) (shape : List (XNum K) → RTree (XNum K)) (size : Nat) :
    @oneTreeLbMpi _ R.ops shape size m = oneTreeLbMpi shape size m := by
  unfold oneTreeLbMpi oneTreeLocal
  rw [funext (oneTreeWeight_same hR hM hm hN)]
  rfl

end Walky
