import Verif.Lemmas.Solve
import Mathlib.Tactic.LinearCombination

/-! # Helper lemmas: the pruning bounds of v4 and v5 compared with the rest of a tour -/

set_option linter.unusedSectionVars false

namespace Walky

open FloatOps Spec XNum

variable {K : Type} [Field K] [LinearOrder K] [IsStrictOrderedRing K]

/-! ## Spanning tree bound -/

theorem Conn.symm {F : List (Nat × Nat)} {a x : Nat} (h : Conn F [a] x) : Conn F [x] a := by
  induction h with
  | base h => simp at h; subst h; exact .base (by simp)
  | @step x y e _ ih =>
    refine ih.trans ?_
    intro z hz
    simp at hz
    subst hz
    exact .step e.symm (.base (by simp))

/-- consecutive pairs -/
def pairs (t : List Nat) : List (Nat × Nat) := t.zip t.tail

theorem pairs_cons₂ (a b : Nat) (t : List Nat) : pairs (a :: b :: t) = (a, b) :: pairs (b :: t) :=
  rfl

theorem conn_pairs_head (a : Nat) (t : List Nat) : ∀ j ∈ a :: t, Conn (pairs (a :: t)) [a] j := by
  induction t generalizing a with
  | nil => intro j hj; exact .base hj
  | cons b t ih =>
    intro j hj
    rcases List.mem_cons.mp hj with h | h
    · subst h; exact .base (by simp)
    · rw [pairs_cons₂]
      refine ((ih b j h).mono (fun e he => List.mem_cons_of_mem _ he) (fun a ha => ha)).trans ?_
      intro x hx
      simp at hx
      subst hx
      exact .step (y := a) (Or.inr (by simp)) (.base (by simp))

theorem conn_pairs {t : List Nat} {s j : Nat} (hs : s ∈ t) (hj : j ∈ t) : Conn (pairs t) [s] j := by
  cases t with
  | nil => simp at hs
  | cons a t =>
    refine (conn_pairs_head a t j hj).trans ?_
    intro x hx
    simp at hx
    subst hx
    exact (conn_pairs_head x t s hs).symm

theorem mem_pairs {t : List Nat} {e : Nat × Nat} (h : e ∈ pairs t) : e.1 ∈ t ∧ e.2 ∈ t := by
  have := List.of_mem_zip (a := e.1) (b := e.2) h
  exact ⟨this.1, List.mem_of_mem_tail this.2⟩

theorem length_pairs (t : List Nat) : (pairs t).length = t.length - 1 := by
  simp [pairs]

theorem edgesCost_pairs (c : Nat → Nat → K) (t : List Nat) : edgesCost c (pairs t) = pathCost c t := by
  induction t with
  | nil => rfl
  | cons a t ih =>
    cases t with
    | nil => rfl
    | cons b t =>
      rw [pairs_cons₂, pathCost_cons₂, ← ih]
      simp [edgesCost]

/-- The weight of Prim's tree on the vertices outside `ex`, as doubled by `directed_edge_weight`. -/
theorem primSeq_weight {m : Mat (XNum K)} {c : Nat → Nat → K} (hm : Rep m c) (hsym : Symm m.dim c)
    {ex : List Nat} (hex : ∀ v ∈ ex, v < m.dim) :
    ((∀ i < m.dim, i ∈ ex) ∧ primSeq m ex = .ok []) ∨
    ∃ start P, start < m.dim ∧ start ∉ ex ∧ PrimRun c (fun j => j < m.dim ∧ j ∉ ex) [start] P ∧
      primSeq m ex = .ok (treeGraph c m.dim P) ∧
      (treeGraph c m.dim P).directedEdgeWeight = fin (2 * edgesCost c P) ∧
      (∀ p ∈ P, (p.1 < m.dim ∧ p.1 ∉ ex) ∧ (p.2 < m.dim ∧ p.2 ∉ ex) ∧ p.1 ≠ p.2) := by
  rcases primSeq_exact hm ex hex with h | ⟨start, P, h1, h2, h3, h4, h5⟩
  · exact Or.inl h
  · right
    refine ⟨start, P, h1, h2, h3, h4, ?_, h5⟩
    rw [directedEdgeWeight_fin _ (finG_treeGraph _ _ _),
      wsum_treeGraph _ _ _ (fun p hp => ⟨(h5 p hp).1.1, (h5 p hp).2.1.1⟩),
      edgesCost_swap c (fun i j hi hj => hsym i j hi hj) h5]

theorem PrimRun.length {c : Nat → Nat → K} {n : Nat} {ex : List Nat} {start : Nat}
    {P : List (Nat × Nat)} (h : PrimRun c (fun j => j < n ∧ j ∉ ex) [start] P) :
    P.length = (remaining n ex [start]).length := by
  simpa using h.perm.length_eq

/-- Twice the spanning tree of the remaining vertices costs at most twice every path through
them. -/
theorem mstBound_le_path {m : Mat (XNum K)} {c : Nat → Nat → K} (hm : Rep m c)
    (hsym : Symm m.dim c) {ex t : List Nat} (hex : ∀ v ∈ ex, v < m.dim) (hnd : t.Nodup)
    (ht : ∀ j, j ∈ t ↔ j < m.dim ∧ j ∉ ex) :
    ∃ x, mstBound m ex = .ok (fin x) ∧ x ≤ 2 * pathCost c t := by
  rcases primSeq_weight hm hsym hex with ⟨h1, h2⟩ | ⟨start, P, h1, h2, h3, h4, h5, h6⟩
  · refine ⟨0, ?_, ?_⟩
    · unfold mstBound; rw [h2]; rfl
    · have : t = [] := by
        rw [List.eq_nil_iff_forall_not_mem]
        intro j hj
        have := (ht j).mp hj
        exact this.2 (h1 j this.1)
      simp [this]
  · refine ⟨2 * edgesCost c P, ?_, ?_⟩
    · unfold mstBound; rw [h4]
      simp only [rm_bind_ok, rm_pure]
      rw [h5]
    · have hst : start ∈ t := (ht start).mpr ⟨h1, h2⟩
      have hlen : (pairs t).length = P.length := by
        rw [h3.length, length_pairs]
        have hp : t.Perm (start :: remaining m.dim ex [start]) := by
          rw [List.perm_ext_iff_of_nodup hnd]
          · intro j
            rw [ht, List.mem_cons, mem_remaining]
            simp only [List.mem_singleton]
            constructor
            · rintro ⟨a, b⟩
              by_cases hj : j = start
              · exact Or.inl hj
              · exact Or.inr ⟨a, b, hj⟩
            · rintro (h | h)
              · subst h; exact ⟨h1, h2⟩
              · exact ⟨h.1, h.2.1⟩
          · rw [List.nodup_cons]
            refine ⟨by simp [mem_remaining], ?_⟩
            exact (List.nodup_range).filter _
        have := hp.length_eq
        simp at this
        omega
      have := h3.min (fun i j hi hj => hsym i j hi.1 hj.1) (by simpa using ⟨h1, h2⟩) (pairs t)
        (fun e he => ⟨(ht _).mp (mem_pairs he).1, (ht _).mp (mem_pairs he).2⟩)
        (fun j hj => conn_pairs hst ((ht j).mpr hj)) (Or.inl hlen)
      rw [edgesCost_pairs] at this
      linarith

theorem rest_of_tour {n : Nat} {p t : List Nat} (h : IsTour n (p ++ t)) :
    t.Nodup ∧ ∀ j, j ∈ t ↔ j < n ∧ j ∉ p := by
  have hnd := h.nodup
  rw [List.nodup_append] at hnd
  refine ⟨hnd.2.1, fun j => ?_⟩
  rw [← h.mem (i := j), List.mem_append]
  constructor
  · intro hj
    exact ⟨Or.inr hj, fun hp => hnd.2.2 j hp j hj rfl⟩
  · rintro ⟨h1 | h1, h2⟩
    · exact absurd h1 h2
    · exact h1

/-- `test5` follows `q` below `pre` for threshold `T` if the bound stays below `T`. -/
theorem along_test5_from {m : Mat (XNum K)} {c : Nat → Nat → K} (hm : Rep m c)
    (hsym : Symm m.dim c) {pre q : List Nat} (hq : IsTour m.dim q) {T : K}
    (h : ∀ p t, q = p ++ t → pre.length < p.length → 2 ≤ p.length →
      pathCost c p + 2 * pathCost c t ≤ T) :
    AlongT c (test5 m) (fun _ => True) T pre q := by
  rintro p ⟨t, rfl⟩ h1 h2 a b _ hb hle
  obtain ⟨r1, r2⟩ := rest_of_tour hq
  obtain ⟨x, hx, hx'⟩ := mstBound_le_path hm hsym
    (fun v hv => hq.mem.mp (List.mem_append_left _ hv)) r1 r2
  refine ⟨(), ?_⟩
  unfold test5
  rw [hx]
  simp only [rm_bind_ok, rm_pure, XNum.add_fin]
  have : FloatOps.le (fin (pathCost c p + x)) b = true := by
    refine le_trans' ?_ hle
    have := h p t rfl h1 h2
    simp only [XNum.le_fin, decide_eq_true_eq]
    linarith
  rw [this]

/-- `test5` follows `q` for threshold `T` if the bound stays below `T`. -/
theorem along_test5 {m : Mat (XNum K)} {c : Nat → Nat → K} (hm : Rep m c) (hsym : Symm m.dim c)
    {q : List Nat} (hq : IsTour m.dim q) {T : K}
    (h : ∀ p t, q = p ++ t → 2 ≤ p.length → pathCost c p + 2 * pathCost c t ≤ T) :
    AlongT c (test5 m) (fun _ => True) T [] q :=
  along_test5_from hm hsym hq (fun p t e _ h2 => h p t e h2)

/-! ## Nearest later neighbour bound -/

theorem shortestLaterEdge_le {m : Mat (XNum K)} {c : Nat → Nat → K} (hm : Rep m c)
    (sub : List Nat) {i j : Nat} (hj : j < m.dim) (hij : i < j) (hs : j ∉ sub) :
    FloatOps.le (shortestLaterEdge m sub i) (fin (c i j)) = true := by
  have hi : i < m.dim := by omega
  have : Proper (shortestLaterEdge m sub i) ∧ ∀ k ∈ List.range' (i + 1) (m.dim - (i + 1)),
      k ∉ sub → FloatOps.le (shortestLaterEdge m sub i) (fin (c i k)) = true := by
    unfold shortestLaterEdge
    refine foldl_inv _ (fun done b => Proper b ∧ ∀ k ∈ done, k ∉ sub →
      FloatOps.le b (fin (c i k)) = true) _ _ ⟨proper_inf, by simp⟩ ?_
    rintro done k rest b hl ⟨hb, hd⟩
    have hk : k ∈ List.range' (i + 1) (m.dim - (i + 1)) := by rw [hl]; simp
    rw [List.mem_range'_1] at hk
    have hw := hm.off i k hi (by omega) (by omega)
    split
    · rename_i h1
      refine ⟨hb, ?_⟩
      intro k' hk' hks
      rcases List.mem_append.mp hk' with h | h
      · exact hd k' h hks
      · simp at h h1; subst h; exact absurd h1 hks
    · split
      · rename_i h2
        rw [hw] at h2 ⊢
        refine ⟨proper_fin _, ?_⟩
        intro k' hk' hks
        rcases List.mem_append.mp hk' with h | h
        · exact le_trans' (le_of_lt' h2) (hd k' h hks)
        · simp at h; subst h; exact (proper_fin _).le_refl
      · rename_i h2
        refine ⟨hb, ?_⟩
        intro k' hk' hks
        rcases List.mem_append.mp hk' with h | h
        · exact hd k' h hks
        · simp at h; subst h
          rw [hw] at h2
          exact Proper.not_lt (proper_fin _) hb (by simpa using h2)
  exact this.2 j (by rw [List.mem_range'_1]; omega) hs

theorem shortestLaterEdge_none {m : Mat (XNum K)} (sub : List Nat) {i : Nat}
    (h : ∀ j, i < j → j < m.dim → j ∈ sub) : shortestLaterEdge m sub i = XNum.inf := by
  unfold shortestLaterEdge
  refine foldl_inv _ (fun _ b => b = XNum.inf) _ _ rfl ?_
  rintro done k rest b hl rfl
  have hk : k ∈ List.range' (i + 1) (m.dim - (i + 1)) := by rw [hl]; simp
  rw [List.mem_range'_1] at hk
  have := h k (by omega) (by omega)
  simp [this]

/-- The bound of v4 is at most the cost of any selection `F` of one later neighbour for each
remaining vertex but the largest one. -/
theorem nnOfRemaining_le {m : Mat (XNum K)} {c : Nat → Nat → K} (hm : Rep m c)
    (sub : List Nat) (F : List (Nat × Nat)) (mx : Nat)
    (hF : ((F.map Prod.fst) ++ [mx]).Perm ((List.range m.dim).filter fun i => !sub.contains i))
    (hlater : ∀ e ∈ F, e.1 < e.2 ∧ e.2 < m.dim ∧ e.2 ∉ sub)
    (hmx : ∀ j, mx < j → j < m.dim → j ∈ sub) :
    ∃ x, nnOfRemaining m sub = fin x ∧ x ≤ edgesCost c F := by
  let term : Nat → K := fun i => toK (shortestLaterEdge m sub i)
  have h1 : nnOfRemaining m sub =
      fin ((((List.range m.dim).filter fun i => !sub.contains i).map term).sum) := by
    unfold nnOfRemaining
    refine foldl_inv _ (fun done b => b = fin (((done.filter fun i => !sub.contains i).map term).sum))
      _ _ (by simp) ?_
    rintro done i rest b hl rfl
    have hi : i ∈ List.range m.dim := by rw [hl]; simp
    simp only [List.mem_range] at hi
    rw [List.filter_append]
    split
    · rename_i hc
      have : ([i].filter fun i => !sub.contains i) = [] := by simpa using hc
      rw [this, List.append_nil]
    · rename_i hc
      have : ([i].filter fun i => !sub.contains i) = [i] := by simpa using hc
      rw [this, List.map_append, List.sum_append]
      rcases shortestLaterEdge_proper hm sub hi with h | ⟨a, h⟩
      · simp [h, term, toK]
      · simp [h, term, toK]
  refine ⟨_, h1, ?_⟩
  have h2 := (hF.map term).sum_eq
  rw [← h2, List.map_append, List.sum_append]
  have h3 : term mx = 0 := by
    simp only [term, shortestLaterEdge_none sub hmx, toK]
  simp only [List.map_cons, List.map_nil, List.sum_cons, List.sum_nil, h3, add_zero, List.map_map]
  unfold edgesCost
  apply List.sum_le_sum
  intro e he
  obtain ⟨e1, e2, e3⟩ := hlater e he
  have := shortestLaterEdge_le hm sub e2 e1 e3
  simp only [Function.comp, term]
  rcases shortestLaterEdge_proper hm sub (i := e.1) (by omega) with h | ⟨a, h⟩
  · rw [h] at this; simp at this
  · rw [h] at this ⊢
    simpa [toK] using this

end Walky
