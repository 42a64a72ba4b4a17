import Verif.Lemmas.Shortcut
import Verif.Lemmas.Matching
import Verif.Props.Mst

/-! # Helper lemmas: Christofides' algorithm -/

set_option linter.unusedSectionVars false
set_option linter.unusedSimpArgs false

namespace Walky

open FloatOps XNum Spec

variable {K : Type} [Field K] [LinearOrder K] [IsStrictOrderedRing K]

theorem citiesExcept_nil (n : Nat) : citiesExcept n [] = List.range n := by
  simp [citiesExcept]

/-- the tree of Prim's algorithm, with its weight -/
theorem prim_tree {m : Mat (XNum K)} {c : Nat → Nat → K} (hm : Rep m c) (hn : 1 ≤ m.dim) :
    ∃ mst E, primSeq m [] = .ok mst ∧ IsSpanningTree (List.range m.dim) E ∧ GraphOf m.dim c E mst ∧
      mst.undirectedEdgeWeight = fin (edgeSum c E) := by
  rcases primSeq_exact hm [] (by simp) with ⟨h1, _⟩ | ⟨start, P, h1, h2, h3, h4, h5⟩
  · exact absurd (h1 0 hn) (by simp)
  · have hs := h3.spanning h1 h2
    rw [citiesExcept_nil] at hs
    exact ⟨_, _, h4, hs, graphOf_treeGraph c _ P (fun p hp => (h5 p hp).2.2),
      finG_treeGraph_weight c _ P (fun p hp => ⟨(h5 p hp).1.1, (h5 p hp).2.1.1⟩)⟩

/-- A connected edge set has at least as many edges as a tree. -/
theorem connects_length {n : Nat} (hn : 1 ≤ n) {F : List (Nat × Nat)} (hF : Valid n F)
    (hc : Connects F (List.range n)) : n ≤ F.length + 1 := by
  have hne : citiesExcept (Mat.ofFun n (fun _ _ => (1 : ℚ))).dim [] ≠ [] := by
    rw [citiesExcept_nil]
    show List.range n ≠ []
    simp
    omega
  obtain ⟨g, w, _, _, _, h3, F0, h4, h5⟩ := Props.C29_prim_minimum
    (rep_ofFun n (fun _ _ => (1 : ℚ))) (fun _ _ _ _ => rfl) [] (by simp) hne
  have hcount : ∀ L : List (Nat × Nat), edgeSum (fun _ _ => (1 : ℚ)) L = L.length := by
    intro L
    induction L with
    | nil => rfl
    | cons e L ih =>
      rw [edgeSum_cons, ih, List.length_cons]
      push_cast
      ring
  have hd : (Mat.ofFun n (fun _ _ => (1 : ℚ))).dim = n := rfl
  rw [hd, citiesExcept_nil] at h3 h4
  have h6 := h3 F (fun e he => ⟨by simpa using (hF e he).1, by simpa using (hF e he).2, by norm_num⟩) hc
  rw [h5, hcount, hcount] at h6
  have h7 := h4.count
  rw [List.length_range] at h7
  have h8 : F0.length ≤ F.length := by exact_mod_cast h6
  omega

theorem spanning_valid {n : Nat} {E : List (Nat × Nat)} (h : IsSpanningTree (List.range n) E) : Valid n E := by
  intro e he
  have := h.ends e he
  simpa using And.intro this.1 this.2.1

/-- A spanning tree has no repeated edges. -/
theorem spanning_und {n : Nat} (hn : 1 ≤ n) {E : List (Nat × Nat)}
    (h : IsSpanningTree (List.range n) E) (i j : Nat) :
    (Joined E i j → und E i j = 1) ∧ (¬ Joined E i j → und E i j = 0) := by
  have h0 : ¬ Joined E i j → und E i j = 0 := by
    intro hj
    by_contra hne
    exact hj (und_pos hne)
  refine ⟨?_, h0⟩
  intro hj
  by_contra hne
  have hpos : und E i j ≠ 0 := by
    unfold und
    rcases hj with hj | hj
    · have := List.one_le_count_iff.mpr hj; omega
    · have := List.one_le_count_iff.mpr hj; omega
  have h2 : 2 ≤ und E i j := by omega
  obtain ⟨e, he, hee⟩ : ∃ e ∈ E, e = (i, j) ∨ e = (j, i) := by
    rcases hj with hj | hj
    · exact ⟨_, hj, Or.inl rfl⟩
    · exact ⟨_, hj, Or.inr rfl⟩
  have hij : i ≠ j := by
    have := (h.ends e he).2.2
    rcases hee with rfl | rfl
    · exact this
    · exact this.symm
  have hperm : E.Perm (e :: E.erase e) := List.perm_cons_erase he
  have hund : ∀ a b, und E a b = und [e] a b + und (E.erase e) a b := by
    intro a b
    rw [← und_cons]
    unfold und
    rw [hperm.count_eq, hperm.count_eq]
  have h1 : ∀ a b, und [e] a b ≤ 1 ∧ (und [e] a b ≠ 0 → (a = i ∧ b = j) ∨ (a = j ∧ b = i)) := by
    intro a b
    rcases hee with rfl | rfl
    all_goals
      rw [und_single]
      by_cases p1 : a = i ∧ b = j
      · have p2 : ¬ (a = j ∧ b = i) := fun hc => hij (p1.1.symm.trans hc.1)
        simp [p1, p2]
        tauto
      · by_cases p2 : a = j ∧ b = i
        · simp [p1, p2]
          tauto
        · simp [p1, p2]
  have hmono : ∀ a b, Joined E a b → Joined (E.erase e) a b := by
    intro a b hab
    apply und_pos
    have hu := hund a b
    have hab' : und E a b ≠ 0 := by
      unfold und
      rcases hab with hj | hj
      · have := List.one_le_count_iff.mpr hj; omega
      · have := List.one_le_count_iff.mpr hj; omega
    by_cases hz : und [e] a b = 0
    · omega
    · have hu2 : 2 ≤ und E a b := by
        rcases (h1 a b).2 hz with ⟨rfl, rfl⟩ | ⟨rfl, rfl⟩
        · exact h2
        · rw [und_comm]; exact h2
      have := (h1 a b).1
      omega
  have hconn : Connects (E.erase e) (List.range n) := by
    intro a ha b hb
    exact Relation.ReflTransGen.mono hmono _ _ (h.conn a ha b hb)
  have hlen := connects_length hn (F := E.erase e)
    (fun f hf => spanning_valid h f (List.mem_of_mem_erase hf)) hconn
  have hcount := h.count
  rw [List.length_range] at hcount
  rw [List.length_erase_of_mem he] at hlen
  have : 0 < E.length := List.length_pos_of_mem he
  omega

/-- entries of a matrix along a closed walk without repetitions -/
theorem closed_walk_entry {m : Mat (XNum K)} {c : Nat → Nat → K} (hm : Rep m c) {p : List Nat} {a : Nat}
    (hlt : ∀ x ∈ p, x < m.dim) (hnd : p.Nodup) (hl : m.dim = 1 ∨ 2 ≤ p.length) (ha : p.head? = some a)
    {e : Nat × Nat} (he : e ∈ pairs (p ++ [a])) : m.entry e.1 e.2 = .ok (fin (c e.1 e.2)) := by
  obtain ⟨t, rfl⟩ : ∃ t, p = a :: t := by
    cases p with
    | nil => simp at ha
    | cons x t => simp at ha; exact ⟨t, by rw [ha]⟩
  by_cases ht : t = []
  · subst ht
    have h1 : m.dim = 1 := hl.resolve_right (by simp)
    have ha0 : a = 0 := by
      have := hlt a (by simp)
      omega
    subst ha0
    simp [pairs] at he
    subst he
    rw [entry_ok (by omega) (by omega), hm.single h1]
  · have hv : ∀ x ∈ a :: t ++ [a], x < m.dim := by
      intro x hx
      apply hlt
      simp only [List.cons_append, List.mem_cons, List.mem_append, List.not_mem_nil, or_false] at hx ⊢
      tauto
    obtain ⟨h1, h2⟩ := mem_pairs he
    refine hm.entry (hv _ h1) (hv _ h2) ?_
    obtain ⟨T, b, rfl⟩ : ∃ T b, t = T ++ [b] :=
      ⟨t.dropLast, t.getLast ht, (List.dropLast_append_getLast ht).symm⟩
    have e1 : a :: (T ++ [b]) ++ [a] = (a :: T) ++ b :: [a] := by simp
    rw [e1, pairs_append] at he
    rcases List.mem_append.mp he with he | he
    · exact pairs_ne (p := a :: T ++ [b]) (by simpa using hnd) he
    · simp [pairs] at he
      subst he
      rintro (rfl : b = a)
      simp at hnd

theorem closed_walk_costs {m : Mat (XNum K)} {c : Nat → Nat → K} (hm : Rep m c) {p : List Nat} {a : Nat}
    (hlt : ∀ x ∈ p, x < m.dim) (hnd : p.Nodup) (hl : m.dim = 1 ∨ 2 ≤ p.length) (ha : p.head? = some a) :
    ∃ cs, ((p ++ [a]).zip (p ++ [a]).tail).mapM (fun e => m.entry e.1 e.2) = .ok cs ∧
      FloatOps.sum cs = fin (tourCost c p) := by
  refine ⟨_, mapM_ok (g := fun e => fin (c e.1 e.2)) ?_, ?_⟩
  · intro e he
    exact closed_walk_entry hm hlt hnd hl ha he
  · rw [sum_fin _ (by
      intro x hx
      obtain ⟨e, _, rfl⟩ := List.mem_map.mp hx
      exact ⟨_, rfl⟩)]
    congr 1
    have h1 : (((p ++ [a]).zip (p ++ [a]).tail).map fun e => fin (c e.1 e.2)).map XNum.toK =
        (pairs (p ++ [a])).map fun e => c e.1 e.2 := by
      simp [pairs, Function.comp_def, XNum.toK]
    rw [h1]
    have h2 := edgesCost_pairs c (p ++ [a])
    unfold edgesCost at h2
    rw [h2]
    cases p with
    | nil => simp at ha
    | cons x t =>
      simp at ha
      subst ha
      rfl

theorem tour_long {n : Nat} {p : List Nat} (hp : IsTour n p) (hne : p ≠ []) : n = 1 ∨ 2 ≤ p.length := by
  have h1 := hp.length
  have h2 := List.length_pos_of_ne_nil hne
  omega

theorem closed_costs {m : Mat (XNum K)} {c : Nat → Nat → K} (hm : Rep m c) {p : List Nat} {a : Nat}
    (hp : IsTour m.dim p) (ha : p.head? = some a) :
    ∃ cs, ((p ++ [a]).zip (p ++ [a]).tail).mapM (fun e => m.entry e.1 e.2) = .ok cs ∧
      FloatOps.sum cs = fin (tourCost c p) :=
  closed_walk_costs hm (fun _ hx => hp.mem.mp hx) hp.nodup
    (tour_long hp (by rintro rfl; simp at ha)) ha

/-- the end of Christofides' algorithm on a connected symmetric multigraph -/
theorem christofidesTail_ok {m : Mat (XNum K)} {c : Nat → Nat → K} (hm : Rep m c) {g : MGraph (XNum K)}
    (hdim : g.dim = m.dim) (hn : 1 ≤ m.dim)
    (hs : ∀ i j, i < g.dim → j < g.dim → g.times i j = g.times j i)
    (hd : ∀ i, i < g.dim → Even (g.times i i)) (hc : g.Connected) (dbg : Bool) :
    ∃ walk p, eulerianCycle dbg g = .ok walk ∧ p = firstOcc [] walk ∧
      christofidesTail dbg m g = .ok (fin (tourCost c p), p ++ [0]) ∧ IsTour m.dim p ∧ p.head? = some 0 ∧
      walk.head? = some 0 ∧ ∀ x ∈ walk, x < m.dim := by
  obtain ⟨walk, h1, h2, h3⟩ := eulerianCycle_ok dbg hs hd (by omega) hc
  obtain ⟨t, rfl⟩ : ∃ t, walk = 0 :: t := by
    cases walk with
    | nil => simp at h3
    | cons x t => simp at h3; exact ⟨t, by rw [h3]⟩
  have hp : IsTour m.dim (firstOcc [] (0 :: t)) := by
    rw [isTour_iff]
    refine ⟨firstOcc_nodup _ _, fun i => ?_⟩
    rw [mem_firstOcc, h2, hdim]
    simp
  have hhead : (firstOcc [] (0 :: t)).head? = some 0 := by simp [firstOcc]
  obtain ⟨cs, k1, k2⟩ := closed_costs hm hp hhead
  refine ⟨_, _, h1, rfl, ?_, hp, hhead, h3, fun x hx => by rw [← hdim]; exact (h2 x).mp hx⟩
  unfold christofidesTail
  rw [h1, rm_bind_ok, hamiltonian_ok (fun x hx => by rw [← hdim]; exact (h2 x).mp hx), rm_bind_ok, k1,
    rm_bind_ok, (isHamiltonianCycle_closed (List.mem_of_head? hhead)).mpr hp, k2]
  simp

/-- A multigraph made of a spanning tree and a matching is connected and symmetric. -/
theorem union_ok {n : Nat} {E M : List (Nat × Nat)} (hE : IsSpanningTree (List.range n) E)
    {α : Type} [FloatOps α] {g : MGraph α} (hdim : g.dim = n)
    (ht : ∀ i j, i < n → j < n → (Joined E i j → g.times i j = 1 + und M i j) ∧
      (¬ Joined E i j → g.times i j = und M i j)) :
    (∀ i j, i < g.dim → j < g.dim → g.times i j = g.times j i) ∧
    (∀ i, i < g.dim → Even (g.times i i)) ∧ g.Connected := by
  subst hdim
  refine ⟨?_, ?_, ?_⟩
  · intro i j hi hj
    by_cases hJ : Joined E i j
    · rw [(ht i j hi hj).1 hJ, (ht j i hj hi).1 (joined_comm.mp hJ), und_comm]
    · rw [(ht i j hi hj).2 hJ, (ht j i hj hi).2 (fun h => hJ (joined_comm.mp h)), und_comm]
  · intro i hi
    have hJ : ¬ Joined E i i := by
      rintro (h | h)
      · exact (hE.ends _ h).2.2 rfl
      · exact (hE.ends _ h).2.2 rfl
    rw [(ht i i hi hi).2 hJ]
    exact ⟨_, rfl⟩
  · intro j hj
    have h := hE.conn 0 (by simp; omega) j (by simpa using hj)
    refine Relation.ReflTransGen.mono ?_ _ _ h
    intro a b hab
    have hv : a < g.dim ∧ b < g.dim := by
      rcases hab with h | h
      · exact spanning_valid hE _ h
      · exact (spanning_valid hE _ h).symm
    refine ⟨hv.1, hv.2, ?_⟩
    rw [(ht a b hv.1 hv.2).1 hab]
    omega

theorem fillSeq_ok {α : Type} [FloatOps α] {n : Nat} {m : Mat α} (hn : m.dim = n) {E M : List (Nat × Nat)}
    {mst : Graph α} (h : AdjOf n E mst) (hE : Valid n E) (hM : Valid n M) :
    ∃ g, fillSeq m mst M = .ok g ∧ g.dim = n ∧
      ∀ i j, i < n → j < n → (Joined E i j → g.times i j = 1 + und M i j) ∧
        (¬ Joined E i j → g.times i j = und M i j) := by
  obtain ⟨g1, a1, a2, a3⟩ := fillMstSeq_ok hn h hE
  obtain ⟨g2, b1, b2, b3⟩ := fillMatchingSeq_ok hM a2
  refine ⟨g2, ?_, b2, ?_⟩
  · unfold fillSeq
    rw [a1, rm_bind_ok, b1]
  · intro i j hi hj
    refine ⟨fun hJ => ?_, fun hJ => ?_⟩
    · rw [b3, (a3 i j hi hj).1 hJ]
    · rw [b3, (a3 i j hi hj).2 hJ, Nat.zero_add]

theorem fillPar_ok {α : Type} [FloatOps α] {n : Nat} {m : Mat α} (hn : m.dim = n) {E M : List (Nat × Nat)}
    {mst : Graph α} (h : AdjOf n E mst) (hE : Valid n E) (hM : NoRepeat M) {order : List Nat}
    (ho : order.Perm (List.range n)) {g : MGraph α} (hg : FillPar order m mst M g) :
    g.dim = n ∧ ∀ i j, i < n → j < n → (Joined E i j → g.times i j = 1 + und M i j) ∧
        (¬ Joined E i j → g.times i j = und M i j) := by
  obtain ⟨g1, a1, a2, a3⟩ := fillMstPar_ok hn h hE ho
  obtain ⟨g1', k1, k2⟩ := hg
  rw [a1] at k1
  injection k1 with k1
  subst k1
  obtain ⟨b1, b2⟩ := fillMatchingPar_ok hM k2
  refine ⟨b1.trans a2, ?_⟩
  intro i j hi hj
  refine ⟨fun hJ => ?_, fun hJ => ?_⟩
  · rw [b2, (a3 i j hi hj).1 hJ]
  · rw [b2, (a3 i j hi hj).2 hJ, Nat.zero_add]

/-- `christofides_generic` up to the multigraph, with any matching of cities -/
theorem christofidesGeneric_eq {m : Mat (XNum K)} {c : Nat → Nat → K}
    {dbg : Bool} (hdbg : dbg = true → m.isMetric = true) {mst : Graph (XNum K)} {E : List (Nat × Nat)}
    (h1 : primSeq m [] = .ok mst) (h2 : IsSpanningTree (List.range m.dim) E) (h3 : GraphOf m.dim c E mst)
    {matcher : Graph (XNum K) → Mat (XNum K) → RM (List (Nat × Nat))} {M : List (Nat × Nat)}
    (h4 : matcher mst m = .ok M) (hM : Valid m.dim M) :
    ∃ g : MGraph (XNum K), g.dim = m.dim ∧
      (∀ i j, i < m.dim → j < m.dim → (Joined E i j → g.times i j = 1 + und M i j) ∧
        (¬ Joined E i j → g.times i j = und M i j)) ∧
      christofidesGeneric dbg m matcher = christofidesTail dbg m g := by
  obtain ⟨g, a1, a2, a3⟩ := fillSeq_ok rfl h3.adjOf (spanning_valid h2) hM
  refine ⟨g, a2, a3, ?_⟩
  unfold christofidesGeneric
  have : (dbg && !m.isMetric) = false := by
    cases dbg
    · rfl
    · simp [hdbg rfl]
  rw [this]
  simp only [Bool.false_eq_true, if_false]
  rw [h1, rm_bind_ok, h4, rm_bind_ok, a1, rm_bind_ok]

/-- `christofides_generic` in mode PAR up to the multigraph, with a matching without repeated edges -/
theorem christofidesGenericPar_eq {m : Mat (XNum K)} {c : Nat → Nat → K}
    {dbg : Bool} (hdbg : dbg = true → m.isMetric = true) {mst : Graph (XNum K)} {E : List (Nat × Nat)}
    (h1 : primSeq m [] = .ok mst) (h2 : IsSpanningTree (List.range m.dim) E) (h3 : GraphOf m.dim c E mst)
    {matcher : Graph (XNum K) → Mat (XNum K) → RM (List (Nat × Nat))} {M : List (Nat × Nat)}
    (h4 : matcher mst m = .ok M) (hM : NoRepeat M) {s : ParSched (XNum K)} (hs : s.Ok) :
    (∃ res, ChristofidesGenericPar dbg m matcher s res) ∧
    ∀ res, ChristofidesGenericPar dbg m matcher s res → ∃ g : MGraph (XNum K), g.dim = m.dim ∧
      (∀ i j, i < m.dim → j < m.dim → (Joined E i j → g.times i j = 1 + und M i j) ∧
        (¬ Joined E i j → g.times i j = und M i j)) ∧
      res = christofidesTail dbg m g := by
  have hlen : min mst.length m.dim = m.dim := by rw [h3.len]; exact min_self _
  obtain ⟨g0, a1, a2, a3⟩ := fillMstPar_ok rfl h3.adjOf (spanning_valid h2) (hs.columns m.dim)
  have hdb : (dbg && !m.isMetric) = false := by
    cases dbg
    · rfl
    · simp [hdbg rfl]
  have hprim : primPar s.shape s.update m [] = .ok mst := by
    rw [Props.C30_par_eq_seq strictWeak_olt s.shape s.update hs.shape hs.update, h1]
  have hiff : ∀ res, ChristofidesGenericPar dbg m matcher s res ↔
      ∃ g, FillMatchingPar g0 M g ∧ res = christofidesTail dbg m g := by
    intro res
    unfold ChristofidesGenericPar
    rw [hdb, hprim]
    simp only [Bool.false_eq_true, if_false, h4, hlen, a1]
  refine ⟨?_, ?_⟩
  · obtain ⟨g, hg⟩ := fillMatchingPar_exists g0 M
    exact ⟨_, (hiff _).mpr ⟨g, hg, rfl⟩⟩
  · intro res hres
    obtain ⟨g, hg, rfl⟩ := (hiff res).mp hres
    obtain ⟨b1, b2⟩ := fillPar_ok rfl h3.adjOf (spanning_valid h2) hM (hs.columns m.dim) ⟨g0, a1, hg⟩
    exact ⟨g, b1, b2, rfl⟩

/-- the end of Christofides' algorithm on the union of a spanning tree with any edges -/
theorem tail_tour {m : Mat (XNum K)} {c : Nat → Nat → K} (hm : Rep m c) (hn : 1 ≤ m.dim)
    {E : List (Nat × Nat)} (h2 : IsSpanningTree (List.range m.dim) E)
    {M : List (Nat × Nat)} {g : MGraph (XNum K)}
    (a2 : g.dim = m.dim) (a1 : ∀ i j, i < m.dim → j < m.dim → (Joined E i j → g.times i j = 1 + und M i j) ∧
        (¬ Joined E i j → g.times i j = und M i j)) (dbg : Bool) :
    ∃ p, christofidesTail dbg m g = .ok (fin (tourCost c p), p ++ [0]) ∧ IsTour m.dim p ∧
      p.head? = some 0 := by
  obtain ⟨b1, b2, b3⟩ := union_ok h2 a2 a1
  obtain ⟨walk, p, a3, a4, a5, a6, a7, _⟩ := christofidesTail_ok hm a2 hn b1 b2 b3 dbg
  exact ⟨p, a5, a6, a7⟩

/-! ## debug builds -/

theorem eulerLoop_head {α : Type} [FloatOps α] {dbg : Bool} (a : Nat) : ∀ (fuel : Nat) (g : MGraph α) (deg walk w : List Nat),
    walk.head? = some a → eulerLoop dbg fuel g deg walk = .ok w → w.head? = some a := by
  intro fuel
  induction fuel with
  | zero => intro g deg walk w _ h; simp [eulerLoop] at h
  | succ fuel ih =>
    intro g deg walk w ha h
    unfold eulerLoop at h
    cases ho : findOpen deg walk 0 with
    | error e => rw [ho] at h; simp at h
    | ok o =>
      rw [ho, rm_bind_ok] at h
      cases o with
      | none =>
        simp only [rm_pure] at h
        injection h with h
        rw [← h]; exact ha
      | some kv =>
        obtain ⟨k, v⟩ := kv
        simp only at h
        cases hc : findCycle dbg v g deg with
        | error e => rw [hc] at h; simp at h
        | ok r =>
          obtain ⟨cyc, g', deg'⟩ := r
          rw [hc, rm_bind_ok] at h
          refine ih g' deg' _ w ?_ h
          cases walk with
          | nil => simp at ha
          | cons x t => simpa using ha

theorem firstVisits_valid : ∀ (walk : List Nat) (visited flags : List Bool),
    firstVisits visited walk = .ok flags → ∀ x ∈ walk, x < visited.length := by
  intro walk
  induction walk with
  | nil => intro _ _ _ x hx; simp at hx
  | cons a t ih =>
    intro visited flags h
    unfold firstVisits at h
    by_cases ha : a < visited.length
    · rw [idx_lt ha, rm_bind_ok] at h
      by_cases hv : visited[a] = true
      · rw [if_pos hv] at h
        cases hr : firstVisits visited t with
        | error e => rw [hr] at h; simp at h
        | ok r =>
          intro x hx
          rcases List.mem_cons.mp hx with rfl | hx
          · exact ha
          · exact ih visited r hr x hx
      · rw [if_neg hv] at h
        cases hr : firstVisits (visited.set a true) t with
        | error e => rw [hr] at h; simp at h
        | ok r =>
          intro x hx
          rcases List.mem_cons.mp hx with rfl | hx
          · exact ha
          · have := ih _ r hr x hx
            simpa using this
    · have : idx visited a = .error .index := by
        unfold idx
        rw [List.getElem?_eq_none (by omega)]
      rw [this] at h
      simp at h

/-- In debug builds every returned solution is a truthful Hamiltonian cycle, whatever the
multigraph. -/
theorem christofidesTail_debug {m : Mat (XNum K)} {c : Nat → Nat → K} (hm : Rep m c) {g : MGraph (XNum K)}
    {sol : Solution (XNum K)} (h : christofidesTail true m g = .ok sol) :
    ∃ p, sol = (fin (tourCost c p), p ++ [0]) ∧ IsTour m.dim p ∧ p.head? = some 0 := by
  unfold christofidesTail at h
  cases hw : eulerianCycle true g with
  | error e => rw [hw] at h; simp at h
  | ok walk =>
    rw [hw, rm_bind_ok] at h
    have hhead : walk.head? = some 0 := eulerLoop_head 0 _ _ _ _ _ rfl hw
    obtain ⟨t, rfl⟩ : ∃ t, walk = 0 :: t := by
      cases walk with
      | nil => simp at hhead
      | cons x t => simp at hhead; exact ⟨t, by rw [hhead]⟩
    cases hf : firstVisits (List.replicate m.dim false) (0 :: t) with
    | error e =>
      unfold hamiltonianFromEulerian at h
      rw [hf] at h
      simp at h
    | ok flags =>
      have hv : ∀ x ∈ 0 :: t, x < m.dim := by
        have := firstVisits_valid _ _ _ hf
        simpa using this
      rw [hamiltonian_ok hv, rm_bind_ok] at h
      have h0 : (firstOcc [] (0 :: t)).head? = some 0 := by simp [firstOcc]
      by_cases hp : IsTour m.dim (firstOcc [] (0 :: t))
      · obtain ⟨cs, k1, k2⟩ := closed_costs hm hp h0
        rw [k1, rm_bind_ok, (isHamiltonianCycle_closed (List.mem_of_head? h0)).mpr hp, k2] at h
        simp at h
        exact ⟨_, h.symm, hp, h0⟩
      · have hfalse : isHamiltonianCycle (firstOcc [] (0 :: t) ++ [0]) m.dim = false := by
          rw [Bool.eq_false_iff]
          intro hc
          exact hp ((isHamiltonianCycle_closed (List.mem_of_head? h0)).mp hc)
        rw [hfalse] at h
        cases hk : ((firstOcc [] (0 :: t) ++ [0]).zip (firstOcc [] (0 :: t) ++ [0]).tail).mapM
            (fun (e : Nat × Nat) => m.entry e.1 e.2) with
        | error e => rw [hk] at h; simp at h
        | ok cs => rw [hk] at h; simp at h

/-! ## a loop without progress -/

/-- after `k` rounds the first vertex with a positive degree has no edge left -/
def stuckAfter {α : Type} [FloatOps α] (dbg : Bool) : Nat → MGraph α → List Nat → List Nat → Bool
  | 0, g, deg, walk =>
    match findOpen deg walk 0 with
    | .ok (some (_, v)) => decide (v < g.dim) && ((List.range g.dim).find? (fun j => g.times v j != 0)).isNone
    | _ => false
  | k + 1, g, deg, walk =>
    match findOpen deg walk 0 with
    | .ok (some (i, v)) =>
      match findCycle dbg v g deg with
      | .ok (cycle, g', deg') => stuckAfter dbg k g' deg' (walk.take (i + 1) ++ cycle.drop 1 ++ walk.drop (i + 1))
      | .error _ => false
    | _ => false

theorem stuck_forever {α : Type} [FloatOps α] {dbg : Bool} : ∀ (k : Nat) (g : MGraph α) (deg walk : List Nat),
    stuckAfter dbg k g deg walk = true → ∀ fuel, eulerLoop dbg fuel g deg walk = .error .fuel := by
  intro k
  induction k with
  | zero =>
    intro g deg walk h fuel
    induction fuel with
    | zero => rfl
    | succ fuel ih =>
      unfold stuckAfter at h
      unfold eulerLoop
      cases ho : findOpen deg walk 0 with
      | error e => rw [ho] at h; simp at h
      | ok o =>
        cases o with
        | none => rw [ho] at h; simp at h
        | some iv =>
          obtain ⟨i, v⟩ := iv
          rw [ho] at h
          simp only [Bool.and_eq_true, decide_eq_true_eq, Option.isNone_iff_eq_none] at h
          have hc : findCycle dbg v g deg = .ok ([v], g, deg) := by
            obtain ⟨k, hk⟩ := Nat.exists_eq_succ_of_ne_zero
              (Nat.add_pos_left vecLimit_pos deg.sum).ne'
            unfold findCycle
            rw [hk, findCycleLoop, if_pos h.1, h.2]
          rw [rm_bind_ok]
          simp only [hc, rm_bind_ok, List.drop_succ_cons, List.drop_zero, List.append_nil,
            List.take_append_drop]
          exact ih
  | succ k ih =>
    intro g deg walk h fuel
    cases fuel with
    | zero => rfl
    | succ fuel =>
      unfold stuckAfter at h
      unfold eulerLoop
      cases ho : findOpen deg walk 0 with
      | error e => rw [ho] at h; simp at h
      | ok o =>
        cases o with
        | none => rw [ho] at h; simp at h
        | some iv =>
          obtain ⟨i, v⟩ := iv
          rw [ho] at h
          simp only at h
          cases hc : findCycle dbg v g deg with
          | error e => rw [hc] at h; simp at h
          | ok r =>
            obtain ⟨cyc, g', deg'⟩ := r
            rw [hc] at h
            rw [rm_bind_ok]
            simp only [hc, rm_bind_ok]
            exact ih _ _ _ h fuel

/-! ## MPI -/

theorem mpiBest_mem {α : Type} [FloatOps α] : ∀ (others : List (α × List (Nat × Nat))) (root : α × List (Nat × Nat)),
    mpiBest root others ∈ root :: others := by
  intro others
  induction others with
  | nil => intro root; simp [mpiBest]
  | cons o others ih =>
    intro root
    have := ih (if o.1 <ᶠ root.1 then o else root)
    unfold mpiBest at this ⊢
    rw [List.foldl_cons]
    rcases List.mem_cons.mp this with h | h
    · rw [h]
      split <;> simp
    · simp [h]

theorem mpiBest_le {f : List (Nat × Nat) → K} : ∀ (others : List (XNum K × List (Nat × Nat)))
    (root : XNum K × List (Nat × Nat)), (∀ x ∈ root :: others, x.1 = fin (f x.2)) →
    ∀ x ∈ root :: others, f (mpiBest root others).2 ≤ f x.2 := by
  intro others
  induction others with
  | nil => intro root _ x hx; simp at hx; subst hx; exact le_refl _
  | cons o others ih =>
    intro root h x hx
    have hr := h root (by simp)
    have ho := h o (by simp)
    have key := ih (if o.1 <ᶠ root.1 then o else root) (by
      intro y hy
      rcases List.mem_cons.mp hy with rfl | hy
      · split
        · exact ho
        · exact hr
      · exact h y (by simp [hy]))
    have e : mpiBest root (o :: others) = mpiBest (if o.1 <ᶠ root.1 then o else root) others := by
      simp [mpiBest]
    rw [e]
    have hfirst := key _ (List.mem_cons_self ..)
    have hmin : f (if o.1 <ᶠ root.1 then o else root).2 ≤ f root.2 ∧
        f (if o.1 <ᶠ root.1 then o else root).2 ≤ f o.2 := by
      rw [hr, ho, lt_fin]
      by_cases hlt : f o.2 < f root.2
      · simp [hlt, le_of_lt hlt]
      · simp [hlt, not_lt.mp hlt]
    rcases List.mem_cons.mp hx with rfl | hx
    · exact hfirst.trans hmin.1
    · rcases List.mem_cons.mp hx with rfl | hx
      · exact hfirst.trans hmin.2
      · exact key x (by simp [hx])

/-- the run of all ranks -/
theorem mpiImproveMatching_ok {α : Type} [FloatOps α] {m : Mat α}
    {shufs : Nat → Nat → List (Nat × Nat) → List (Nat × Nat)} (hsh : ∀ r k l, (shufs r k l).Perm l)
    {size tries : Nat} (hsize : 1 ≤ size) {l : List (Nat × Nat)} (hl : Valid m.dim l) (hne : l ≠ [])
    {cost : List (Nat × Nat) → α} (hcost : ∀ l', Valid m.dim l' → matchingCost m l' = .ok (cost l')) :
    ∃ root others, (List.range size).map (fun k => (cost (impRun m (shufs k) tries l), impRun m (shufs k) tries l)) =
        root :: others ∧
      mpiImproveMatching m shufs size tries l = .ok (List.replicate size (mpiBest root others).2) := by
  have hlocal : (List.range size).mapM (fun k => do
      let l' ← improveMatching m (shufs k) tries l
      let cost ← matchingCost m l'
      if k ≠ 0 ∧ l'.isEmpty then (.error .index : RM (α × List (Nat × Nat)))
      else return (cost, l')) = .ok ((List.range size).map fun k =>
        (cost (impRun m (shufs k) tries l), impRun m (shufs k) tries l)) := by
    apply mapM_ok
    intro k _
    rw [improveMatching_eq (hsh k) hl, rm_bind_ok, hcost _ (impRun_valid (hsh k) hl), rm_bind_ok]
    have : (impRun m (shufs k) tries l).isEmpty = false := by
      have h1 := (impRun_mem (m := m) (hsh k) (tries := tries) (l := l)).1
      cases h2 : impRun m (shufs k) tries l with
      | nil =>
        rw [h2] at h1
        exact absurd (List.length_eq_zero_iff.mp h1.symm) hne
      | cons _ _ => rfl
    simp [this]
  cases hr : (List.range size).map (fun k => (cost (impRun m (shufs k) tries l), impRun m (shufs k) tries l)) with
  | nil =>
    have := congrArg List.length hr
    simp at this
    omega
  | cons root others =>
    refine ⟨root, others, rfl, ?_⟩
    unfold mpiImproveMatching
    have : l.isEmpty = false := by
      cases l with
      | nil => exact absurd rfl hne
      | cons _ _ => rfl
    rw [this]
    rw [hr] at hlocal
    simp only [Bool.false_eq_true, if_false]
    rw [hlocal]
    simp only [rm_bind_ok, rm_pure, pairUp_flatten]
    congr 1
    rw [List.map_const', List.length_range]

theorem approxMatchingSeq_ok {α : Type} [FloatOps α] {m : Mat α} {r : MatchRng} (hr : r.Ok) {V : List Nat}
    (hV : ∀ v ∈ V, v < m.dim) (tries : Nat) :
    ∃ M, approxMatchingSeq m r V tries = .ok M ∧ Valid m.dim M ∧ M.length = V.length / 2 ∧
      (∀ v ∈ ends M, v ∈ V) ∧ M = impRun m r.edges tries (pairUp (r.vertices V)) := by
  have hsub : ∀ v ∈ flattenEdges (pairUp (r.vertices V)), v ∈ V := fun v hv =>
    (hr.vertices V).mem_iff.mp ((flatten_pairUp_sublist _).subset hv)
  have hvalid : Valid m.dim (pairUp (r.vertices V)) := valid_iff.mpr fun v hv => hV v (hsub v hv)
  refine ⟨_, improveMatching_eq hr.edges hvalid, impRun_valid hr.edges hvalid, ?_, ?_, rfl⟩
  · rw [(impRun_mem hr.edges).1, length_pairUp, (hr.vertices V).length_eq]
  · intro v hv
    exact hsub v ((impRun_mem hr.edges).2 v hv)

theorem approxMatchingPar_eq {α : Type} [FloatOps α] {m : Mat α} {r : MatchRng} (hr : r.Ok) {V : List Nat}
    (hV : ∀ v ∈ V, v < m.dim) {order : Nat → Nat → List Nat}
    (ho : ∀ k n, (order k n).Perm (List.range n)) (tries : Nat) :
    approxMatchingPar m r order V tries = approxMatchingSeq m r V tries := by
  apply parImproveMatching_eq hr.edges ho
  apply valid_iff.mpr
  intro v hv
  exact hV v ((hr.vertices V).mem_iff.mp ((flatten_pairUp_sublist _).subset hv))

theorem oddSet_lt {n : Nat} {E : List (Nat × Nat)} : ∀ v ∈ oddSet n E, v < n := fun _ hv => (mem_oddSet.mp hv).1

theorem perfect_of_even {α : Type} [FloatOps α] {m : Mat α} {r : MatchRng} (hr : r.Ok) {V : List Nat}
    (hlen : V.length % 2 = 0) (hV : ∀ v ∈ V, v < m.dim) {tries : Nat}
    (h : NoBug m ∨ V.length ≤ 3) {M : List (Nat × Nat)} (hM : approxMatchingSeq m r V tries = .ok M) :
    PerfectMatching V M := by
  obtain ⟨M', k1, _, _, _, k2⟩ := approxMatchingSeq_ok (m := m) hr hV tries
  rw [k1] at hM
  injection hM with hM
  subst hM
  have hl : (r.vertices V).length % 2 = 0 := by rw [(hr.vertices V).length_eq]; exact hlen
  have hfl : (flattenEdges (pairUp (r.vertices V))).Perm V := by
    rw [flatten_pairUp _ hl]; exact hr.vertices V
  have hvalid : Valid m.dim (pairUp (r.vertices V)) := valid_iff.mpr fun v hv => hV v (hfl.mem_iff.mp hv)
  show (flattenEdges M').Perm V
  rw [k2]
  rcases h with h | h
  · exact (impRun_perm h hr.edges hvalid).trans hfl
  · have : (pairUp (r.vertices V)).length ≤ 1 := by
      rw [length_pairUp, (hr.vertices V).length_eq]; omega
    unfold impRun
    rw [if_pos this]
    exact hfl

/-- perfect matchings have no repeated edge -/
theorem noRepeat_of_nodup {M : List (Nat × Nat)} (h : (flattenEdges M).Nodup) : NoRepeat M := by
  induction M with
  | nil => exact List.Pairwise.nil
  | cons e M ih =>
    rw [flatten_cons, List.nodup_cons, List.nodup_cons] at h
    refine List.pairwise_cons.mpr ⟨?_, ih h.2.2⟩
    intro f hf
    have h1 : e.1 ∉ flattenEdges M := fun hx => h.1 (by simp [hx])
    refine ⟨?_, ?_⟩
    · rintro rfl
      exact h1 (mem_flatten.mpr ⟨f, hf, Or.inl rfl⟩)
    · rintro rfl
      exact h1 (mem_flatten.mpr ⟨_, hf, Or.inr rfl⟩)

/-! ## costs -/

/-- The cost of an edge set depends on the multiplicities only. -/
theorem edgeSum_und {n : Nat} {c : Nat → Nat → K} (hsym : Symm n c) {L L' : List (Nat × Nat)}
    (hL : Valid n L) (hL' : Valid n L') (h : ∀ i j, i < n → j < n → und L i j = und L' i j) :
    edgeSum c L = edgeSum c L' := by
  have key : ∀ L : List (Nat × Nat), Valid n L → edgeSum c (L ++ L.map Prod.swap) = 2 * edgeSum c L := by
    intro L hL
    rw [edgeSum_append, edgeSum_swap]
    have : (L.map fun p => c p.2 p.1).sum = edgeSum c L := by
      unfold edgeSum
      congr 1
      apply List.map_congr_left
      intro e he
      exact hsym _ _ (hL e he).2 (hL e he).1
    rw [this]
    ring
  have hcount : ∀ (L : List (Nat × Nat)) (i j : Nat), (L ++ L.map Prod.swap).count (i, j) = und L i j := by
    intro L i j
    rw [List.count_append]
    unfold und
    congr 1
    exact List.count_map_of_injective L Prod.swap Prod.swap_injective (j, i)
  have hperm : (L ++ L.map Prod.swap).Perm (L' ++ L'.map Prod.swap) := by
    rw [List.perm_iff_count]
    rintro ⟨i, j⟩
    rw [hcount, hcount]
    by_cases hij : i < n ∧ j < n
    · exact h i j hij.1 hij.2
    · have hz : ∀ L : List (Nat × Nat), Valid n L → und L i j = 0 := by
        intro L hL
        by_contra hne
        rcases und_pos hne with h | h
        · exact hij (hL _ h)
        · exact hij (hL _ h).symm
      rw [hz L hL, hz L' hL']
  have h1 := key L hL
  have h2 := key L' hL'
  rw [edgeSum_perm c hperm] at h1
  have : 2 * edgeSum c L = 2 * edgeSum c L' := h1.symm.trans h2
  exact mul_left_cancel₀ two_ne_zero this

/-- a closed walk visits no more than it has to after shortcutting -/
theorem tourCost_firstOcc {n : Nat} {c : Nat → Nat → K} (hc : Metric n c) {a : Nat} {walk : List Nat}
    (h1 : walk.head? = some a) (h2 : walk.getLast? = some a) (hv : ∀ x ∈ walk, x < n) :
    tourCost c (firstOcc [] walk) ≤ pathCost c walk := by
  have hhead : ∀ t, tourCost c (firstOcc [] (a :: t)) = pathCost c (firstOcc [] (a :: t) ++ [a]) := by
    intro t
    simp [firstOcc, tourCost]
  have hne : walk ≠ [] := by rintro rfl; simp at h1
  obtain ⟨W, rfl⟩ : ∃ W, walk = W ++ [a] := by
    refine ⟨walk.dropLast, ?_⟩
    have : walk.getLast hne = a := by
      rw [List.getLast?_eq_some_getLast hne] at h2
      exact Option.some.inj h2
    rw [← this]
    exact (List.dropLast_append_getLast hne).symm
  by_cases hW : W = []
  · subst hW
    have : a < n := hv a (by simp)
    simp [firstOcc, tourCost, hc.diag a this]
  · have hWh : W.head? = some a := by
      rw [List.head?_append] at h1
      cases W with
      | nil => exact absurd rfl hW
      | cons x W => simpa using h1
    obtain ⟨t, rfl⟩ : ∃ t, W = a :: t := by
      cases W with
      | nil => exact absurd rfl hW
      | cons x t => simp at hWh; exact ⟨t, by rw [hWh]⟩
    have hsub := shortcut_sublist hWh
    have := pathCost_shortcut hc hsub hv
    rw [List.cons_append] at this ⊢
    rw [hhead]
    exact this

/-- the cost of the result on the multigraph of a spanning tree and further edges, if all degrees are
even -/
theorem tail_cost_even {m : Mat (XNum K)} {c : Nat → Nat → K} (hm : Rep m c) (hn : 1 ≤ m.dim)
    (hmet : Metric m.dim c) {E : List (Nat × Nat)} (h2 : IsSpanningTree (List.range m.dim) E)
    {M : List (Nat × Nat)} (hval : Valid m.dim M)
    (hdeg : ∀ i < m.dim, Even ((flattenEdges (E ++ M)).count i)) {g : MGraph (XNum K)}
    (a2 : g.dim = m.dim) (a1 : ∀ i j, i < m.dim → j < m.dim → (Joined E i j → g.times i j = 1 + und M i j) ∧
        (¬ Joined E i j → g.times i j = und M i j)) (dbg : Bool) :
    ∃ p, christofidesTail dbg m g = .ok (fin (tourCost c p), p ++ [0]) ∧ IsTour m.dim p ∧
      p.head? = some 0 ∧ tourCost c p ≤ edgeSum c E + edgeSum c M := by
  obtain ⟨b1, b2, b3⟩ := union_ok h2 a2 a1
  obtain ⟨walk, p, a3, a4, a5, a6, a7, a8, a9⟩ := christofidesTail_ok hm a2 hn b1 b2 b3 dbg
  refine ⟨p, a5, a6, a7, ?_⟩
  have hEM : Valid m.dim (E ++ M) := by
    intro e he
    rcases List.mem_append.mp he with he | he
    · exact spanning_valid h2 e he
    · exact hval e he
  have ht : ∀ i j, i < m.dim → j < m.dim → g.times i j = und (E ++ M) i j := by
    intro i j hi hj
    rw [und_append]
    by_cases hJ : Joined E i j
    · rw [(a1 i j hi hj).1 hJ, (spanning_und hn h2 i j).1 hJ]
    · rw [(a1 i j hi hj).2 hJ, (spanning_und hn h2 i j).2 hJ, Nat.zero_add]
  have heven : ∀ i < g.dim, Even (g.rowSum i) := by
    intro i hi
    have hr : g.rowSum i = (flattenEdges (E ++ M)).count i := by
      rw [← sum_und hEM i]
      unfold MGraph.rowSum
      rw [a2]
      exact Finset.sum_congr rfl fun j hj => ht i j (by omega) (by simpa using hj)
    rw [hr]
    exact hdeg i (by omega)
  obtain ⟨walk', k1, k2, k3, k4, k5⟩ := eulerianCycle_even dbg b1 b2 (by omega) b3 heven
  rw [a3] at k1
  injection k1 with k1
  subst k1
  have hwv : Valid m.dim (pairs walk) := fun e he => ⟨a9 _ (mem_pairs he).1, a9 _ (mem_pairs he).2⟩
  have hcost : edgeSum c (pairs walk) = edgeSum c (E ++ M) := by
    apply edgeSum_und hmet.symm hwv hEM
    intro i j hi hj
    rw [k5 i j (by omega) (by omega), ht i j hi hj]
  rw [a4]
  refine (tourCost_firstOcc hmet k3 k4 a9).trans ?_
  have : edgeSum c (pairs walk) = pathCost c walk := edgesCost_pairs c walk
  rw [← this, hcost, edgeSum_append]

/-- the cost of the result on the multigraph of a spanning tree and a perfect matching -/
theorem tail_cost {m : Mat (XNum K)} {c : Nat → Nat → K} (hm : Rep m c) (hn : 1 ≤ m.dim)
    (hmet : Metric m.dim c) {E : List (Nat × Nat)} (h2 : IsSpanningTree (List.range m.dim) E)
    {M : List (Nat × Nat)} (hM : PerfectMatching (oddDegree m.dim E) M) {g : MGraph (XNum K)}
    (a2 : g.dim = m.dim) (a1 : ∀ i j, i < m.dim → j < m.dim → (Joined E i j → g.times i j = 1 + und M i j) ∧
        (¬ Joined E i j → g.times i j = und M i j)) (dbg : Bool) :
    ∃ p, christofidesTail dbg m g = .ok (fin (tourCost c p), p ++ [0]) ∧ IsTour m.dim p ∧
      p.head? = some 0 ∧ tourCost c p ≤ edgeSum c E + edgeSum c M := by
  have hval : Valid m.dim M := by
    rw [valid_iff]
    intro v hv
    exact oddSet_lt v (hM.mem_iff.mp hv)
  refine tail_cost_even hm hn hmet h2 hval ?_ a2 a1 dbg
  intro i hi
  rw [flatten_append, List.count_append]
  have hMc : (flattenEdges M).count i = (oddSet m.dim E).count i := hM.count_eq i
  rw [hMc, Nat.even_iff]
  have hnd : (oddSet m.dim E).Nodup := List.nodup_range.filter _
  by_cases hodd : (flattenEdges E).count i % 2 = 1
  · rw [List.count_eq_one_of_mem hnd (mem_oddSet.mpr ⟨by omega, hodd⟩)]
    omega
  · rw [List.count_eq_zero_of_not_mem (fun h => hodd (mem_oddSet.mp h).2)]
    omega

/-- alternating edges of a path -/
theorem alternate (c : Nat → Nat → K) : ∀ (l : List Nat),
    edgeSum c (pairUp l) + edgeSum c (pairUp l.tail) = pathCost c l
  | [] => by simp [pairUp, edgeSum]
  | [_] => by simp [pairUp, edgeSum]
  | a :: b :: t => by
    have := alternate c (b :: t)
    rw [List.tail_cons, pathCost_cons₂, ← this, List.tail_cons]
    rw [pairUp, edgeSum_cons]
    ring

/-- Along every tour there is a perfect matching of any even set of cities of at most half its
length. -/
theorem half_tour {n : Nat} {c : Nat → Nat → K} (hc : Metric n c) {q : List Nat} (hq : IsTour n q)
    {V : List Nat} (hV : V.Nodup) (hVn : ∀ v ∈ V, v < n) (heven : V.length % 2 = 0) :
    ∃ M, PerfectMatching V M ∧ 2 * edgeSum c M ≤ tourCost c q := by
  by_cases hVe : V = []
  · subst hVe
    refine ⟨[], List.Perm.refl _, ?_⟩
    simp only [edgeSum, List.map_nil, List.sum_nil, mul_zero]
    cases q with
    | nil => exact le_refl _
    | cons a t =>
      have h1 : (a :: t ++ [a]).Sublist (a :: t ++ [a]) := List.Sublist.refl _
      have hv : ∀ x ∈ a :: t ++ [a], x < n := by
        intro x hx
        apply hq.mem.mp
        simp only [List.cons_append, List.mem_cons, List.mem_append, List.not_mem_nil, or_false] at hx ⊢
        tauto
      have := pathCost_shortcut hc (List.nil_sublist (a :: t ++ [a])) hv
      simpa [tourCost] using this
  · obtain ⟨v, hv⟩ := List.exists_mem_of_ne_nil V hVe
    obtain ⟨A, B, rfl⟩ := List.append_of_mem (hq.mem.mpr (hVn v hv))
    have hq' : IsTour n ((v :: B) ++ A) := List.perm_append_comm.trans hq
    have hcost : tourCost c (A ++ v :: B) = tourCost c ((v :: B) ++ A) := tourCost_append_comm c A (v :: B)
    have hf : ((v :: B) ++ A).filter (fun x => decide (x ∈ V)) =
        v :: (B ++ A).filter (fun x => decide (x ∈ V)) := by simp [hv]
    set s := (B ++ A).filter (fun x => decide (x ∈ V)) with hs
    have hperm : (v :: s).Perm V := by
      rw [← hf]
      rw [List.perm_ext_iff_of_nodup (hq'.nodup.filter _) hV]
      intro x
      rw [List.mem_filter, hq'.mem]
      simp only [decide_eq_true_eq]
      exact ⟨fun h => h.2, fun h => ⟨hVn x h, h⟩⟩
    have hsub : (v :: s ++ [v]).Sublist (v :: (B ++ A) ++ [v]) :=
      ((List.filter_sublist (l := B ++ A)).cons_cons v).append (List.Sublist.refl _)
    have hvalid : ∀ x ∈ v :: (B ++ A) ++ [v], x < n := by
      intro x hx
      apply hq'.mem.mp
      simp only [List.cons_append, List.mem_cons, List.mem_append, List.not_mem_nil, or_false] at hx ⊢
      tauto
    have hle := pathCost_shortcut hc hsub hvalid
    have hlen : (v :: s).length % 2 = 0 := by rw [hperm.length_eq]; exact heven
    have h1 : flattenEdges (pairUp (v :: s ++ [v])) = v :: s := by
      have : ∀ l : List Nat, l.length % 2 = 0 → ∀ x, pairUp (l ++ [x]) = pairUp l := by
        intro l
        induction l using List.twoStepInduction with
        | nil => intro _ x; rfl
        | singleton a => intro h; simp at h
        | cons_cons a b t ih _ =>
          intro h x
          have := ih (by simp at h; omega) x
          simp only [List.cons_append, pairUp, this]
      rw [this _ hlen, flatten_pairUp _ hlen]
    have h2 : flattenEdges (pairUp (v :: s ++ [v]).tail) = s ++ [v] := by
      rw [List.cons_append, List.tail_cons, flatten_pairUp]
      simpa using hlen
    have halt := alternate c (v :: s ++ [v])
    have p1 : PerfectMatching V (pairUp (v :: s ++ [v])) := by
      show (flattenEdges _).Perm V
      rw [h1]; exact hperm
    have p2 : PerfectMatching V (pairUp (v :: s ++ [v]).tail) := by
      show (flattenEdges _).Perm V
      rw [h2]; exact List.perm_append_comm.trans hperm
    have htc : tourCost c (A ++ v :: B) = pathCost c (v :: (B ++ A) ++ [v]) := by
      rw [hcost]; rfl
    rw [htc]
    rcases le_total (edgeSum c (pairUp (v :: s ++ [v]))) (edgeSum c (pairUp (v :: s ++ [v]).tail)) with h | h
    · exact ⟨_, p1, by linarith⟩
    · exact ⟨_, p2, by linarith⟩

theorem matchingCost_ok {α : Type} [FloatOps α] {m : Mat α} {l : List (Nat × Nat)} (hl : Valid m.dim l) :
    matchingCost m l = .ok (FloatOps.sum (l.map fun e => m.get e.1 e.2)) := by
  unfold matchingCost
  rw [mapM_ok (g := fun e => m.get e.1 e.2)]
  · rfl
  · intro e he
    exact entry_ok (hl e he).1 (hl e he).2

/-- a tree with an edge has leaves -/
theorem oddSet_two {n : Nat} (hn : 2 ≤ n) {E : List (Nat × Nat)} (h : IsSpanningTree (List.range n) E) :
    2 ≤ (oddSet n E).length := by
  have heven := oddSet_even (spanning_valid h)
  by_contra hlt
  have h0 : oddSet n E = [] := List.length_eq_zero_iff.mp (by omega)
  have hdeg : ∀ i ∈ Finset.range n, 2 ≤ (flattenEdges E).count i := by
    intro i hi
    have hi : i < n := by simpa using hi
    have hmod : (flattenEdges E).count i % 2 ≠ 1 := by
      intro hc
      have : i ∈ oddSet n E := mem_oddSet.mpr ⟨hi, hc⟩
      rw [h0] at this
      simp at this
    obtain ⟨j, hj, hij⟩ : ∃ j < n, i ≠ j := by
      by_cases hi0 : i = 0
      · exact ⟨1, by omega, by omega⟩
      · exact ⟨0, by omega, hi0⟩
    have hpath := h.conn i (by simpa using hi) j (by simpa using hj)
    rcases Relation.ReflTransGen.cases_head hpath with rfl | ⟨k, hk, _⟩
    · exact absurd rfl hij
    · have : i ∈ flattenEdges E := by
        rcases hk with hk | hk
        · exact mem_flatten.mpr ⟨_, hk, Or.inl rfl⟩
        · exact mem_flatten.mpr ⟨_, hk, Or.inr rfl⟩
      have := List.one_le_count_iff.mpr this
      omega
  have hsum := sum_count_range (n := n) (flattenEdges E) (valid_iff.mp (spanning_valid h))
  have hle : ∑ i ∈ Finset.range n, 2 ≤ ∑ i ∈ Finset.range n, (flattenEdges E).count i := Finset.sum_le_sum hdeg
  have hcount := h.count
  rw [List.length_range] at hcount
  simp only [Finset.sum_const, Finset.card_range, smul_eq_mul] at hle
  rw [length_flatten] at hsum
  have : ∑ i ∈ Finset.range n, (flattenEdges E).count i = ((List.range n).map fun i => (flattenEdges E).count i).sum :=
    (sum_map_range _ _).symm
  omega

end Walky
