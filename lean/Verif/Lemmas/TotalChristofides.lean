import Verif.Lemmas.Christofides
import Verif.Lemmas.Total
import Verif.Lemmas.RelApprox

/-! # Helper lemmas: Christofides' algorithm in every arithmetic -/

namespace Walky

open FloatOps Spec

variable {α : Type} [FloatOps α]

/-- an entry that is not used yet does not lead to its own vertex -/
def DistNe (n start : Nat) (d : Dist α) : Prop :=
  ∀ (j : Nat) (e : Edge α), j < n → d[j]? = some (e, false) → j = start ∨ e.dst ≠ j

theorem DistNe.next {n start : Nat} {m : Mat α} {d : Dist α} (h : DistNe n start d) (v : Nat) :
    DistNe n start (d.next m v) := by
  intro j e hn hj
  unfold Dist.next at hj
  rw [Dist.getElem?_updateInOrder List.nodup_range, List.getElem?_modify] at hj
  cases hd : d[j]? with
  | none => simp [hd] at hj
  | some p =>
    obtain ⟨p1, p2⟩ := p
    by_cases hvj : v = j
    · subst hvj
      exfalso
      simp only [hd, if_true, Option.map_eq_map, Option.map_some] at hj
      split at hj
      · simp only [Option.some.injEq] at hj
        unfold Dist.relaxEntry at hj
        split at hj
        · simpa using congrArg Prod.snd hj
        · simpa using congrArg Prod.snd hj
      · simpa using congrArg Prod.snd (Option.some.inj hj)
    · simp only [hd, hvj, if_false, Option.map_eq_map, Option.map_some] at hj
      have key : ∀ q : Edge α × Bool, q = (e, false) → q = (p1, p2) ∨ q.1.dst = v → j = start ∨ e.dst ≠ j := by
        intro q hq hc
        rcases hc with hc | hc
        · exact h j e hn (by rw [hd, ← hc, hq])
        · right
          rw [hq] at hc
          simp only at hc
          rw [hc]
          exact hvj
      split at hj
      · simp only [Option.some.injEq] at hj
        refine key _ hj ?_
        unfold Dist.relaxEntry
        split
        · right; rfl
        · left; rfl
      · simp only [Option.some.injEq] at hj
        exact key _ hj (Or.inl rfl)

/-- what no arithmetic can break in Prim's algorithm -/
theorem picks_ok {m : Mat α} {start : Nat} (hinf : eq (inf : α) inf = true) :
    ∀ (k : Nat) (d : Dist α), DistOk m.dim start d → DistNe m.dim start d →
      ∀ q ∈ picks m k d, q.1 < m.dim ∧ q.2.dst < m.dim ∧ (q.1 = start ∨ q.2.dst ≠ q.1) := by
  intro k
  induction k with
  | zero => intro d _ _ q hq; simp [picks] at hq
  | succ k ih =>
    intro d hd hne q hq
    unfold picks at hq
    split at hq
    · simp at hq
    · rename_i hc
      obtain ⟨a1, a2, a3⟩ := hd.find_lt hinf (by simpa using hc)
      rcases List.mem_cons.mp hq with rfl | hq
      · exact ⟨a1, a2, hne _ _ a1 a3⟩
      · exact ih _ (hd.next a1) (hne.next _) q hq

/-- one pick adds one edge -/
theorem AdjOf.addPick {n : Nat} {E : List (Nat × Nat)} {g : Graph α} (h : AdjOf n E g) {start : Nat}
    {q : Nat × Edge α} (hs : q.1 ≠ start) (hne : q.2.dst ≠ q.1) :
    AdjOf n (E ++ [(q.1, q.2.dst)]) (addPick start g q) := by
  refine ⟨by rw [length_addPick, h.len], ?_⟩
  intro i hi
  obtain ⟨es, e1, e2, e3⟩ := h.adj i hi
  unfold Walky.addPick
  rw [if_pos hs, List.getElem?_modify, List.getElem?_modify, e1]
  have hJ : ∀ j, Joined (E ++ [(q.1, q.2.dst)]) i j ↔
      Joined E i j ∨ (i = q.1 ∧ j = q.2.dst) ∨ (j = q.1 ∧ i = q.2.dst) := by
    intro j
    unfold Joined
    simp only [List.mem_append, List.mem_singleton, Prod.mk.injEq]
    tauto
  have hC : (flattenEdges (E ++ [(q.1, q.2.dst)])).count i =
      (flattenEdges E).count i + (if q.1 = i then 1 else 0) + (if q.2.dst = i then 1 else 0) := by
    rw [flatten_append, List.count_append, flatten_cons]
    simp only [flattenEdges, List.flatMap_nil, List.count_cons, List.count_nil, beq_iff_eq]
    omega
  by_cases c1 : q.1 = i
  · have c2 : q.2.dst ≠ i := by rw [← c1]; exact hne
    refine ⟨es ++ [q.2], by simp [c1, c2], ?_, ?_⟩
    · intro j
      rw [hJ, ← e2]
      simp only [List.mem_append, List.mem_singleton, or_and_right, exists_or, exists_eq_left]
      constructor
      · rintro (h | h)
        · exact Or.inl h
        · exact Or.inr (Or.inl ⟨c1.symm, h.symm⟩)
      · rintro (h | ⟨-, h⟩ | ⟨-, h⟩)
        · exact Or.inl h
        · exact Or.inr h.symm
        · exact absurd h.symm c2
    · rw [hC, if_pos c1, if_neg c2]
      simp [e3]
  · by_cases c2 : q.2.dst = i
    · refine ⟨es ++ [⟨q.1, q.2.cost⟩], by simp [c1, c2], ?_, ?_⟩
      · intro j
        rw [hJ, ← e2]
        simp only [List.mem_append, List.mem_singleton, or_and_right, exists_or, exists_eq_left]
        constructor
        · rintro (h | h)
          · exact Or.inl h
          · exact Or.inr (Or.inr ⟨h.symm, c2.symm⟩)
        · rintro (h | ⟨h, -⟩ | ⟨h, -⟩)
          · exact Or.inl h
          · exact absurd h.symm c1
          · exact Or.inr h.symm
      · rw [hC, if_neg c1, if_pos c2]
        simp [e3]
    · refine ⟨es, by simp [c1, c2], ?_, ?_⟩
      · intro j
        rw [hJ, ← e2]
        constructor
        · exact Or.inl
        · rintro (h | ⟨h, -⟩ | ⟨-, h⟩)
          · exact h
          · exact absurd h.symm c1
          · exact absurd h.symm c2
      · rw [hC, if_neg c1, if_neg c2]
        simp [e3]

omit [FloatOps α] in
theorem AdjOf.dropLast {n : Nat} {E : List (Nat × Nat)} {g : Graph α} (h : AdjOf (n + 1) E g) :
    AdjOf n E g.dropLast := by
  refine ⟨by simp [h.len], ?_⟩
  intro i hi
  obtain ⟨es, e1, e2, e3⟩ := h.adj i (by omega)
  refine ⟨es, ?_, e2, e3⟩
  rw [List.getElem?_dropLast, if_pos (by rw [h.len]; omega), e1]

/-- Prim's algorithm returns the adjacency lists of some edges between different cities. -/
theorem primSeq_adj (m : Mat α) (hinf : eq (inf : α) inf = true) (hn : 1 ≤ m.dim) :
    ∃ mst E, primSeq m [] = .ok mst ∧ AdjOf m.dim E mst ∧ Valid m.dim E ∧ ∀ e ∈ E, e.1 ≠ e.2 := by
  obtain ⟨st, -, h2, h3⟩ := primSeq_eq m [] hinf (by simp)
  have hst : st = 0 := by
    by_contra hc
    have := h2 0 (by omega)
    simp at this
  subst hst
  rw [if_neg (by omega)] at h3
  have hok := picks_ok (start := 0) hinf (m.dim + 1) (initDist m.dim [] 0) (distOk_init hn) (by
    intro j e hjn hj
    have hlt : j < m.dim + 1 := by
      have := (List.getElem?_eq_some_iff.mp hj).1
      rwa [length_initDist] at this
    rw [getElem?_initDist hlt] at hj
    by_cases h0 : j = 0
    · exact Or.inl h0
    · right
      have he : e = if 0 = j then ⟨0, zero⟩ else ⟨m.dim, inf⟩ := (congrArg Prod.fst (Option.some.inj hj)).symm
      rw [if_neg (fun h => h0 h.symm)] at he
      rw [he]
      simp only
      omega)
  have key : ∀ (l : List (Nat × Edge α)) (E : List (Nat × Nat)) (g : Graph α),
      (∀ q ∈ l, q.1 < m.dim ∧ q.2.dst < m.dim ∧ (q.1 = 0 ∨ q.2.dst ≠ q.1)) →
      AdjOf (m.dim + 1) E g → Valid m.dim E → (∀ e ∈ E, e.1 ≠ e.2) →
      ∃ E', AdjOf (m.dim + 1) E' (l.foldl (addPick 0) g) ∧ Valid m.dim E' ∧ ∀ e ∈ E', e.1 ≠ e.2 := by
    intro l
    induction l with
    | nil => intro E g _ h1 h2 h3; exact ⟨E, h1, h2, h3⟩
    | cons q l ih =>
      intro E g hl h1 h2 h3
      obtain ⟨a1, a2, a3⟩ := hl q (by simp)
      rw [List.foldl_cons]
      by_cases hq : q.1 = 0
      · refine ih E _ (fun q hq => hl q (by simp [hq])) ?_ h2 h3
        unfold addPick
        rw [if_neg (by simpa using hq)]
        exact h1
      · have hne := a3.resolve_left hq
        refine ih (E ++ [(q.1, q.2.dst)]) _ (fun q hq => hl q (by simp [hq]))
          (h1.addPick hq hne) ?_ ?_
        · intro e he
          rcases List.mem_append.mp he with he | he
          · exact h2 e he
          · simp at he; subst he; exact ⟨a1, a2⟩
        · intro e he
          rcases List.mem_append.mp he with he | he
          · exact h3 e he
          · simp at he; subst he; exact hne.symm
  obtain ⟨E, b1, b2, b3⟩ := key _ [] (List.replicate (m.dim + 1) []) hok
    ⟨by simp, fun i hi => ⟨[], by simp [hi], by simp [Joined], rfl⟩⟩ (by intro e he; simp at he) (by simp)
  exact ⟨_, E, h3, b1.dropLast, b2, b3⟩

omit [FloatOps α] in
/-- The edges of the tree and the matching give a symmetric multigraph with even loops. -/
theorem fill_sym {n : Nat} {E M : List (Nat × Nat)} (hE : ∀ e ∈ E, e.1 ≠ e.2) {g : MGraph α} (hdim : g.dim = n)
    (ht : ∀ i j, i < n → j < n → (Joined E i j → g.times i j = 1 + und M i j) ∧
      (¬ Joined E i j → g.times i j = und M i j)) :
    (∀ i j, i < g.dim → j < g.dim → g.times i j = g.times j i) ∧ ∀ i, i < g.dim → Even (g.times i i) := by
  subst hdim
  refine ⟨?_, ?_⟩
  · intro i j hi hj
    by_cases hJ : Joined E i j
    · rw [(ht i j hi hj).1 hJ, (ht j i hj hi).1 (joined_comm.mp hJ), und_comm]
    · rw [(ht i j hi hj).2 hJ, (ht j i hj hi).2 (fun h => hJ (joined_comm.mp h)), und_comm]
  · intro i hi
    have hJ : ¬ Joined E i i := by
      rintro (h | h)
      · exact hE _ h rfl
      · exact hE _ h rfl
    rw [(ht i i hi hi).2 hJ]
    exact ⟨_, rfl⟩

/-- the end of Christofides' algorithm on any symmetric multigraph, in a release build or if it is connected -/
theorem christofidesTail_total {m : Mat α} {g : MGraph α} (hdim : g.dim = m.dim) (hn : 1 ≤ m.dim)
    (hs : ∀ i j, i < g.dim → j < g.dim → g.times i j = g.times j i)
    (hd : ∀ i, i < g.dim → Even (g.times i i)) (dbg : Bool) (hdbg : dbg = false ∨ g.Connected) :
    ∃ p, christofidesTail dbg m g =
        .ok (FloatOps.sum ((pairs (p ++ [0])).map fun e => m.get e.1 e.2), p ++ [0]) ∧
      p.Nodup ∧ (∀ x ∈ p, x < m.dim) ∧ p.head? = some 0 ∧ (g.Connected → IsTour m.dim p) := by
  have hok : MOk g (multiDegrees g) := ⟨hs, hd, multiDegrees_eq hs⟩
  obtain ⟨walk, h1, h2, h3, h4, h5⟩ := eulerLoop_ok dbg (vecLimit + (multiDegrees g).sum) g (multiDegrees g) [0] hok
    (by simp; omega) (by rw [hok.sum]; exact Nat.lt_add_of_pos_left vecLimit_pos)
  obtain ⟨t, rfl⟩ : ∃ t, walk = 0 :: t := by
    cases walk with
    | nil => simp at h4
    | cons x t => simp at h4; exact ⟨t, by rw [h4]⟩
  have hlt : ∀ x ∈ 0 :: t, x < m.dim := fun x hx => by rw [← hdim]; exact h2 x hx
  have hp : ∀ x ∈ firstOcc [] (0 :: t), x < m.dim := fun x hx => hlt x (mem_firstOcc.mp hx).1
  have hhead : (firstOcc [] (0 :: t)).head? = some 0 := by simp [firstOcc]
  have htour : g.Connected → IsTour m.dim (firstOcc [] (0 :: t)) := by
    intro hc
    rw [isTour_iff]
    refine ⟨firstOcc_nodup _ _, fun x => ⟨hp x, fun hx => mem_firstOcc.mpr ⟨?_, by simp⟩⟩⟩
    have := hc x (by rw [hdim]; exact hx)
    clear hx
    induction this with
    | refl => simp
    | tail _ hbc ih => exact h5 _ ih _ hbc.2.1 hbc.2.2
  refine ⟨firstOcc [] (0 :: t), ?_, firstOcc_nodup _ _, hp, hhead, htour⟩
  have hp' : ∀ x ∈ firstOcc [] (0 :: t) ++ [0], x < m.dim := by
    intro x hx
    rcases List.mem_append.mp hx with hx | hx
    · exact hp x hx
    · simp at hx; subst hx; exact hn
  unfold christofidesTail eulerianCycle
  rw [h1, rm_bind_ok, hamiltonian_ok hlt, rm_bind_ok, mapM_ok (g := fun e => m.get e.1 e.2), rm_bind_ok]
  · rcases hdbg with rfl | hc
    · rfl
    · rw [(isHamiltonianCycle_closed (List.mem_of_head? hhead)).mpr (htour hc)]
      cases dbg <;> rfl
  · intro e he
    have := mem_pairs (t := firstOcc [] (0 :: t) ++ [0]) he
    exact entry_ok (hp' _ this.1) (hp' _ this.2)

/-- Christofides' algorithm on one thread, in a release build, in every arithmetic -/
theorem christofidesSeq_total (m : Mat α) (hinf : eq (inf : α) inf = true) (hn : 1 ≤ m.dim) {r : MatchRng}
    (hr : r.Ok) :
    ∃ p, christofidesSeq false m r =
        .ok (FloatOps.sum ((pairs (p ++ [0])).map fun e => m.get e.1 e.2), p ++ [0]) ∧
      p.Nodup ∧ (∀ x ∈ p, x < m.dim) ∧ p.head? = some 0 := by
  obtain ⟨mst, E, h1, h2, h3, h4⟩ := primSeq_adj m hinf hn
  obtain ⟨M, k1, k2, -⟩ := approxMatchingSeq_ok (m := m) hr (V := oddVertices mst) (by
    rw [oddVertices_eq h2]
    intro v hv
    unfold oddSet at hv
    simpa using List.mem_of_mem_filter hv) ((oddVertices mst).length ^ 2)
  obtain ⟨g, g1, g2, g3⟩ := fillSeq_ok rfl h2 h3 k2
  obtain ⟨s1, s2⟩ := fill_sym h4 g2 g3
  obtain ⟨p, p1, p2⟩ := christofidesTail_total g2 hn s1 s2 false (Or.inl rfl)
  refine ⟨p, ?_, p2.1, p2.2.1, p2.2.2.1⟩
  unfold christofidesSeq christofidesGeneric computeApproxMatching
  simp only [Bool.false_and, Bool.false_eq_true, if_false]
  rw [h1, rm_bind_ok, k1, rm_bind_ok, g1, rm_bind_ok, p1]

open XNum in
/-- Christofides' algorithm on one thread with finite costs, whatever the rounding does -/
theorem christofidesSeq_finite {K : Type} [Field K] [LinearOrder K] [IsStrictOrderedRing K] {R : Rounding K}
    {m : Mat (XNum K)} {c : Nat → Nat → K} (hm : Rep m c) (hn : 1 ≤ m.dim) {r : MatchRng} (hr : r.Ok) {dbg : Bool}
    (hdbg : dbg = true → @Mat.isMetric _ R.ops m = true) :
    ∃ p, @christofidesSeq _ R.ops dbg m r =
        .ok (@FloatOps.sum _ R.ops ((pairs (p ++ [0])).map fun e => m.get e.1 e.2), p ++ [0]) ∧
      IsTour m.dim p ∧ p.head? = some 0 := by
  obtain ⟨mst, E, h1, h2, h3, -⟩ := prim_tree hm hn
  obtain ⟨M, k1, k2, -⟩ := @approxMatchingSeq_ok _ R.ops m r hr (oddVertices mst) (by
    rw [oddVertices_eq h3.adjOf]
    intro v hv
    unfold oddSet at hv
    simpa using List.mem_of_mem_filter hv) ((oddVertices mst).length ^ 2)
  obtain ⟨g, g1, g2, g3⟩ := fillSeq_ok rfl h3.adjOf (spanning_valid h2) k2
  obtain ⟨s1, s2, s3⟩ := union_ok h2 g2 g3
  obtain ⟨p, p1, -, -, p2, p3⟩ := @christofidesTail_total _ R.ops m g g2 hn s1 s2 dbg (Or.inr s3)
  refine ⟨p, ?_, p3 s3, p2⟩
  rw [← p1]
  exact christofidesGeneric_ops hdbg h1 k1 g1

end Walky
