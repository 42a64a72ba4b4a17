import Verif.Lemmas.Euler
import Verif.Lemmas.Tree
import Verif.Lemmas.Threaded

/-! # Helper lemmas: the multigraph of tree and matching -/

set_option linter.unusedSectionVars false
set_option linter.unusedSimpArgs false

namespace Walky

open FloatOps Spec

variable {α : Type} [FloatOps α]

/-- the graph has the edges `E` (whatever the costs) -/
structure AdjOf (n : Nat) (E : List (Nat × Nat)) (g : Graph α) : Prop where
  len : g.length = n
  adj : ∀ i < n, ∃ es, g[i]? = some es ∧ (∀ j, (∃ e ∈ es, e.dst = j) ↔ Joined E i j) ∧
    es.length = (flattenEdges E).count i

theorem mem_edgesAt_iff {K : Type} {c : Nat → Nat → K} {E : List (Nat × Nat)} {i j : Nat} :
    (∃ x ∈ edgesAt c E i, x.1 = j) ↔ Joined E i j := by
  unfold edgesAt Joined
  constructor
  · rintro ⟨x, hx, rfl⟩
    simp only [List.mem_flatMap, List.mem_append] at hx
    obtain ⟨e, he, hx⟩ := hx
    rcases hx with hx | hx
    · split at hx
      · simp only [List.mem_singleton] at hx
        subst hx
        rename_i h
        left
        rw [← h]
        exact he
      · simp at hx
    · split at hx
      · simp only [List.mem_singleton] at hx
        subst hx
        rename_i h
        right
        rw [← h]
        exact he
      · simp at hx
  · rintro (h | h)
    · refine ⟨(j, c i j), ?_, rfl⟩
      simp only [List.mem_flatMap, List.mem_append]
      exact ⟨_, h, Or.inl (by simp)⟩
    · refine ⟨(j, c j i), ?_, rfl⟩
      simp only [List.mem_flatMap, List.mem_append]
      exact ⟨_, h, Or.inr (by simp)⟩

theorem length_edgesAt {K : Type} {c : Nat → Nat → K} (E : List (Nat × Nat)) (i : Nat) :
    (edgesAt c E i).length = (flattenEdges E).count i := by
  induction E with
  | nil => rfl
  | cons e E ih =>
    have h1 : edgesAt c (e :: E) i = edgesAt c [e] i ++ edgesAt c E i := by simp [edgesAt]
    have h2 : flattenEdges (e :: E) = e.1 :: e.2 :: flattenEdges E := rfl
    rw [h1, List.length_append, ih, h2, List.count_cons, List.count_cons]
    simp only [edgesAt, List.flatMap_cons, List.flatMap_nil, List.append_nil, List.length_append, beq_iff_eq]
    by_cases a : e.1 = i <;> by_cases b : e.2 = i <;> simp [a, b] <;> omega

theorem GraphOf.adjOf {K : Type} {n : Nat} {c : Nat → Nat → K} {E : List (Nat × Nat)}
    {g : Graph (XNum K)} (h : GraphOf n c E g) : AdjOf n E g := by
  refine ⟨h.len, fun i hi => ⟨_, h.adj i hi, ?_, ?_⟩⟩
  · intro j
    rw [← mem_edgesAt_iff (c := c)]
    constructor
    · rintro ⟨e, he, rfl⟩
      obtain ⟨x, hx, rfl⟩ := List.mem_map.mp he
      exact ⟨x, hx, rfl⟩
    · rintro ⟨x, hx, rfl⟩
      exact ⟨_, List.mem_map.mpr ⟨x, hx, rfl⟩, rfl⟩
  · rw [List.length_map, length_edgesAt]

theorem MGraph.times_put (g : MGraph α) (i j a b : Nat) (x : α × Nat) :
    (g.put i j x).times a b = if a = i ∧ b = j then x.2 else g.times a b := by
  unfold put times
  simp only
  split <;> rfl

theorem fillRow_ok {n : Nat} (i : Nat) (es : List (Edge α)) (h : ∀ e ∈ es, e.dst < n) (g : MGraph α)
    (hg : g.dim = n) :
    ∃ g', fillRow g i es = .ok g' ∧ g'.dim = n ∧
      ∀ a b, ((a = i ∧ ∃ e ∈ es, e.dst = b) → g'.times a b = 1) ∧
        (¬ (a = i ∧ ∃ e ∈ es, e.dst = b) → g'.times a b = g.times a b) := by
  refine foldlM_ok _ (fun done g' => g'.dim = n ∧
      ∀ a b, ((a = i ∧ ∃ e ∈ done, e.dst = b) → g'.times a b = 1) ∧
        (¬ (a = i ∧ ∃ e ∈ done, e.dst = b) → g'.times a b = g.times a b)) es g ?_ ?_
  · exact ⟨hg, by simp⟩
  · intro done e rest g' hl ⟨h1, h2⟩
    refine ⟨g'.put i e.dst (e.cost, 1), ?_, h1, ?_⟩
    · rw [if_pos (by rw [h1]; exact h e (by rw [hl]; simp))]
    · intro a b
      rw [MGraph.times_put]
      by_cases hab : a = i ∧ b = e.dst
      · rw [if_pos hab]
        exact ⟨fun _ => rfl, fun hn => absurd ⟨hab.1, e, by simp, hab.2.symm⟩ hn⟩
      · rw [if_neg hab]
        refine ⟨?_, ?_⟩
        · rintro ⟨rfl, f, hf, rfl⟩
          rcases List.mem_append.mp hf with hf | hf
          · exact (h2 a f.dst).1 ⟨rfl, f, hf, rfl⟩
          · simp only [List.mem_singleton] at hf
            subst hf
            exact absurd ⟨rfl, rfl⟩ hab
        · intro hn
          apply (h2 a b).2
          rintro ⟨rfl, f, hf, rfl⟩
          exact hn ⟨rfl, f, by simp [hf], rfl⟩

theorem fillCol_ok {n : Nat} (i : Nat) (es : List (Edge α)) (h : ∀ e ∈ es, e.dst < n) (g : MGraph α)
    (hg : g.dim = n) :
    ∃ g', fillCol g i es = .ok g' ∧ g'.dim = n ∧
      ∀ a b, ((b = i ∧ ∃ e ∈ es, e.dst = a) → g'.times a b = 1) ∧
        (¬ (b = i ∧ ∃ e ∈ es, e.dst = a) → g'.times a b = g.times a b) := by
  refine foldlM_ok _ (fun done g' => g'.dim = n ∧
      ∀ a b, ((b = i ∧ ∃ e ∈ done, e.dst = a) → g'.times a b = 1) ∧
        (¬ (b = i ∧ ∃ e ∈ done, e.dst = a) → g'.times a b = g.times a b)) es g ?_ ?_
  · exact ⟨hg, by simp⟩
  · intro done e rest g' hl ⟨h1, h2⟩
    refine ⟨g'.put e.dst i (e.cost, 1), ?_, h1, ?_⟩
    · rw [if_pos (by rw [h1]; exact h e (by rw [hl]; simp))]
    · intro a b
      rw [MGraph.times_put]
      by_cases hab : a = e.dst ∧ b = i
      · rw [if_pos hab]
        exact ⟨fun _ => rfl, fun hn => absurd ⟨hab.2, e, by simp, hab.1.symm⟩ hn⟩
      · rw [if_neg hab]
        refine ⟨?_, ?_⟩
        · rintro ⟨rfl, f, hf, rfl⟩
          rcases List.mem_append.mp hf with hf | hf
          · exact (h2 f.dst b).1 ⟨rfl, f, hf, rfl⟩
          · simp only [List.mem_singleton] at hf
            subst hf
            exact absurd ⟨rfl, rfl⟩ hab
        · intro hn
          apply (h2 a b).2
          rintro ⟨rfl, f, hf, rfl⟩
          exact hn ⟨rfl, f, by simp [hf], rfl⟩

theorem joined_comm {E : List (Nat × Nat)} {a b : Nat} : Joined E a b ↔ Joined E b a := Or.comm

/-- rows or columns of all vertices in `done` are filled -/
def FilledFor (E : List (Nat × Nat)) (done : List Nat) (g : MGraph α) (i j : Nat) : Prop :=
  ((i ∈ done ∧ Joined E i j) → g.times i j = 1) ∧ (¬ (i ∈ done ∧ Joined E i j) → g.times i j = 0)

theorem fillMstSeq_ok {n : Nat} {m : Mat α} (hn : m.dim = n) {E : List (Nat × Nat)} {mst : Graph α}
    (h : AdjOf n E mst) (hE : ∀ e ∈ E, e.1 < n ∧ e.2 < n) :
    ∃ g, fillMstSeq (emptyMulti m) mst = .ok g ∧ g.dim = n ∧
      ∀ i j, i < n → j < n → (Joined E i j → g.times i j = 1) ∧ (¬ Joined E i j → g.times i j = 0) := by
  have hval : ∀ i j, Joined E i j → j < n := by
    rintro i j (h | h)
    · exact (hE _ h).2
    · exact (hE _ h).1
  have key : ∃ g, fillMstSeq (emptyMulti m) mst = .ok g ∧ g.dim = n ∧
      ∀ i j, FilledFor E (List.range (min mst.length (emptyMulti m).dim)) g i j := by
    refine foldlM_ok _ (fun done g => g.dim = n ∧ ∀ i j, FilledFor E done g i j) _ _ ?_ ?_
    · refine ⟨hn, fun i j => ⟨by simp, fun _ => rfl⟩⟩
    · intro done i rest g hl ⟨h1, h2⟩
      have hi : i < n := by
        have : i ∈ List.range (min mst.length (emptyMulti m).dim) := by rw [hl]; simp
        rw [List.mem_range, h.len] at this
        omega
      obtain ⟨es, e1, e2, _⟩ := h.adj i hi
      obtain ⟨g', k1, k2, k3⟩ := fillRow_ok (n := n) i es
        (fun e he => hval i e.dst ((e2 e.dst).mp ⟨e, he, rfl⟩)) g h1
      refine ⟨g', by simp [idx_ok e1, k1], k2, ?_⟩
      intro a b
      have hab := k3 a b
      rw [e2 b] at hab
      by_cases ha : a = i
      · subst ha
        by_cases hj : Joined E a b
        · exact ⟨fun _ => hab.1 ⟨rfl, hj⟩, fun hn => absurd ⟨by simp, hj⟩ hn⟩
        · refine ⟨fun hx => absurd hx.2 hj, fun _ => ?_⟩
          rw [hab.2 (fun hx => hj hx.2)]
          exact (h2 a b).2 (fun hx => hj hx.2)
      · have e : g'.times a b = g.times a b := hab.2 (fun hx => ha hx.1)
        unfold FilledFor
        rw [e]
        have : a ∈ done ++ [i] ↔ a ∈ done := by simp [ha]
        rw [this]
        exact h2 a b
  obtain ⟨g, k1, k2, k3⟩ := key
  refine ⟨g, k1, k2, ?_⟩
  intro i j hi hj
  have hm : i ∈ List.range (min mst.length (emptyMulti m).dim) := by
    rw [List.mem_range, h.len]
    have : (emptyMulti m).dim = m.dim := rfl
    omega
  exact ⟨fun hx => (k3 i j).1 ⟨hm, hx⟩, fun hx => (k3 i j).2 (fun hy => hx hy.2)⟩

theorem fillMstPar_ok {n : Nat} {m : Mat α} (hn : m.dim = n) {E : List (Nat × Nat)} {mst : Graph α}
    (h : AdjOf n E mst) (hE : ∀ e ∈ E, e.1 < n ∧ e.2 < n) {order : List Nat}
    (ho : order.Perm (List.range n)) :
    ∃ g, fillMstPar order (emptyMulti m) mst = .ok g ∧ g.dim = n ∧
      ∀ i j, i < n → j < n → (Joined E i j → g.times i j = 1) ∧ (¬ Joined E i j → g.times i j = 0) := by
  have hval : ∀ i j, Joined E i j → j < n := by
    rintro i j (h | h)
    · exact (hE _ h).2
    · exact (hE _ h).1
  have key : ∃ g, fillMstPar order (emptyMulti m) mst = .ok g ∧ g.dim = n ∧
      ∀ i j, ((j ∈ order ∧ Joined E j i) → g.times i j = 1) ∧
        (¬ (j ∈ order ∧ Joined E j i) → g.times i j = 0) := by
    refine foldlM_ok _ (fun done (g : MGraph α) => g.dim = n ∧ ∀ i j, ((j ∈ done ∧ Joined E j i) → g.times i j = 1) ∧
        (¬ (j ∈ done ∧ Joined E j i) → g.times i j = 0)) _ _ ?_ ?_
    · refine ⟨hn, fun i j => ⟨by simp, fun _ => rfl⟩⟩
    · intro done i rest g hl ⟨h1, h2⟩
      have hi : i < n := by
        have : i ∈ order := by rw [hl]; simp
        rw [ho.mem_iff, List.mem_range] at this
        omega
      obtain ⟨es, e1, e2, _⟩ := h.adj i hi
      obtain ⟨g', k1, k2, k3⟩ := fillCol_ok (n := n) i es
        (fun e he => hval i e.dst ((e2 e.dst).mp ⟨e, he, rfl⟩)) g h1
      refine ⟨g', by simp [idx_ok e1, k1], k2, ?_⟩
      intro b a
      have hab := k3 b a
      rw [e2 b] at hab
      by_cases ha : a = i
      · subst ha
        by_cases hj : Joined E a b
        · exact ⟨fun _ => hab.1 ⟨rfl, hj⟩, fun hn => absurd ⟨by simp, hj⟩ hn⟩
        · refine ⟨fun hx => absurd hx.2 hj, fun _ => ?_⟩
          rw [hab.2 (fun hx => hj hx.2)]
          exact (h2 b a).2 (fun hx => hj hx.2)
      · have e : g'.times b a = g.times b a := hab.2 (fun hx => ha hx.1)
        rw [e]
        have : a ∈ done ++ [i] ↔ a ∈ done := by simp [ha]
        rw [this]
        exact h2 b a
  obtain ⟨g, k1, k2, k3⟩ := key
  refine ⟨g, k1, k2, ?_⟩
  intro i j hi hj
  have hm : j ∈ order := by
    rw [ho.mem_iff, List.mem_range]
    exact hj
  exact ⟨fun hx => (k3 i j).1 ⟨hm, joined_comm.mp hx⟩,
    fun hx => (k3 i j).2 (fun hy => hx (joined_comm.mp hy.2))⟩

theorem fillMatchingSeq_ok {n : Nat} {M : List (Nat × Nat)} (hM : ∀ e ∈ M, e.1 < n ∧ e.2 < n)
    {g : MGraph α} (hg : g.dim = n) :
    ∃ g', fillMatchingSeq g M = .ok g' ∧ g'.dim = n ∧
      ∀ i j, g'.times i j = g.times i j + und M i j := by
  refine foldlM_ok _ (fun done (g' : MGraph α) => g'.dim = n ∧ ∀ i j, g'.times i j = g.times i j + und done i j) _ _ ?_ ?_
  · exact ⟨hg, by simp [und_nil]⟩
  · intro done e rest g' hl ⟨h1, h2⟩
    have he := hM e (by rw [hl]; simp)
    have hi : g'.inc e.1 e.2 = .ok (g'.setTimes e.1 e.2 (g'.times e.1 e.2 + 1)) := by
      unfold MGraph.inc
      rw [if_pos (by rw [h1]; exact he)]
    have hi2 : (g'.setTimes e.1 e.2 (g'.times e.1 e.2 + 1)).inc e.2 e.1 =
        .ok ((g'.setTimes e.1 e.2 (g'.times e.1 e.2 + 1)).setTimes e.2 e.1
          ((g'.setTimes e.1 e.2 (g'.times e.1 e.2 + 1)).times e.2 e.1 + 1)) := by
      unfold MGraph.inc
      rw [if_pos (by simp only [MGraph.dim_setTimes]; rw [h1]; exact he.symm)]
    refine ⟨(g'.setTimes e.1 e.2 (g'.times e.1 e.2 + 1)).setTimes e.2 e.1
          ((g'.setTimes e.1 e.2 (g'.times e.1 e.2 + 1)).times e.2 e.1 + 1),
      by simp only [hi, rm_bind_ok]; exact hi2, h1, ?_⟩
    intro i j
    rw [und_append, und_single e.1 e.2, ← Nat.add_assoc, ← h2]
    simp only [MGraph.times_setTimes]
    by_cases a : i = e.1 ∧ j = e.2 <;> by_cases b : i = e.2 ∧ j = e.1
    · obtain ⟨a1, a2⟩ := a
      obtain ⟨b1, b2⟩ := b
      have : e.1 = e.2 := by omega
      simp [a1, a2, this]
    · have : ¬ (e.1 = e.2 ∧ e.2 = e.1) := fun h => b ⟨by omega, by omega⟩
      simp only [a.1, a.2] at b ⊢
      simp [this]
    · have h3 : ¬ (e.2 = e.1 ∧ e.1 = e.2) := fun h => a ⟨by omega, by omega⟩
      simp only [b.1, b.2] at a ⊢
      simp [h3]
    · simp [a, b]

/-! ## the unsynchronised increments -/

/-- what a closure has added to an entry so far -/
def RaceTask.contrib (i j : Nat) (t : RaceTask) : Nat :=
  (if 2 ≤ t.pc ∧ i = t.edge.1 ∧ j = t.edge.2 then 1 else 0) +
    (if 4 ≤ t.pc ∧ i = t.edge.2 ∧ j = t.edge.1 then 1 else 0)

theorem sum_map_set {β : Type} (f : β → Nat) : ∀ (l : List β) (k : Nat) (a b : β), l[k]? = some a →
    ((l.set k b).map f).sum + f a = (l.map f).sum + f b := by
  intro l
  induction l with
  | nil => intro k a b h; simp at h
  | cons x t ih =>
    intro k a b h
    cases k with
    | zero =>
      simp at h
      subst h
      simp
      omega
    | succ k =>
      have := ih k a b (by simpa using h)
      simp only [List.set_cons_succ, List.map_cons, List.sum_cons]
      omega

theorem Spec.NoRepeat.ne {M : List (Nat × Nat)} (h : NoRepeat M) {k l : Nat} {e f : Nat × Nat}
    (hk : M[k]? = some e) (hl : M[l]? = some f) (hkl : k ≠ l) : f ≠ e ∧ f ≠ e.swap := by
  obtain ⟨hk', rfl⟩ := List.getElem?_eq_some_iff.mp hk
  obtain ⟨hl', rfl⟩ := List.getElem?_eq_some_iff.mp hl
  unfold NoRepeat at h
  rw [List.pairwise_iff_getElem] at h
  rcases Nat.lt_or_gt_of_ne hkl with hlt | hlt
  · exact h k l hk' hl' hlt
  · have := h l k hl' hk' hlt
    refine ⟨fun hc => this.1 hc.symm, fun hc => this.2 ?_⟩
    rw [hc]; simp

/-- invariant of the unsynchronised increments -/
structure RaceInv (g0 : MGraph α) (M : List (Nat × Nat)) (s : RaceState α) : Prop where
  dim : s.g.dim = g0.dim
  edges : s.tasks.map RaceTask.edge = M
  times : ∀ i j, s.g.times i j = g0.times i j + (s.tasks.map (RaceTask.contrib i j)).sum
  reg1 : ∀ (k : Nat) (t : RaceTask), s.tasks[k]? = some t → t.pc = 1 → t.reg = s.g.times t.edge.1 t.edge.2
  reg3 : ∀ (k : Nat) (t : RaceTask), s.tasks[k]? = some t → t.pc = 3 → t.reg = s.g.times t.edge.2 t.edge.1

theorem set_edges {tasks : List RaceTask} {k : Nat} {t t' : RaceTask} (h : tasks[k]? = some t)
    (he : t'.edge = t.edge) : (tasks.set k t').map RaceTask.edge = tasks.map RaceTask.edge := by
  rw [List.map_set]
  apply List.ext_getElem?
  intro i
  by_cases hi : k = i
  · subst hi
    have hk : k < tasks.length := (List.getElem?_eq_some_iff.mp h).1
    rw [List.getElem?_set_self (by simpa using hk)]
    simp [h, he]
  · rw [List.getElem?_set_ne hi]

theorem RaceInv.read {g0 : MGraph α} {M : List (Nat × Nat)} {s : RaceState α} (hi : RaceInv g0 M s)
    {k : Nat} {t t' : RaceTask} (hk : s.tasks[k]? = some t) (he : t'.edge = t.edge)
    (hpc : ∀ i j, RaceTask.contrib i j t' = RaceTask.contrib i j t)
    (h1 : t'.pc = 1 → t'.reg = s.g.times t.edge.1 t.edge.2)
    (h3 : t'.pc = 3 → t'.reg = s.g.times t.edge.2 t.edge.1) : RaceInv g0 M ⟨s.g, s.tasks.set k t'⟩ := by
  have hkl : k < s.tasks.length := (List.getElem?_eq_some_iff.mp hk).1
  refine ⟨hi.dim, (set_edges hk he).trans hi.edges, ?_, ?_, ?_⟩
  · intro i j
    have := sum_map_set (RaceTask.contrib i j) s.tasks k t t' hk
    rw [hpc] at this
    have e := hi.times i j
    simp only
    omega
  · intro l u hl hu
    simp only at hl ⊢
    by_cases hkl' : k = l
    · subst hkl'
      rw [List.getElem?_set_self hkl] at hl
      injection hl with hl
      subst hl
      rw [he]
      exact h1 hu
    · rw [List.getElem?_set_ne hkl'] at hl
      exact hi.reg1 l u hl hu
  · intro l u hl hu
    simp only at hl ⊢
    by_cases hkl' : k = l
    · subst hkl'
      rw [List.getElem?_set_self hkl] at hl
      injection hl with hl
      subst hl
      rw [he]
      exact h3 hu
    · rw [List.getElem?_set_ne hkl'] at hl
      exact hi.reg3 l u hl hu

theorem RaceInv.write {g0 : MGraph α} {M : List (Nat × Nat)} (hM : NoRepeat M) {s : RaceState α}
    (hi : RaceInv g0 M s) {k : Nat} {t t' : RaceTask} (hk : s.tasks[k]? = some t) (he : t'.edge = t.edge)
    {a b : Nat} (hab : (a = t.edge.1 ∧ b = t.edge.2) ∨ (a = t.edge.2 ∧ b = t.edge.1))
    (hreg : t.reg = s.g.times a b)
    (hpc : ∀ i j, RaceTask.contrib i j t' = RaceTask.contrib i j t + if i = a ∧ j = b then 1 else 0)
    (h1 : t'.pc ≠ 1) (h3 : t'.pc ≠ 3) :
    RaceInv g0 M ⟨s.g.setTimes a b (t.reg + 1), s.tasks.set k t'⟩ := by
  have hkl : k < s.tasks.length := (List.getElem?_eq_some_iff.mp hk).1
  have hother : ∀ (l : Nat) (u : RaceTask), s.tasks[l]? = some u → k ≠ l →
      ¬ (u.edge.1 = a ∧ u.edge.2 = b) ∧ ¬ (u.edge.2 = a ∧ u.edge.1 = b) := by
    intro l u hl hne
    have e1 : M[k]? = some t.edge := by rw [← hi.edges]; simp [hk]
    have e2 : M[l]? = some u.edge := by rw [← hi.edges]; simp [hl]
    obtain ⟨n1, n2⟩ := hM.ne e1 e2 hne
    refine ⟨fun h => ?_, fun h => ?_⟩
    · rcases hab with ⟨rfl, rfl⟩ | ⟨rfl, rfl⟩
      · exact n1 (Prod.ext h.1 h.2)
      · exact n2 (Prod.ext h.1 h.2)
    · rcases hab with ⟨rfl, rfl⟩ | ⟨rfl, rfl⟩
      · exact n2 (Prod.ext h.2 h.1)
      · exact n1 (Prod.ext h.2 h.1)
  refine ⟨hi.dim, (set_edges hk he).trans hi.edges, ?_, ?_, ?_⟩
  · intro i j
    have := sum_map_set (RaceTask.contrib i j) s.tasks k t t' hk
    rw [hpc] at this
    have e := hi.times i j
    simp only [MGraph.times_setTimes]
    by_cases hij : i = a ∧ j = b
    · rw [if_pos hij] at this ⊢
      obtain ⟨rfl, rfl⟩ := hij
      omega
    · rw [if_neg hij] at this ⊢
      omega
  · intro l u hl hu
    simp only at hl ⊢
    by_cases hkl' : k = l
    · subst hkl'
      rw [List.getElem?_set_self hkl] at hl
      injection hl with hl
      subst hl
      exact absurd hu h1
    · rw [List.getElem?_set_ne hkl'] at hl
      rw [MGraph.times_setTimes, if_neg (hother l u hl hkl').1]
      exact hi.reg1 l u hl hu
  · intro l u hl hu
    simp only at hl ⊢
    by_cases hkl' : k = l
    · subst hkl'
      rw [List.getElem?_set_self hkl] at hl
      injection hl with hl
      subst hl
      exact absurd hu h3
    · rw [List.getElem?_set_ne hkl'] at hl
      rw [MGraph.times_setTimes, if_neg (hother l u hl hkl').2]
      exact hi.reg3 l u hl hu

theorem RaceInv.step {g0 : MGraph α} {M : List (Nat × Nat)} (hM : NoRepeat M) {s s' : RaceState α}
    (hi : RaceInv g0 M s) (h : RaceStep s s') : RaceInv g0 M s' := by
  cases h with
  | read1 k t hk hpc =>
    exact hi.read hk rfl (by intro i j; simp [RaceTask.contrib, hpc]) (fun _ => rfl) (by simp)
  | write1 k t hk hpc =>
    exact hi.write (t' := ⟨t.edge, 2, t.reg⟩) hM hk rfl (Or.inl ⟨rfl, rfl⟩) (hi.reg1 k t hk hpc)
      (by intro i j; simp [RaceTask.contrib, hpc]) (by simp) (by simp)
  | read2 k t hk hpc =>
    exact hi.read hk rfl (by intro i j; simp [RaceTask.contrib, hpc]) (by simp) (fun _ => rfl)
  | write2 k t hk hpc =>
    exact hi.write (t' := ⟨t.edge, 4, t.reg⟩) hM hk rfl (Or.inr ⟨rfl, rfl⟩) (hi.reg3 k t hk hpc)
      (by intro i j; simp [RaceTask.contrib, hpc]) (by simp) (by simp)

/-- Without repeated edges the unsynchronised increments lose nothing. -/
theorem fillMatchingPar_ok {g g' : MGraph α} {M : List (Nat × Nat)} (hM : NoRepeat M)
    (h : FillMatchingPar g M g') :
    g'.dim = g.dim ∧ ∀ i j, g'.times i j = g.times i j + und M i j := by
  obtain ⟨n, tasks, hs, hfin⟩ := h
  have hinv : ∀ (n : Nat) (s s' : RaceState α), Steps RaceStep n s s' → RaceInv g M s → RaceInv g M s' := by
    intro n s s' h
    induction h with
    | refl => exact id
    | tail _ hst ih => exact fun h0 => (ih h0).step hM hst
  have h0 : RaceInv g M ⟨g, M.map fun e => ⟨e, 0, 0⟩⟩ := by
    refine ⟨rfl, by simp [Function.comp_def], ?_, ?_, ?_⟩
    · intro i j
      have : ∀ l : List (Nat × Nat), ((l.map fun e => (⟨e, 0, 0⟩ : RaceTask)).map (RaceTask.contrib i j)).sum = 0 := by
        intro l
        induction l with
        | nil => rfl
        | cons e l ih =>
          simp only [List.map_cons, List.sum_cons, ih]
          simp [RaceTask.contrib]
      simp only [this, Nat.add_zero]
    · intro k t hk hpc
      simp only [List.getElem?_map, Option.map_eq_some_iff] at hk
      obtain ⟨e, _, rfl⟩ := hk
      simp at hpc
    · intro k t hk hpc
      simp only [List.getElem?_map, Option.map_eq_some_iff] at hk
      obtain ⟨e, _, rfl⟩ := hk
      simp at hpc
  have hI := hinv n _ _ hs h0
  refine ⟨hI.dim, ?_⟩
  intro i j
  rw [hI.times i j]
  congr 1
  have hE := hI.edges
  simp only at hE
  rw [← hE]
  clear hI hs hE hM hinv h0
  induction tasks with
  | nil => rfl
  | cons t tasks ih =>
    rw [List.map_cons, List.map_cons, und_cons, List.sum_cons, ih (fun u hu => hfin u (by simp [hu]))]
    congr 1
    rw [show t.edge = (t.edge.1, t.edge.2) from rfl, und_single]
    simp [RaceTask.contrib, hfin t (by simp)]

/-- The unsynchronised increments always come to an end. -/
theorem fillMatchingPar_exists (g : MGraph α) (M : List (Nat × Nat)) : ∃ g', FillMatchingPar g M g' := by
  have key : ∀ (N : Nat) (s : RaceState α), (∀ t ∈ s.tasks, t.pc ≤ 4) →
      (s.tasks.map fun t => 4 - t.pc).sum ≤ N →
      ∃ n s', Steps RaceStep n s s' ∧ ∀ t ∈ s'.tasks, t.pc = 4 := by
    intro N
    induction N with
    | zero =>
      intro s h4 hN
      refine ⟨0, s, .refl s, ?_⟩
      intro t ht
      have : 4 - t.pc ≤ (s.tasks.map fun t => 4 - t.pc).sum :=
        List.le_sum_of_mem (List.mem_map.mpr ⟨t, ht, rfl⟩)
      have := h4 t ht
      omega
    | succ N ih =>
      intro s h4 hN
      by_cases hall : ∀ t ∈ s.tasks, t.pc = 4
      · exact ⟨0, s, .refl s, hall⟩
      · simp only [not_forall] at hall
        obtain ⟨t, ht, hpc⟩ := hall
        obtain ⟨k, hkl, rfl⟩ := List.mem_iff_getElem.mp ht
        have hk : s.tasks[k]? = some s.tasks[k] := List.getElem?_eq_getElem hkl
        have hle := h4 _ ht
        have hstep : ∃ g1 r, RaceStep s ⟨g1, s.tasks.set k ⟨s.tasks[k].edge, s.tasks[k].pc + 1, r⟩⟩ := by
          have : s.tasks[k].pc = 0 ∨ s.tasks[k].pc = 1 ∨ s.tasks[k].pc = 2 ∨ s.tasks[k].pc = 3 := by omega
          rcases this with h | h | h | h
          · rw [h]; exact ⟨_, _, RaceStep.read1 s k _ hk h⟩
          · rw [h]; exact ⟨_, _, RaceStep.write1 s k _ hk h⟩
          · rw [h]; exact ⟨_, _, RaceStep.read2 s k _ hk h⟩
          · rw [h]; exact ⟨_, _, RaceStep.write2 s k _ hk h⟩
        obtain ⟨g1, r, hst⟩ := hstep
        have hsum := sum_map_set (fun t : RaceTask => 4 - t.pc) s.tasks k _
          ⟨s.tasks[k].edge, s.tasks[k].pc + 1, r⟩ hk
        obtain ⟨n, s', k1, k2⟩ := ih ⟨g1, s.tasks.set k ⟨s.tasks[k].edge, s.tasks[k].pc + 1, r⟩⟩ (by
          intro u hu
          rcases List.mem_or_eq_of_mem_set hu with hu | rfl
          · exact h4 u hu
          · simp only; omega) (by simp only at hsum ⊢; omega)
        obtain ⟨n', hn'⟩ := Steps.append (Steps.tail (Steps.refl s) hst) k1
        exact ⟨n', s', hn', k2⟩
  obtain ⟨n, s', h1, h2⟩ := key _ ⟨g, M.map fun e => ⟨e, 0, 0⟩⟩ (by
    intro t ht
    simp only [List.mem_map] at ht
    obtain ⟨e, _, rfl⟩ := ht
    simp) (le_refl _)
  exact ⟨s'.g, n, s'.tasks, h1, h2⟩

/-! ### executing a given schedule -/

/-- the next memory access of closure `k` -/
def raceNext (s : RaceState α) (k : Nat) : RaceState α :=
  match s.tasks[k]? with
  | none => s
  | some t =>
    match t.pc with
    | 0 => ⟨s.g, s.tasks.set k ⟨t.edge, 1, s.g.times t.edge.1 t.edge.2⟩⟩
    | 1 => ⟨s.g.setTimes t.edge.1 t.edge.2 (t.reg + 1), s.tasks.set k ⟨t.edge, 2, t.reg⟩⟩
    | 2 => ⟨s.g, s.tasks.set k ⟨t.edge, 3, s.g.times t.edge.2 t.edge.1⟩⟩
    | 3 => ⟨s.g.setTimes t.edge.2 t.edge.1 (t.reg + 1), s.tasks.set k ⟨t.edge, 4, t.reg⟩⟩
    | _ => s

/-- the accesses in the given order -/
def raceRun (g : MGraph α) (M : List (Nat × Nat)) (ks : List Nat) : RaceState α :=
  ks.foldl raceNext ⟨g, M.map fun e => ⟨e, 0, 0⟩⟩

theorem raceNext_step (s : RaceState α) (k : Nat) : raceNext s k = s ∨ RaceStep s (raceNext s k) := by
  unfold raceNext
  cases h : s.tasks[k]? with
  | none => exact Or.inl rfl
  | some t =>
    simp only
    match hp : t.pc with
    | 0 => exact Or.inr (.read1 s k t h hp)
    | 1 => exact Or.inr (.write1 s k t h hp)
    | 2 => exact Or.inr (.read2 s k t h hp)
    | 3 => exact Or.inr (.write2 s k t h hp)
    | _ + 4 => exact Or.inl rfl

theorem raceRun_ok {g : MGraph α} {M : List (Nat × Nat)} {ks : List Nat}
    (h : ((raceRun g M ks).tasks.all fun t => t.pc == 4) = true) :
    FillMatchingPar g M (raceRun g M ks).g := by
  have key : ∀ (ks : List Nat) (s s0 : RaceState α) (n : Nat), Steps RaceStep n s0 s →
      ∃ n', Steps RaceStep n' s0 (ks.foldl raceNext s) := by
    intro ks
    induction ks with
    | nil => intro s s0 n h; exact ⟨n, h⟩
    | cons k ks ih =>
      intro s s0 n h
      rw [List.foldl_cons]
      rcases raceNext_step s k with e | e
      · rw [e]; exact ih s s0 n h
      · exact ih _ s0 _ (h.tail e)
  obtain ⟨n, hn⟩ := key ks _ _ 0 (.refl _)
  refine ⟨n, (raceRun g M ks).tasks, hn, ?_⟩
  intro t ht
  have := List.all_eq_true.mp h t ht
  simpa using this

end Walky
