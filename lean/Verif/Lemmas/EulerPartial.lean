import Verif.Lemmas.Christofides

/-! # Helper lemmas: whatever the Euler walk search returns

The multigraph need not be symmetric here, and in release builds the multiplicities may wrap around. -/

set_option linter.unusedSectionVars false
set_option linter.unusedSimpArgs false

namespace Walky

open FloatOps Spec

section
variable {α : Type} [FloatOps α] {dbg : Bool}

theorem rm_bind_eq_ok {β γ : Type} {x : RM β} {f : β → RM γ} {y : γ} (h : (x >>= f) = .ok y) :
    ∃ b, x = .ok b ∧ f b = .ok y := by
  cases x with
  | error e => cases h
  | ok b => exact ⟨b, rfl, h⟩

theorem dec_eq_ok {g g' : MGraph α} {a b : Nat} (h : g.dec dbg a b = .ok g') :
    g'.dim = g.dim ∧ a < g.dim ∧ b < g.dim ∧ ∀ i j, ¬ (i = a ∧ j = b) → g'.times i j = g.times i j := by
  unfold MGraph.dec at h
  split at h
  · rename_i hab
    obtain ⟨x, -, h⟩ := rm_bind_eq_ok h
    have h := Except.ok.inj h
    subst h
    refine ⟨rfl, hab.1, hab.2, fun i j hij => ?_⟩
    rw [MGraph.times_setTimes, if_neg hij]
  · cases h

/-- the walk is only ever extended, by vertices of the graph; and it leaves `v` if there is an edge -/
theorem findCycleLoop_any : ∀ (fuel : Nat) (g : MGraph α) (deg : List Nat) (v : Nat) (cyc cyc' : List Nat)
    (g' : MGraph α) (deg' : List Nat), findCycleLoop dbg fuel g deg v cyc = .ok (cyc', g', deg') →
    g'.dim = g.dim ∧ ∃ ext, cyc' = cyc ++ ext ∧ (∀ x ∈ ext, x < g.dim) ∧
      ((∃ j < g.dim, j ≠ v ∧ g.times v j ≠ 0) → ∃ x ∈ ext, x ≠ v) := by
  intro fuel
  induction fuel with
  | zero => intro g deg v cyc cyc' g' deg' h; simp [findCycleLoop] at h
  | succ fuel ih =>
    intro g deg v cyc cyc' g' deg' h
    unfold findCycleLoop at h
    split at h
    · split at h
      · rename_i hnone
        have h := Except.ok.inj h
        have h1 := congrArg Prod.fst h
        have h2 := congrArg (fun x => x.2.1) h
        simp only at h1 h2
        subst h1 h2
        refine ⟨rfl, [], by simp, by simp, ?_⟩
        rintro ⟨j, hj, -, hne⟩
        exact absurd (by simpa using find?_range_none hnone j hj) hne
      · rename_i next hnext
        obtain ⟨g1, e1, h⟩ := rm_bind_eq_ok h
        obtain ⟨g2, e2, h⟩ := rm_bind_eq_ok h
        obtain ⟨d1, -, h⟩ := rm_bind_eq_ok h
        obtain ⟨d2, -, h⟩ := rm_bind_eq_ok h
        obtain ⟨d3, -, h⟩ := rm_bind_eq_ok h
        obtain ⟨d4, -, h⟩ := rm_bind_eq_ok h
        obtain ⟨a1, a2, a3, a4⟩ := dec_eq_ok e1
        obtain ⟨b1, -, -, b4⟩ := dec_eq_ok e2
        obtain ⟨c1, ext, c2, c3, c4⟩ := ih g2 _ next _ cyc' g' deg' h
        have hdim : g2.dim = g.dim := by rw [b1, a1]
        refine ⟨by rw [c1, hdim], next :: ext, by rw [c2]; simp, ?_, ?_⟩
        · intro x hx
          rcases List.mem_cons.mp hx with rfl | hx
          · exact a3
          · rw [← hdim]; exact c3 x hx
        · rintro ⟨j, hj, hjv, hne⟩
          by_cases hn : next = v
          · subst hn
            obtain ⟨x, x1, x2⟩ := c4 ⟨j, by rw [hdim]; exact hj, hjv, by
              rw [b4 _ _ (fun hc => hjv hc.2), a4 _ _ (fun hc => hjv hc.2)]; exact hne⟩
            exact ⟨x, List.mem_cons_of_mem _ x1, x2⟩
          · exact ⟨next, by simp, hn⟩
    · cases h

theorem eulerLoop_any : ∀ (fuel : Nat) (g : MGraph α) (deg walk w : List Nat),
    eulerLoop dbg fuel g deg walk = .ok w → (∀ x ∈ walk, x < g.dim) →
    (∀ x ∈ w, x < g.dim) ∧ ∀ x ∈ walk, x ∈ w := by
  intro fuel
  induction fuel with
  | zero => intro g deg walk w h; simp [eulerLoop] at h
  | succ fuel ih =>
    intro g deg walk w h hlt
    unfold eulerLoop at h
    obtain ⟨o, -, h⟩ := rm_bind_eq_ok h
    cases o with
    | none =>
      have h := Except.ok.inj h
      subst h
      exact ⟨hlt, fun x hx => hx⟩
    | some kv =>
      obtain ⟨k, v⟩ := kv
      simp only at h
      obtain ⟨⟨cyc, g', deg'⟩, hc, h⟩ := rm_bind_eq_ok h
      obtain ⟨c1, ext, c2, c3, -⟩ := findCycleLoop_any _ g deg v [v] cyc g' deg' hc
      have hmem : ∀ x, x ∈ walk.take (k + 1) ++ cyc.drop 1 ++ walk.drop (k + 1) ↔ x ∈ walk ∨ x ∈ ext := by
        intro x
        rw [c2]
        simp only [List.cons_append, List.nil_append, List.drop_succ_cons, List.drop_zero, List.mem_append]
        constructor
        · rintro ((h | h) | h)
          · exact Or.inl (List.mem_of_mem_take h)
          · exact Or.inr h
          · exact Or.inl (List.mem_of_mem_drop h)
        · rintro (h | h)
          · rw [← List.take_append_drop (k + 1) walk, List.mem_append] at h
            tauto
          · tauto
      obtain ⟨d1, d2⟩ := ih g' deg' _ w h (by
        intro x hx
        rw [c1]
        rcases (hmem x).mp hx with hx | hx
        · exact hlt x hx
        · exact c3 x hx)
      exact ⟨by rw [← c1]; exact d1, fun x hx => d2 x ((hmem x).mpr (Or.inl hx))⟩

/-- Whatever multigraph, if the walk search returns: the walk starts at 0 and consists of vertices, and it
leaves 0 if there are edges from and to 0. -/
theorem eulerianCycle_any {g : MGraph α} {w : List Nat} (h : eulerianCycle dbg g = .ok w) (h0 : 0 < g.dim) :
    w.head? = some 0 ∧ (∀ x ∈ w, x < g.dim) ∧
      ((∃ j < g.dim, j ≠ 0 ∧ g.times 0 j ≠ 0) → (∃ i < g.dim, g.times i 0 ≠ 0) → ∃ x ∈ w, x ≠ 0) := by
  refine ⟨eulerLoop_head 0 _ _ _ _ _ rfl h, (eulerLoop_any _ _ _ _ _ h (by simpa using h0)).1, ?_⟩
  intro hj hi
  unfold eulerianCycle at h
  obtain ⟨k, hk⟩ := Nat.exists_eq_succ_of_ne_zero (Nat.add_pos_left vecLimit_pos (multiDegrees g).sum).ne'
  rw [hk, eulerLoop] at h
  have hget : (multiDegrees g)[0]? = some ((List.range g.dim).map fun i => g.times i 0).sum := by
    unfold multiDegrees
    rw [List.getElem?_map, List.getElem?_range h0]
    rfl
  have hne : ((List.range g.dim).map fun i => g.times i 0).sum ≠ 0 := by
    obtain ⟨i, hi, hne⟩ := hi
    intro hc
    rw [List.sum_eq_zero_iff] at hc
    exact hne (hc _ (List.mem_map.mpr ⟨i, by simpa using hi, rfl⟩))
  have hopen : findOpen (multiDegrees g) [0] 0 = .ok (some (0, 0)) := by
    rw [findOpen, idx_ok hget, rm_bind_ok, if_pos hne]
    rfl
  rw [hopen, rm_bind_ok] at h
  simp only at h
  obtain ⟨⟨cyc, g', deg'⟩, hc, h⟩ := rm_bind_eq_ok h
  obtain ⟨c1, ext, c2, c3, c4⟩ := findCycleLoop_any _ g _ 0 [0] cyc g' deg' hc
  obtain ⟨x, x1, x2⟩ := c4 hj
  obtain ⟨-, d2⟩ := eulerLoop_any _ _ _ _ _ h (by
    intro y hy
    rw [c1]
    rw [c2] at hy
    simp at hy
    rcases hy with rfl | hy
    · exact h0
    · exact c3 y hy)
  exact ⟨x, d2 x (by rw [c2]; simp [x1]), x2⟩

/-- no interleaving of the increments makes an entry smaller -/
theorem fillMatchingPar_ge {g g' : MGraph α} {M : List (Nat × Nat)} (h : FillMatchingPar g M g') :
    g'.dim = g.dim ∧ ∀ i j, g.times i j ≤ g'.times i j := by
  obtain ⟨n, tasks, hs, _⟩ := h
  have key : ∀ (n : Nat) (s s' : RaceState α), Steps RaceStep n s s' →
      (s.g.dim = g.dim ∧ (∀ i j, g.times i j ≤ s.g.times i j) ∧
        ∀ t ∈ s.tasks, (t.pc = 1 → g.times t.edge.1 t.edge.2 ≤ t.reg + 1) ∧
          (t.pc = 3 → g.times t.edge.2 t.edge.1 ≤ t.reg + 1)) →
      (s'.g.dim = g.dim ∧ (∀ i j, g.times i j ≤ s'.g.times i j) ∧
        ∀ t ∈ s'.tasks, (t.pc = 1 → g.times t.edge.1 t.edge.2 ≤ t.reg + 1) ∧
          (t.pc = 3 → g.times t.edge.2 t.edge.1 ≤ t.reg + 1)) := by
    intro n s s' h
    induction h with
    | refl => exact id
    | tail _ hstep ih =>
      intro h0
      obtain ⟨i1, i2, i3⟩ := ih h0
      cases hstep with
      | read1 k t hk hp =>
        refine ⟨i1, i2, ?_⟩
        intro t' ht'
        rcases List.mem_or_eq_of_mem_set ht' with h | rfl
        · exact i3 t' h
        · refine ⟨fun _ => ?_, fun hc => by simp at hc⟩
          have := i2 t.edge.1 t.edge.2
          simp only
          omega
      | write1 k t hk hp =>
        have ht := (i3 t (List.mem_of_getElem? hk)).1 hp
        refine ⟨i1, ?_, ?_⟩
        · intro i j
          rw [MGraph.times_setTimes]
          split
          · rename_i hij
            rw [hij.1, hij.2]; exact ht
          · exact i2 i j
        · intro t' ht'
          rcases List.mem_or_eq_of_mem_set ht' with h | rfl
          · exact i3 t' h
          · exact ⟨fun hc => by simp at hc, fun hc => by simp at hc⟩
      | read2 k t hk hp =>
        refine ⟨i1, i2, ?_⟩
        intro t' ht'
        rcases List.mem_or_eq_of_mem_set ht' with h | rfl
        · exact i3 t' h
        · refine ⟨fun hc => by simp at hc, fun _ => ?_⟩
          have := i2 t.edge.2 t.edge.1
          simp only
          omega
      | write2 k t hk hp =>
        have ht := (i3 t (List.mem_of_getElem? hk)).2 hp
        refine ⟨i1, ?_, ?_⟩
        · intro i j
          rw [MGraph.times_setTimes]
          split
          · rename_i hij
            rw [hij.1, hij.2]; exact ht
          · exact i2 i j
        · intro t' ht'
          rcases List.mem_or_eq_of_mem_set ht' with h | rfl
          · exact i3 t' h
          · exact ⟨fun hc => by simp at hc, fun hc => by simp at hc⟩
  have := key n _ _ hs ⟨rfl, fun _ _ => le_refl _, by
    intro t ht
    obtain ⟨e, _, rfl⟩ := List.mem_map.mp ht
    exact ⟨fun hc => by simp at hc, fun hc => by simp at hc⟩⟩
  exact ⟨this.1, this.2.1⟩

end

section
open XNum
variable {K : Type} [Field K] [LinearOrder K] [IsStrictOrderedRing K]

/-- Whatever multigraph contains the edges of a spanning tree in both directions, in every build: a
returned solution is a closed walk from city 0 without repetitions, with its length. -/
theorem christofidesTail_any {m : Mat (XNum K)} {c : Nat → Nat → K} (hm : Rep m c) (hn : 1 ≤ m.dim)
    {E : List (Nat × Nat)} (hE : IsSpanningTree (List.range m.dim) E) {g : MGraph (XNum K)}
    (hdim : g.dim = m.dim) (hg : ∀ i j, i < m.dim → j < m.dim → Joined E i j → g.times i j ≠ 0) {dbg : Bool}
    {sol : Solution (XNum K)} (h : christofidesTail dbg m g = .ok sol) :
    ∃ p, sol = (fin (tourCost c p), p ++ [0]) ∧ p.head? = some 0 ∧ p.Nodup ∧ (∀ x ∈ p, x < m.dim) ∧
      (m.dim = 1 ∨ 2 ≤ p.length) := by
  unfold christofidesTail at h
  obtain ⟨walk, hw, h⟩ := rm_bind_eq_ok h
  obtain ⟨hhead, hv, hleave⟩ := eulerianCycle_any hw (by omega)
  rw [hdim] at hv
  obtain ⟨t, rfl⟩ : ∃ t, walk = 0 :: t := by
    cases walk with
    | nil => simp at hhead
    | cons x t => simp at hhead; exact ⟨t, by rw [hhead]⟩
  rw [hamiltonian_ok hv, rm_bind_ok] at h
  have h0 : (firstOcc [] (0 :: t)).head? = some 0 := by simp [firstOcc]
  have hlong : m.dim = 1 ∨ 2 ≤ (firstOcc [] (0 :: t)).length := by
    by_cases h1 : m.dim = 1
    · exact Or.inl h1
    · right
      have hnb : ∃ j, j < m.dim ∧ j ≠ 0 ∧ Joined E 0 j := by
        have hc := hE.conn 0 (by simp; omega) 1 (by simp; omega)
        have key : ∀ y, Relation.ReflTransGen (Joined E) 0 y → y = 0 ∨ ∃ j, j ≠ 0 ∧ Joined E 0 j := by
          intro y hy
          induction hy with
          | refl => exact Or.inl rfl
          | @tail y z _ hyz ih =>
            rcases ih with rfl | ih
            · by_cases hz : z = 0
              · exact Or.inl hz
              · exact Or.inr ⟨z, hz, hyz⟩
            · exact Or.inr ih
        obtain ⟨j, j1, j2⟩ := (key 1 hc).resolve_left (by decide)
        refine ⟨j, ?_, j1, j2⟩
        rcases j2 with h | h
        · exact (spanning_valid hE _ h).2
        · exact (spanning_valid hE _ h).1
      obtain ⟨j, j1, j2, j3⟩ := hnb
      obtain ⟨x, x1, x2⟩ := hleave ⟨j, by omega, j2, hg 0 j (by omega) j1 j3⟩
        ⟨j, by omega, hg j 0 j1 (by omega) (joined_comm.mp j3)⟩
      have hx : x ∈ firstOcc [] (0 :: t) := mem_firstOcc.mpr ⟨x1, by simp⟩
      have h00 : 0 ∈ firstOcc [] (0 :: t) := List.mem_of_head? h0
      by_contra hlt
      have hlen : (firstOcc [] (0 :: t)).length = 1 := by
        have := List.length_pos_of_mem hx
        omega
      obtain ⟨y, hy⟩ := List.length_eq_one_iff.mp hlen
      rw [hy] at hx h00
      simp at hx h00
      exact x2 (hx.trans h00.symm)
  have hlt : ∀ x ∈ firstOcc [] (0 :: t), x < m.dim := fun x hx => hv x (mem_firstOcc.mp hx).1
  obtain ⟨cs, k1, k2⟩ := closed_walk_costs hm hlt (firstOcc_nodup _ _) hlong h0
  rw [k1, rm_bind_ok] at h
  split at h
  · cases h
  · have h := Except.ok.inj h
    exact ⟨_, by rw [← h, k2], h0, firstOcc_nodup _ _, hlt, hlong⟩

end

end Walky
