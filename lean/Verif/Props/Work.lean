import Verif.Lemmas.SearchLog
import Verif.Lemmas.Bounds
import Verif.Props.Robust

/-!
# How much work the exact solvers do (C106)
-/

set_option linter.unusedSectionVars false

namespace Walky.Props

open FloatOps XNum Spec

section lawfree
variable {α : Type} [FloatOps α]

/-- the common entry point `solveDfs`, with a record of every prefix for which the pruning test is
evaluated (in order), together with the answer -/
def solveLogged {σ : Type} (m : Mat α) (test : PruneTest σ α) (aux : σ) :
    RM (Solution α × σ × List (List Nat × Bool)) :=
  dfs m (logged test) (m.dim + 1) [] zero ((inf, []), (aux, []))

/-- **C106, the record does not change the search.** -/
theorem C106_record {σ : Type} (m : Mat α) (test : PruneTest σ α) (aux : σ) :
    (solveLogged m test aux).map Prod.fst = solveDfs m test aux := by
  have h := dfs_logged m test (m.dim + 1) [] zero (inf, []) aux [] (validPre_nil _)
  unfold solveLogged solveDfs
  cases h1 : dfs m (logged test) (m.dim + 1) [] zero ((inf, []), (aux, [])) with
  | ok r =>
    cases h2 : dfs m test (m.dim + 1) [] zero ((inf, []), aux) with
    | ok r' =>
      rw [h1, h2] at h
      simp only [Except.map, rm_bind_ok, rm_pure]
      rw [h.1]
    | error e => rw [h1, h2] at h; exact absurd h (by simp [RelRes])
  | error e =>
    cases h2 : dfs m test (m.dim + 1) [] zero ((inf, []), aux) with
    | ok r' => rw [h1, h2] at h; exact absurd h (by simp [RelRes])
    | error e' =>
      rw [h1, h2] at h
      have h' : e = e' := h
      subst h'
      rfl

/-- **C106, what a search with pruning tests.** For every arithmetic, every matrix and every pruning
test: no prefix is tested twice, and a list `p` of at least two cities is tested if and only if it is a
repetition-free list of cities and the test has succeeded for all shorter prefixes of at least two
cities. -/
theorem C106_tested {σ : Type} {m : Mat α} {test : PruneTest σ α} {aux : σ}
    {r : Solution α × σ × List (List Nat × Bool)} (h : solveLogged m test aux = .ok r) :
    (r.2.2.map Prod.fst).Nodup ∧
    ∀ p, p ∈ r.2.2.map Prod.fst ↔ p.Nodup ∧ (∀ i ∈ p, i < m.dim) ∧ 2 ≤ p.length ∧
      ∀ q, q <+: p → 2 ≤ q.length → q.length < p.length → (q, true) ∈ r.2.2 := by
  obtain ⟨L, h1, h2⟩ := dfs_log m test _ _ _ _ _ _ _ h
  rw [List.nil_append] at h2
  rw [h2]
  refine ⟨h1.nodup, fun p => ?_⟩
  rw [h1.mem_iff (validPre_nil _)]
  constructor
  · rintro ⟨a1, a2, -, -, a3⟩
    exact ⟨a1.1, a1.2, a2, fun q q1 q2 q3 => a3 q q1 q2 (by simp; omega) q3⟩
  · rintro ⟨a1, a2, a3, a4⟩
    exact ⟨⟨a1, a2⟩, a3, List.nil_prefix, by simp; omega, fun q q1 q2 _ q3 => a4 q q1 q2 q3⟩

/-- the number of tests for prefixes of length `k` -/
def testsOfLength (L : List (List Nat × Bool)) (k : Nat) : Nat :=
  (L.filter fun x => x.1.length == k).length

private theorem sub_prefixesOf {n : Nat} {L : List (List Nat × Bool)} (hnd : (L.map Prod.fst).Nodup)
    (hv : ∀ p ∈ L.map Prod.fst, ValidPre n p) (k : Nat) :
    ((L.filter fun x => x.1.length == k).map Prod.fst).Subperm (prefixesOf n k) := by
  refine List.subperm_of_subset (hnd.sublist (List.filter_sublist.map _)) ?_
  intro p hp
  rw [List.mem_map] at hp
  obtain ⟨x, hx, rfl⟩ := hp
  rw [List.mem_filter] at hx
  exact mem_prefixesOf.mpr ⟨hv _ (List.mem_map_of_mem hx.1), by simpa using hx.2⟩

private theorem length_eq_sum {n : Nat} {L : List (List Nat × Bool)}
    (hv : ∀ p ∈ L.map Prod.fst, 2 ≤ p.length ∧ p.length ≤ n) :
    L.length = ((List.range' 2 (n - 1)).map (testsOfLength L)).sum := by
  induction L with
  | nil =>
    have : ∀ l : List Nat, (l.map (testsOfLength [])).sum = 0 := by
      intro l
      induction l with
      | nil => rfl
      | cons a l ih =>
        rw [List.map_cons, List.sum_cons, ih]
        rfl
    simp [this]
  | cons x L ih =>
    have hx := hv x.1 (by simp)
    have ih' := ih (fun p hp => hv p (by simp only [List.map_cons, List.mem_cons]; exact Or.inr hp))
    have key : ∀ l : List Nat, (l.map (testsOfLength (x :: L))).sum =
        l.count x.1.length + (l.map (testsOfLength L)).sum := by
      intro l
      induction l with
      | nil => rfl
      | cons a l ih2 =>
        rw [List.map_cons, List.sum_cons, ih2, List.map_cons, List.sum_cons, List.count_cons]
        unfold testsOfLength
        rw [List.filter_cons]
        by_cases h : x.1.length = a
        · subst h; simp; omega
        · have h' : ¬ a = x.1.length := fun e => h e.symm
          simp [h, h']
          omega
    rw [key, ← ih', List.length_cons]
    have : (List.range' 2 (n - 1)).count x.1.length = 1 := by
      apply List.count_eq_one_of_mem
      · exact List.nodup_range'
      · rw [List.mem_range']
        exact ⟨x.1.length - 2, by omega, by omega⟩
    omega

private theorem sum_le_three (n : Nat) (f : Nat → Nat) (hf : ∀ k, f k ≤ n.descFactorial k) (hn : 1 ≤ n) :
    ((List.range' 2 (n - 1)).map f).sum + 1 ≤ 3 * n.factorial := by
  refine le_trans ?_ (sum_descFactorial_le n hn)
  have h1 : ((List.range' 2 (n - 1)).map f).sum ≤
      ((List.range' 2 (n - 1)).map fun k => n.descFactorial k).sum :=
    List.sum_le_sum (fun k _ => hf k)
  have h2 : ((List.range' 2 (n - 1)).map fun k => n.descFactorial k).sum ≤
      ((List.range (n + 1)).map fun k => n.descFactorial k).sum := by
    have hs : (List.range' 2 (n - 1)).Sublist (List.range (n + 1)) := by
      rw [List.range_eq_range', show n + 1 = 2 + (n - 1) by omega]
      rw [← List.range'_append_1]
      exact List.sublist_append_right _ _
    exact (hs.map _).sum_le_sum (fun _ _ => Nat.zero_le _)
  omega

/-- **C106, upper bound for every pruning test.** A search tests at most `n (n-1) ⋯ (n-k+1)` prefixes
of length `k`, in particular it looks at no more than `n!` complete tours, and it makes fewer than
`3 n!` tests altogether. -/
theorem C106_at_most {σ : Type} {m : Mat α} {test : PruneTest σ α} {aux : σ}
    {r : Solution α × σ × List (List Nat × Bool)} (hn : 1 ≤ m.dim)
    (h : solveLogged m test aux = .ok r) :
    (∀ k, testsOfLength r.2.2 k ≤ m.dim.descFactorial k) ∧
    testsOfLength r.2.2 m.dim ≤ m.dim.factorial ∧ r.2.2.length < 3 * m.dim.factorial := by
  obtain ⟨h1, h2⟩ := C106_tested h
  have hv : ∀ p ∈ r.2.2.map Prod.fst, ValidPre m.dim p := fun p hp =>
    ⟨((h2 p).mp hp).1, ((h2 p).mp hp).2.1⟩
  have hk : ∀ k, testsOfLength r.2.2 k ≤ m.dim.descFactorial k := by
    intro k
    have := (sub_prefixesOf h1 hv k).length_le
    rw [length_prefixesOf, List.length_map] at this
    exact this
  refine ⟨hk, ?_, ?_⟩
  · have := hk m.dim
    rwa [Nat.descFactorial_self] at this
  · rw [length_eq_sum (n := m.dim) (fun p hp => ⟨((h2 p).mp hp).2.2.1, (hv p hp).length_le⟩)]
    have := sum_le_three m.dim (testsOfLength r.2.2) hk hn
    omega

/-- when all answers are `true`, everything has been tested -/
private theorem all_tested {σ : Type} {m : Mat α} {test : PruneTest σ α} {aux : σ}
    {r : Solution α × σ × List (List Nat × Bool)} (h : solveLogged m test aux = .ok r)
    (hall : ∀ x ∈ r.2.2, x.2 = true) :
    (∀ p, p ∈ r.2.2.map Prod.fst ↔ p.Nodup ∧ (∀ i ∈ p, i < m.dim) ∧ 2 ≤ p.length) ∧
    (∀ k, 2 ≤ k → testsOfLength r.2.2 k = m.dim.descFactorial k) := by
  obtain ⟨h1, h2⟩ := C106_tested h
  have hmem : ∀ p, p ∈ r.2.2.map Prod.fst ↔ p.Nodup ∧ (∀ i ∈ p, i < m.dim) ∧ 2 ≤ p.length := by
    intro p
    constructor
    · intro hp
      obtain ⟨a1, a2, a3, -⟩ := (h2 p).mp hp
      exact ⟨a1, a2, a3⟩
    · generalize hN : p.length = N
      induction N using Nat.strong_induction_on generalizing p with
      | _ N ih =>
        rintro ⟨a1, a2, a3⟩
        refine (h2 p).mpr ⟨a1, a2, by omega, fun q q1 q2 q3 => ?_⟩
        have hq := ih q.length (by omega) q rfl ⟨a1.sublist q1.sublist,
          fun i hi => a2 i (q1.subset hi), q2⟩
        rw [List.mem_map] at hq
        obtain ⟨⟨q', b⟩, hx, e⟩ := hq
        have hb := hall _ hx
        simp only at e hb
        subst e hb
        exact hx
  refine ⟨hmem, fun k hk => ?_⟩
  have hv : ∀ p ∈ r.2.2.map Prod.fst, ValidPre m.dim p := fun p hp =>
    ⟨((h2 p).mp hp).1, ((h2 p).mp hp).2.1⟩
  have hs : (prefixesOf m.dim k).Subperm
      ((r.2.2.filter fun x => x.1.length == k).map Prod.fst) := by
    refine List.subperm_of_subset (nodup_prefixesOf _ _) ?_
    intro p hp
    obtain ⟨b1, b2⟩ := mem_prefixesOf.mp hp
    have := (hmem p).mpr ⟨b1.1, b1.2, by omega⟩
    rw [List.mem_map] at this ⊢
    obtain ⟨x, hx, rfl⟩ := this
    exact ⟨x, List.mem_filter.mpr ⟨hx, by simpa using b2⟩, rfl⟩
  have i1 := hs.length_le
  have i2 := (sub_prefixesOf h1 hv k).length_le
  rw [length_prefixesOf, List.length_map] at i1 i2
  exact le_antisymm i2 i1

/-- **C106, v2.** The version without pruning looks at every repetition-free list of at least two
cities exactly once: `n (n-1) ⋯ (n-k+1)` lists of length `k`, in particular at all `n!` tours. -/
theorem C106_v2 (m : Mat α) (hn : 1 ≤ m.dim) :
    ∃ r : Solution α × Unit × List (List Nat × Bool), solveLogged m test2 () = .ok r ∧
      secondImprovedSolver m = .ok r.1 ∧
      (r.2.2.map Prod.fst).Nodup ∧
      (∀ p, p ∈ r.2.2.map Prod.fst ↔ p.Nodup ∧ (∀ i ∈ p, i < m.dim) ∧ 2 ≤ p.length) ∧
      (∀ k, 2 ≤ k → testsOfLength r.2.2 k = m.dim.descFactorial k) ∧
      (2 ≤ m.dim → testsOfLength r.2.2 m.dim = m.dim.factorial) := by
  obtain ⟨r, h1, h2, -⟩ := dfs_through m (logged test2) (fun s => ∀ x ∈ s.2, x.2 = true)
    (fun _ _ => True) (fun _ => True)
    (fun a p x b ha _ _ _ _ => ⟨((), a.2 ++ [(p, true)]), rfl, by
      intro y hy
      rw [List.mem_append, List.mem_singleton] at hy
      rcases hy with hy | rfl
      · exact ha y hy
      · rfl⟩)
    (fun _ _ _ _ => trivial) (fun _ _ _ _ _ _ => ⟨trivial, trivial⟩)
    (fun _ _ _ _ _ _ _ _ => trivial) hn (m.dim + 1) [] zero ((inf, []), ((), []))
    (validPre_nil _) (by simp) (by simp) trivial trivial
  have h : solveLogged m test2 () = .ok r := h1
  obtain ⟨a1, a2⟩ := all_tested h h2
  refine ⟨r, h, ?_, (C106_tested h).1, a1, a2, fun hk => ?_⟩
  · have := C106_record m test2 ()
    rw [h] at this
    exact this.symm
  · rw [a2 _ hk, Nat.descFactorial_self]

/-! ## v0 and v1 -/

/-- **C106, v0.** The loop over all permutations computes the cost of every tour except the starting
permutation `0, 1, …, n-1` exactly once: `n! - 1` evaluations, and keeps the first cheapest. -/
theorem C106_v0 (m : Mat α) :
    ∃ l : List (List Nat), l.Nodup ∧ (∀ p, p ∈ l ↔ IsTour m.dim p ∧ p ≠ List.range m.dim) ∧
      l.length + 1 = m.dim.factorial ∧
      naiveSolver m = l.foldlM (keepBetter m) (inf, List.range m.dim) := by
  obtain ⟨l, h1, h2, h3⟩ := run_nextPermutation (List.range m.dim)
  have hnd : l.Nodup := h2.imp (fun h => ne_of_lt h)
  have hmem : ∀ p, p ∈ l ↔ IsTour m.dim p ∧ p ≠ List.range m.dim := by
    intro p
    rw [h3]
    exact ⟨fun h => ⟨h.1, (ne_of_lt h.2).symm⟩, fun h => ⟨h.1, range_le h.1 h.2⟩⟩
  have hlen : l.length + 1 = m.dim.factorial := by
    have hp : (List.range m.dim :: l).Perm (List.range m.dim).permutations := by
      refine (List.perm_ext_iff_of_nodup ?_ ?_).mpr ?_
      · rw [List.nodup_cons]
        exact ⟨fun h => ((hmem _).mp h).2 rfl, hnd⟩
      · exact List.nodup_permutations _ List.nodup_range
      · intro p
        rw [List.mem_cons, List.mem_permutations, hmem]
        constructor
        · rintro (rfl | h)
          · exact List.Perm.refl _
          · exact h.1
        · intro h
          by_cases e : p = List.range m.dim
          · exact Or.inl e
          · exact Or.inr ⟨h, e⟩
    have := hp.length_eq
    rw [List.length_permutations, List.length_range] at this
    simpa using this
  exact ⟨l, hnd, hmem, hlen, permLoop_fold h1 _ _ (by omega)⟩

/-- **C106, v1.** With the first city fixed, the loop computes the cost of every tour that starts with
city 0, except the starting permutation, exactly once: `(n-1)! - 1` evaluations. -/
theorem C106_v1 (m : Mat α) (hn : 1 ≤ m.dim) :
    ∃ l : List (List Nat), l.Nodup ∧
      (∀ p, p ∈ l ↔ IsTour m.dim p ∧ p.head? = some 0 ∧ p ≠ List.range m.dim) ∧
      l.length + 1 = (m.dim - 1).factorial ∧
      firstImprovedSolver m = l.foldlM (keepBetter m) (inf, List.range m.dim) := by
  obtain ⟨k, hk⟩ : ∃ k, m.dim = k + 1 := ⟨m.dim - 1, by omega⟩
  have hr : List.range m.dim = 0 :: List.range' 1 k := by
    rw [hk, List.range_eq_range', List.range'_succ]
  obtain ⟨l, h1, h2, h3⟩ := run_nextPermutation (List.range' 1 k)
  have h1' := run_tail 0 h1
  rw [← hr] at h1'
  have hnd : l.Nodup := h2.imp (fun h => ne_of_lt h)
  have hmem : ∀ p, p ∈ l.map (0 :: ·) ↔
      IsTour m.dim p ∧ p.head? = some 0 ∧ p ≠ List.range m.dim := by
    intro p
    rw [List.mem_map]
    constructor
    · rintro ⟨q, hq, rfl⟩
      obtain ⟨a1, a2⟩ := (h3 q).mp hq
      refine ⟨?_, rfl, ?_⟩
      · unfold IsTour
        rw [hr]
        exact a1.cons 0
      · rw [hr]
        intro e
        injection e with _ e
        exact (ne_of_lt a2).symm e
    · rintro ⟨a1, a2, a3⟩
      cases p with
      | nil => simp at a2
      | cons x q =>
        have hx : x = 0 := by simpa using a2
        subst hx
        refine ⟨q, (h3 q).mpr ?_, rfl⟩
        have hp : q.Perm (List.range' 1 k) := by
          unfold IsTour at a1
          rw [hr] at a1
          exact (List.perm_cons 0).mp a1
        refine ⟨hp, ?_⟩
        have := range_le a1 a3
        rw [hr, List.cons_lt_cons_iff] at this
        rcases this with h | h
        · omega
        · exact h.2
  have hlen : l.length + 1 = (m.dim - 1).factorial := by
    have hp : (List.range' 1 k :: l).Perm (List.range' 1 k).permutations := by
      refine (List.perm_ext_iff_of_nodup ?_ ?_).mpr ?_
      · rw [List.nodup_cons]
        exact ⟨fun h => absurd ((h3 _).mp h).2 (lt_irrefl _), hnd⟩
      · exact List.nodup_permutations _ List.nodup_range'
      · intro p
        rw [List.mem_cons, List.mem_permutations]
        constructor
        · rintro (rfl | h)
          · exact List.Perm.refl _
          · exact ((h3 p).mp h).1
        · intro h
          by_cases e : p = List.range' 1 k
          · exact Or.inl e
          · right
            have hm : IsTour m.dim (0 :: p) := by
              unfold IsTour
              rw [hr]
              exact h.cons 0
            have h5 := (hmem (0 :: p)).mpr ⟨hm, rfl, by rw [hr]; simpa using e⟩
            rw [List.mem_map] at h5
            obtain ⟨q, hq, e'⟩ := h5
            injection e' with _ e'
            rwa [← e']
    have := hp.length_eq
    rw [List.length_permutations, List.length_range'] at this
    rw [hk]
    simpa using this
  refine ⟨l.map (0 :: ·), hnd.map (fun a b h => by simpa using h), hmem, by simpa using hlen, ?_⟩
  refine permLoop_fold h1' _ _ ?_
  rw [List.length_map]
  have := Nat.factorial_le (Nat.sub_le m.dim 1)
  omega

/-! ## the cache of v6 -/

/-- **C106, v6 computes every bound.** Whatever is in the cache, the spanning tree of the remaining
cities is computed at every test: if that computation panics, so does the test, hit or no hit. -/
theorem C106_v6_eager (m : Mat α) (hash : List Nat → Nat) (cache : Cache α) (p : List Nat) (x b : α)
    {e : Panic} (h : mstBound m p = .error e) : test6 m hash cache p x b = .error e := by
  unfold test6
  rw [h]
  rfl

private theorem mem_of_lookup {k : Nat} {v : α} : ∀ {l : Cache α}, l.lookup k = some v →
    k ∈ l.map Prod.fst := by
  intro l
  induction l with
  | nil => intro h; simp at h
  | cons x l ih =>
    intro h
    rw [List.lookup_cons] at h
    split at h
    · rename_i hk
      have : k = x.1 := by simpa using hk
      simp [this]
    · simp only [List.map_cons, List.mem_cons]
      exact Or.inr (ih h)

private theorem not_mem_of_lookup {k : Nat} : ∀ {l : Cache α}, l.lookup k = none →
    k ∉ l.map Prod.fst := by
  intro l
  induction l with
  | nil => intro h; simp
  | cons x l ih =>
    intro h
    rw [List.lookup_cons] at h
    split at h
    · simp at h
    · rename_i hk
      have : k ≠ x.1 := by simpa using hk
      simp only [List.map_cons, List.mem_cons, not_or]
      exact ⟨this, ih h⟩

/-- **C106, v6.** If the hash has no collisions on prefixes, then v6 makes exactly the tests of v5 with
the same answers, and at the end the cache has one entry for each of them: no entry is ever used. -/
theorem C106_v6 (m : Mat α) (hash : List Nat → Nat)
    (hinj : ∀ p q : List Nat, p.Nodup → q.Nodup → (∀ i ∈ p, i < m.dim) → (∀ i ∈ q, i < m.dim) →
      hash p = hash q → p = q) {r : Solution α × Cache α × List (List Nat × Bool)}
    (h : solveLogged m (test6 m hash) [] = .ok r) :
    solveLogged m (test5 m) () = .ok (r.1, (), r.2.2) ∧
      (r.2.1.map Prod.fst).Nodup ∧
      (∀ k, k ∈ r.2.1.map Prod.fst ↔ ∃ x ∈ r.2.2, hash x.1 = k) ∧ r.2.1.length = r.2.2.length := by
  have hs := dfs_sim m (logged (test6 m hash)) (logged (test5 m))
    (fun s t => s.2 = t.2 ∧ (∀ x ∈ s.2, ValidPre m.dim x.1) ∧ (s.1.map Prod.fst).Nodup ∧
      (∀ k, k ∈ s.1.map Prod.fst ↔ ∃ x ∈ s.2, hash x.1 = k) ∧
      ∀ p v, ValidPre m.dim p → s.1.lookup (hash p) = some v → mstBound m p = .ok v)
    (by
      rintro ⟨cache, L⟩ ⟨u, L'⟩ p x y ⟨hL, hS1, hS2, hS3, hS4⟩ hp _
      simp only at hL hS1 hS2 hS3 hS4
      subst hL
      have hval : ∀ b, ∀ z ∈ L ++ [(p, b)], ValidPre m.dim z.1 := by
        intro b z hz
        rw [List.mem_append, List.mem_singleton] at hz
        rcases hz with hz | rfl
        · exact hS1 z hz
        · exact hp
      unfold logged test6 test5
      cases hb : mstBound m p with
      | error e => exact rfl
      | ok lb =>
        simp only [rm_bind_ok, rm_pure]
        cases hl : cache.lookup (hash p) with
        | some v =>
          have := hS4 p v hp hl
          rw [hb] at this
          have : lb = v := by simpa using this
          subst this
          refine ⟨rfl, rfl, hval _, hS2, ?_, hS4⟩
          intro k
          simp only [List.mem_append, List.mem_singleton]
          rw [hS3]
          constructor
          · rintro ⟨z, hz, e⟩
            exact ⟨z, Or.inl hz, e⟩
          · rintro ⟨z, hz | rfl, e⟩
            · exact ⟨z, hz, e⟩
            · subst e
              rw [← hS3]
              exact mem_of_lookup hl
        | none =>
          refine ⟨rfl, rfl, hval _, ?_, ?_, ?_⟩
          · simp only [List.map_cons, List.nodup_cons]
            exact ⟨not_mem_of_lookup hl, hS2⟩
          · intro k
            rw [List.map_cons, List.mem_cons, hS3]
            simp only [List.mem_append, List.mem_singleton]
            constructor
            · rintro (rfl | ⟨z, hz, e⟩)
              · exact ⟨_, Or.inr rfl, rfl⟩
              · exact ⟨z, Or.inl hz, e⟩
            · rintro ⟨z, hz | rfl, e⟩
              · exact Or.inr ⟨z, hz, e⟩
              · exact Or.inl e.symm
          · intro q v hq hv
            rw [List.lookup_cons] at hv
            split at hv
            · rename_i hk
              have : hash q = hash p := by simpa using hk
              have := hinj q p hq.1 hp.1 hq.2 hp.2 this
              subst this
              rw [hb]
              simpa using hv
            · exact hS4 q v hq hv)
    (m.dim + 1) [] zero (inf, []) ([], []) ((), []) (validPre_nil _)
    ⟨rfl, by simp, by simp, by simp, by intro p v _ h; simp at h⟩
  have h' := h
  unfold solveLogged at h ⊢
  rw [h] at hs
  cases h5 : dfs m (logged (test5 m)) (m.dim + 1) [] zero ((inf, []), ((), [])) with
  | error e => rw [h5] at hs; exact absurd hs (by simp [RelRes])
  | ok r' =>
    rw [h5] at hs
    obtain ⟨a1, a2, a3, a4, a5, -⟩ := hs
    refine ⟨?_, a4, a5, ?_⟩
    · obtain ⟨r1, u, r2⟩ := r'
      simp only at a1 a2
      rw [a1, a2]
    · have hnd := (C106_tested h').1
      have hperm : (r.2.1.map Prod.fst).Perm (r.2.2.map fun x => hash x.1) := by
        refine (List.perm_ext_iff_of_nodup a4 ?_).mpr ?_
        · rw [show (r.2.2.map fun x => hash x.1) = (r.2.2.map Prod.fst).map hash by simp]
          refine List.Nodup.map_on ?_ hnd
          intro p hp q hq e
          rw [List.mem_map] at hp hq
          obtain ⟨x, hx, rfl⟩ := hp
          obtain ⟨y, hy, rfl⟩ := hq
          exact hinj _ _ (a3 x hx).1 (a3 y hy).1 (a3 x hx).2 (a3 y hy).2 e
        · intro k
          rw [a5, List.mem_map]
      simpa using hperm.length_eq

end lawfree

section exact
variable {K : Type} [Field K] [LinearOrder K] [IsStrictOrderedRing K]

private theorem nnOfRemaining_zero (n : Nat) (p : List Nat) :
    nnOfRemaining (Mat.ofFun n (fun _ _ => (0 : K))) p = fin 0 := by
  have h1 : ∀ (l : List Nat) (b : XNum K), b = XNum.inf ∨ b = fin 0 →
      (l.foldl (fun best j => if p.contains j then best
        else if (Mat.ofFun n (fun _ _ => (0 : K))).get 0 j <ᶠ best then
          (Mat.ofFun n (fun _ _ => (0 : K))).get 0 j else best) b = XNum.inf ∨
      l.foldl (fun best j => if p.contains j then best
        else if (Mat.ofFun n (fun _ _ => (0 : K))).get 0 j <ᶠ best then
          (Mat.ofFun n (fun _ _ => (0 : K))).get 0 j else best) b = fin 0) := by
    intro l
    induction l with
    | nil => intro b h; exact h
    | cons j l ih =>
      intro b h
      rw [List.foldl_cons]
      apply ih
      split
      · exact h
      · split
        · exact Or.inr rfl
        · exact h
  have h2 : ∀ i, shortestLaterEdge (Mat.ofFun n (fun _ _ => (0 : K))) p i = XNum.inf ∨
      shortestLaterEdge (Mat.ofFun n (fun _ _ => (0 : K))) p i = fin 0 :=
    fun i => h1 _ _ (Or.inl rfl)
  unfold nnOfRemaining
  generalize (List.range (Mat.ofFun n (fun _ _ => (0 : K))).dim) = l
  suffices H : ∀ (l : List Nat) (b : XNum K), b = fin 0 → l.foldl (fun res i =>
      if p.contains i then res
      else
        let e := shortestLaterEdge (Mat.ofFun n (fun _ _ => (0 : K))) p i
        if !(eq e XNum.inf) then res +ᶠ e else res) b = fin 0 from H l _ rfl
  intro l
  induction l with
  | nil => intro b h; exact h
  | cons i l ih =>
    intro b h
    subst h
    rw [List.foldl_cons]
    apply ih
    split
    · rfl
    · rcases h2 i with h | h
      · simp only [h]
        rfl
      · simp only [h]
        split
        · show fin (0 + 0 : K) = fin 0
          rw [add_zero]
        · rfl

/-- **C106, pruning may save nothing.** When all cities are in the same place (all costs 0), v3, v4 and
v5 look at every repetition-free list of at least two cities, like v2: all `n!` tours are completed. -/
theorem C106_no_saving {n : Nat} (hn : 1 ≤ n) (t : PruneTest Unit (XNum K))
    (ht : t = test3 ∨ t = test4 (Mat.ofFun n fun _ _ => 0) ∨ t = test5 (Mat.ofFun n fun _ _ => 0)) :
    ∃ r : Solution (XNum K) × Unit × List (List Nat × Bool),
      solveLogged (Mat.ofFun n fun _ _ => (0 : K)) t () = .ok r ∧
      (∀ p, p ∈ r.2.2.map Prod.fst ↔ p.Nodup ∧ (∀ i ∈ p, i < n) ∧ 2 ≤ p.length) ∧
      (∀ k, 2 ≤ k → testsOfLength r.2.2 k = n.descFactorial k) := by
  have hm := rep_ofFun (K := K) n (fun _ _ => 0)
  have hle : ∀ x : K, x ≤ 0 → ∀ b : XNum K, b = XNum.inf ∨ b = fin 0 →
      ((fin 0 : XNum K) +ᶠ fin x ≤ᶠ b) = true := by
    rintro x hx b (rfl | rfl)
    · rfl
    · show decide ((0 : K) + x ≤ 0) = true
      simpa using hx
  have htest : ∀ (p : List Nat) (b : XNum K), ValidPre n p → (b = XNum.inf ∨ b = fin 0) →
      t () p (fin 0) b = .ok (true, ()) := by
    intro p b hp hb
    rcases ht with rfl | rfl | rfl
    · unfold test3
      rcases hb with rfl | rfl
      · rfl
      · show Except.ok (decide ((0 : K) ≤ 0), ()) = _
        rw [decide_eq_true le_rfl]
    · unfold test4
      rw [nnOfRemaining_zero, hle 0 le_rfl b hb]
    · unfold test5
      obtain ⟨x, hx, hx'⟩ := mstBound_le_path hm (fun _ _ _ _ => rfl) hp.2
        (nodup_citiesExcept n p) (fun j => mem_citiesExcept)
      rw [hx]
      have h0 : pathCost (fun _ _ => (0 : K)) (citiesExcept n p) = 0 := by
        have : ∀ l : List Nat, pathCost (fun _ _ => (0 : K)) l = 0 := by
          intro l
          induction l with
          | nil => rfl
          | cons a l ih =>
            cases l with
            | nil => rfl
            | cons b l => rw [pathCost, ih, add_zero]
        exact this _
      rw [h0, mul_zero] at hx'
      simp only [rm_bind_ok, rm_pure]
      rw [hle x hx' b hb]
  obtain ⟨r, h1, h2, -⟩ := dfs_through (Mat.ofFun n (fun _ _ => (0 : K))) (logged t)
    (fun s => ∀ x ∈ s.2, x.2 = true)
    (fun _ x => x = fin 0) (fun b => b = XNum.inf ∨ b = fin 0)
    (fun a p x b ha hv _ hx hb => by
      subst hx
      refine ⟨((), a.2 ++ [(p, true)]), ?_, ?_⟩
      · unfold logged
        rw [show a.1 = () from rfl, htest p b hv hb]
        rfl
      · intro y hy
        rw [List.mem_append, List.mem_singleton] at hy
        rcases hy with hy | rfl
        · exact ha y hy
        · rfl)
    (fun _ _ _ h => h)
    (fun _ _ _ x _ h => by
      subst h
      constructor
      · show fin (0 + 0 : K) = fin 0
        rw [add_zero]
      · show fin (0 + 0 - 0 : K) = fin 0
        rw [add_zero, sub_zero])
    (fun _ x _ _ _ _ _ h => by
      subst h
      right
      show fin (0 + 0 : K) = fin 0
      rw [add_zero]) hn (n + 1) [] zero ((XNum.inf, []), ((), []))
    (validPre_nil _) (by simp [Mat.ofFun]) (by simp) rfl (Or.inl rfl)
  have h : solveLogged (Mat.ofFun n (fun _ _ => (0 : K))) t () = .ok r := h1
  obtain ⟨a1, a2⟩ := all_tested h h2
  exact ⟨r, h, a1, a2⟩

end exact

/-! ## A concrete case: the four cities of `Ex.m4` -/

/-- v2 tests 12 + 24 + 24 prefixes, v3 saves nothing here, v5 saves 16 tests; the cache of v6 has one
entry for each test -/
example : (solveLogged Ex.m4 test2 ()).map (fun r => (testsOfLength r.2.2 2, testsOfLength r.2.2 3,
    testsOfLength r.2.2 4, r.2.2.length)) = .ok (12, 24, 24, 60) := by decide +kernel
example : (solveLogged Ex.m4 test3 ()).map (fun r => r.2.2.length) = .ok 60 := by decide +kernel
example : (solveLogged Ex.m4 (test5 Ex.m4) ()).map (fun r => r.2.2.length) = .ok 44 := by decide +kernel
example : (solveLogged Ex.m4 (test6 Ex.m4 fun p => p.foldl (fun h i => 5 * h + i + 1) 0) []).map
    (fun r => (r.2.1.length, r.2.2.length)) = .ok (44, 44) := by decide +kernel
/-- with colliding hashes the cache is smaller than the number of tests -/
example : (solveLogged Ex.m4 (test6 Ex.m4 fun p => p.length) []).map
    (fun r => (r.2.1.length, r.2.2.length)) = .ok (3, 60) := by decide +kernel

end Walky.Props
