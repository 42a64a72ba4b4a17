import Verif.Lemmas.DfsShape
import Verif.Examples

/-!
# Arbitrary arithmetic, missing edges, caching (C09, C12, C13)
-/

namespace Walky.Props

open FloatOps Spec

section lawfree
variable {α : Type} [FloatOps α]

/-- all tests used by the solvers are total in every arithmetic in which infinity equals itself -/
theorem mstBound_total (m : Mat α) (hinf : eq (inf : α) inf = true) {p : List Nat}
    (hp : ValidPre m.dim p) : ∃ x, mstBound m p = .ok x := by
  obtain ⟨s, _, _, h⟩ := primSeq_eq m p hinf (fun v hv => (hp.2 v hv).le)
  unfold mstBound
  rw [h]
  exact ⟨_, rfl⟩

/-- **C12.** In every arithmetic (only `INFINITY == INFINITY` is used, for v5 and v6), on every matrix
with at least one city, v2 – v6 do not panic, and the returned path is empty or a permutation of all
cities. -/
theorem C12_well_formed (m : Mat α) (hn : 1 ≤ m.dim) (hinf : eq (inf : α) inf = true)
    (hash : List Nat → Nat) (r : RM (Solution α))
    (hr : r = secondImprovedSolver m ∨ r = thirdImprovedSolver m ∨ r = fourthImprovedSolver m ∨
      r = fifthImprovedSolver m ∨ r = sixthImprovedSolver m hash) :
    ∃ cost p, r = .ok (cost, p) ∧ (p = [] ∨ IsTour m.dim p) := by
  have main : ∀ {σ : Type} (test : PruneTest σ α) (aux : σ),
      (∀ a p x b, ValidPre m.dim p → ∃ go a', test a p x b = .ok (go, a')) →
      ∃ cost p, solveDfs m test aux = .ok (cost, p) ∧ (p = [] ∨ IsTour m.dim p) := by
    intro σ test aux ht
    obtain ⟨r, h1, _, h2⟩ := dfs_shape m test (fun _ => True) (fun _ _ => True) (fun _ _ => True)
      (fun a p x b _ hp _ => by
        obtain ⟨go, a', h⟩ := ht a p x b hp
        exact ⟨go, a', h, trivial⟩)
      (fun _ _ _ _ => trivial) (fun _ _ _ _ _ _ => ⟨trivial, trivial⟩)
      (fun _ _ _ _ _ _ _ _ _ _ => trivial) hn (m.dim + 1) [] zero ((inf, []), aux)
      (validPre_nil _) (by simp) trivial trivial
    refine ⟨r.1.1, r.1.2, ?_, ?_⟩
    · unfold solveDfs; rw [h1]; rfl
    · rcases h2 with h2 | h2
      · left; rw [h2]
      · right; exact h2.1
  rcases hr with rfl | rfl | rfl | rfl | rfl
  · exact main _ _ (fun _ _ _ _ _ => ⟨_, _, rfl⟩)
  · exact main _ _ (fun _ _ _ _ _ => ⟨_, _, rfl⟩)
  · exact main _ _ (fun _ _ _ _ _ => ⟨_, _, rfl⟩)
  · refine main _ _ (fun _ p _ _ hp => ?_)
    obtain ⟨x, hx⟩ := mstBound_total m hinf hp
    exact ⟨_, _, by unfold test5; rw [hx]; rfl⟩
  · refine main _ _ (fun a p _ _ hp => ?_)
    obtain ⟨x, hx⟩ := mstBound_total m hinf hp
    unfold test6
    rw [hx]
    simp only [rm_bind_ok]
    cases a.lookup (hash p) with
    | some v => exact ⟨_, _, rfl⟩
    | none => exact ⟨_, _, rfl⟩

/-- the hypotheses hold for a matrix full of `NaN` -/
example : 1 ≤ (⟨3, fun _ _ => .nan⟩ : Mat (XNum ℚ)).dim ∧ eq (inf : XNum ℚ) inf = true := by
  constructor <;> decide

/-- **C09.** If the hash has no collisions on duplicate-free prefixes of cities, v6 returns exactly
what v5 returns (including panics), in every arithmetic. -/
theorem C09_v6_eq_v5 (m : Mat α) (hash : List Nat → Nat)
    (hinj : ∀ p q : List Nat, p.Nodup → q.Nodup → (∀ i ∈ p, i < m.dim) → (∀ i ∈ q, i < m.dim) →
      hash p = hash q → p = q) :
    sixthImprovedSolver m hash = fifthImprovedSolver m := by
  have h := dfs_sim m (test6 m hash) (test5 m)
    (fun cache _ => ∀ p v, ValidPre m.dim p → cache.lookup (hash p) = some v → mstBound m p = .ok v)
    (by
      intro cache b p x y hS hp _
      unfold test6 test5
      cases hb : mstBound m p with
      | error e => exact rfl
      | ok lb =>
        simp only [rm_bind_ok, rm_pure]
        cases hl : cache.lookup (hash p) with
        | some v =>
          have := hS p v hp hl
          rw [hb] at this
          have : lb = v := by simpa using this
          subst this
          exact ⟨rfl, hS⟩
        | none =>
          refine ⟨rfl, ?_⟩
          intro q v hq hv
          rw [List.lookup_cons] at hv
          split at hv
          · rename_i hk
            have : hash q = hash p := by simpa using hk
            have := hinj q p hq.1 hp.1 hq.2 hp.2 this
            subst this
            rw [hb]
            simpa using hv
          · exact hS q v hq hv)
    (m.dim + 1) [] zero (inf, []) [] () (validPre_nil _) (by intro p v _ h; simp at h)
  unfold sixthImprovedSolver fifthImprovedSolver solveDfs
  cases h6 : dfs m (test6 m hash) (m.dim + 1) [] zero ((inf, []), []) with
  | ok r =>
    cases h5 : dfs m (test5 m) (m.dim + 1) [] zero ((inf, []), ()) with
    | ok r' =>
      rw [h6, h5] at h
      simp only [rm_bind_ok, rm_pure]
      rw [h.1]
    | error e => rw [h6, h5] at h; exact absurd h (by simp [RelRes])
  | error e =>
    cases h5 : dfs m (test5 m) (m.dim + 1) [] zero ((inf, []), ()) with
    | ok r' => rw [h6, h5] at h; exact absurd h (by simp [RelRes])
    | error e' => rw [h6, h5] at h; simp only [rm_bind_err]; rw [show e = e' from h]

end lawfree

/-- a collision-free hash exists: read the prefix as digits in base `n+1` -/
example : ∃ hash : List Nat → Nat, ∀ p q : List Nat, p.Nodup → q.Nodup → (∀ i ∈ p, i < Ex.m4.dim) →
    (∀ i ∈ q, i < Ex.m4.dim) → hash p = hash q → p = q := by
  refine ⟨fun p => p.foldr (fun d acc => acc * 5 + (d + 1)) 0, ?_⟩
  intro p
  induction p with
  | nil =>
    intro q _ _ _ _ h
    cases q with
    | nil => rfl
    | cons a q => simp only [List.foldr_nil, List.foldr_cons] at h; omega
  | cons a p ih =>
    intro q hp hq hp' hq' h
    cases q with
    | nil => simp only [List.foldr_nil, List.foldr_cons] at h; omega
    | cons b q =>
      simp only [List.foldr_cons] at h
      have ha : a < 4 := hp' a (by simp)
      have hb : b < 4 := hq' b (by simp)
      have e : a = b := by omega
      subst e
      rw [ih q (List.nodup_cons.mp hp).2 (List.nodup_cons.mp hq).2
        (fun i hi => hp' i (by simp [hi])) (fun i hi => hq' i (by simp [hi]))
        (by simp only; omega)]

/-- The hypothesis of C09 cannot be dropped: with a hash that maps everything to 0, v6 misses a tour
that v5 finds. -/
theorem C09_needs_injective :
    ∃ (m : Mat (XNum ℚ)) (hash : List Nat → Nat), sixthImprovedSolver m hash ≠ fifthImprovedSolver m := by
  refine ⟨Mat.ofRowsFin [[0, 1, 1, 1], [1, 0, 1, 1], [1, 1, 0, 100], [1, 1, 100, 0]], fun _ => 0, ?_⟩
  decide +kernel

/-! ## Missing edges -/

section missing
variable {K : Type} [Field K] [LinearOrder K] [IsStrictOrderedRing K]

/-- `m` holds the cost `c i j` for the present edges and `+∞` for the absent ones -/
structure RepInf (m : Mat (XNum K)) (present : Nat → Nat → Prop) (c : Nat → Nat → K) : Prop where
  yes : ∀ i j, i < m.dim → j < m.dim → present i j → m.get i j = .fin (c i j)
  no : ∀ i j, i < m.dim → j < m.dim → ¬ present i j → m.get i j = .inf

/-- **C13, negation.** With missing edges v2 can report "no tour" although a finite tour exists: here
only the edges of the cycle 0-2-1-3 are present. The cause is `INFINITY - INFINITY = NaN` in the
running cost. -/
theorem C13_v2_misses_tour :
    ∃ (m : Mat (XNum ℚ)) (present : Nat → Nat → Prop) (c : Nat → Nat → ℚ), RepInf m present c ∧
      m.dim = 4 ∧ (present 0 2 ∧ present 2 1 ∧ present 1 3 ∧ present 3 0) ∧
      secondImprovedSolver m = .ok (.inf, []) := by
  refine ⟨⟨4, fun i j => if (i + j = 2 ∧ i ≠ j) ∨ i + j = 3 ∧ (i = 1 ∨ j = 1) ∨ (i + j = 4 ∧ i ≠ j) ∨
    (i + j = 3 ∧ (i = 0 ∨ j = 0)) then .fin 1 else .inf⟩,
    fun i j => (i + j = 2 ∧ i ≠ j) ∨ i + j = 3 ∧ (i = 1 ∨ j = 1) ∨ (i + j = 4 ∧ i ≠ j) ∨
    (i + j = 3 ∧ (i = 0 ∨ j = 0)), fun _ _ => 1, ⟨?_, ?_⟩, rfl, ?_, ?_⟩
  · intro i j _ _ h; exact if_pos h
  · intro i j _ _ h; exact if_neg h
  · decide
  · decide +kernel

omit [IsStrictOrderedRing K] in
/-- **C13, partial.** With missing edges the answer of v2 – v6 is still never wrong when it is a tour:
it is `(∞, [])`, or a tour that uses only present edges, with its length. Missing: finding a tour
when there is one (false, `C13_v2_misses_tour`). -/
theorem C13_missing_edges_partial (m : Mat (XNum K)) (present : Nat → Nat → Prop)
    (c : Nat → Nat → K) (hm : RepInf m present c) (hn : 1 ≤ m.dim) (hash : List Nat → Nat)
    (r : RM (Solution (XNum K)))
    (hr : r = secondImprovedSolver m ∨ r = thirdImprovedSolver m ∨ r = fourthImprovedSolver m ∨
      r = fifthImprovedSolver m ∨ r = sixthImprovedSolver m hash) :
    r = .ok (.inf, []) ∨ ∃ p, r = .ok (.fin (tourCost c p), p) ∧ IsTour m.dim p ∧
      ∀ a b, [a, b] <:+: p ++ p.take 1 → present a b := by
  classical
  -- running cost: exact as long as all edges are present, otherwise ∞ or NaN
  let Q : List Nat → XNum K → Prop := fun p x =>
    (x = .fin (pathCost c p) ∧ ∀ a b, [a, b] <:+: p → present a b) ∨ x = .inf ∨ x = .nan
  have hadd : ∀ x : XNum K, x = .inf ∨ x = .nan → ∀ i j, i < m.dim → j < m.dim →
      (x +ᶠ m.get i j) = .inf ∨ (x +ᶠ m.get i j) = .nan := by
    intro x hx i j hi hj
    by_cases hp : present i j
    · rw [hm.yes i j hi hj hp]
      rcases hx with rfl | rfl
      · exact Or.inl rfl
      · exact Or.inr rfl
    · rw [hm.no i j hi hj hp]
      rcases hx with rfl | rfl
      · exact Or.inl rfl
      · exact Or.inr rfl
  have hsub : ∀ x : XNum K, x = .inf ∨ x = .nan → ∀ i j, i < m.dim → j < m.dim →
      (x -ᶠ m.get i j) = .inf ∨ (x -ᶠ m.get i j) = .nan := by
    intro x hx i j hi hj
    by_cases hp : present i j
    · rw [hm.yes i j hi hj hp]
      rcases hx with rfl | rfl
      · exact Or.inl rfl
      · exact Or.inr rfl
    · rw [hm.no i j hi hj hp]
      rcases hx with rfl | rfl
      · exact Or.inr rfl
      · exact Or.inr rfl
  have main : ∀ {σ : Type} (test : PruneTest σ (XNum K)) (aux : σ),
      (∀ a p x b, ValidPre m.dim p → ∃ go a', test a p x b = .ok (go, a')) →
      solveDfs m test aux = .ok (.inf, []) ∨ ∃ p, solveDfs m test aux = .ok (.fin (tourCost c p), p) ∧
        IsTour m.dim p ∧ ∀ a b, [a, b] <:+: p ++ p.take 1 → present a b := by
    intro σ test aux ht
    obtain ⟨r, h1, _, h2⟩ := dfs_shape m test (fun _ => True) Q
      (fun x p => x = .fin (tourCost c p) ∧ ∀ a b, [a, b] <:+: p ++ p.take 1 → present a b)
      (fun a p x b _ hp _ => by
        obtain ⟨go, a', h⟩ := ht a p x b hp
        exact ⟨go, a', h, trivial⟩)
      (by
        rintro i x _ (⟨h, _⟩ | h)
        · refine Or.inl ⟨h, ?_⟩
          intro a b hab
          have := hab.length_le
          simp at this
        · exact Or.inr h)
      (by
        intro p a i x hv hQ
        have ha : a < m.dim := hv.2 a (by simp)
        have hi : i < m.dim := hv.2 i (by simp)
        rcases hQ with ⟨hx, hpr⟩ | hx
        · by_cases hp : present a i
          · rw [hm.yes a i ha hi hp, hx]
            refine ⟨Or.inl ⟨?_, ?_⟩, Or.inl ⟨?_, hpr⟩⟩
            · rw [XNum.add_fin, pathCost_snoc]
            · intro u v huv
              obtain ⟨s, t, e⟩ := huv
              rcases List.eq_nil_or_concat t with rfl | ⟨t, w, rfl⟩
              · have : s ++ [u, v] = p ++ [a, i] := by simpa using e
                have := List.append_inj' this rfl
                simp only [List.cons.injEq, and_true] at this
                rw [this.2.1, this.2.2]; exact hp
              · apply hpr
                refine ⟨s, t, ?_⟩
                have : (s ++ [u, v] ++ t) ++ [w] = (p ++ [a]) ++ [i] := by simpa using e
                exact (List.append_inj' this rfl).1
            · rw [XNum.add_fin, XNum.sub_fin, add_sub_cancel_right]
          · rw [hm.no a i ha hi hp, hx]
            exact ⟨Or.inr (Or.inl rfl), Or.inr (Or.inr rfl)⟩
        · have h1 := hadd x hx a i ha hi
          exact ⟨Or.inr h1, Or.inr (hsub _ h1 a i ha hi)⟩)
      (by
        intro p x a b best hT hl hh hQ hlt
        have hne : p ≠ [] := by rintro rfl; simp at hl
        have ea : p.getLast hne = a := by
          rw [List.getLast?_eq_getLast_of_ne_nil hne] at hl; exact Option.some.inj hl
        have eb : p.head hne = b := by
          rw [List.head?_eq_some_head hne] at hh; exact Option.some.inj hh
        have hv := validPre_prefix hT (List.prefix_refl _)
        have ha : a < m.dim := ea ▸ hv.2 _ (List.getLast_mem hne)
        have hb : b < m.dim := eb ▸ hv.2 _ (List.head_mem hne)
        rcases hQ with ⟨hx, hpr⟩ | hx
        · by_cases hp : present a b
          · rw [hm.yes a b ha hb hp, hx]
            refine ⟨?_, ?_⟩
            · rw [XNum.add_fin, tourCost_eq c p hne, ea, eb]
            · have htake : p.take 1 = [b] := by
                cases p with
                | nil => exact absurd rfl hne
                | cons y p => simpa using eb
              rw [htake]
              intro u v huv
              obtain ⟨s, t, e⟩ := huv
              rcases List.eq_nil_or_concat t with rfl | ⟨t, w, rfl⟩
              · have : (s ++ [u]) ++ [v] = p ++ [b] := by simpa using e
                have h' := List.append_inj' this rfl
                have ev : v = b := by simpa using h'.2
                have eu : u = a := by
                  rw [← h'.1] at hl
                  simpa using hl
                rw [eu, ev]; exact hp
              · apply hpr
                refine ⟨s, t, ?_⟩
                have : (s ++ [u, v] ++ t) ++ [w] = p ++ [b] := by simpa using e
                exact (List.append_inj' this rfl).1
          · rw [hm.no a b ha hb hp, hx] at hlt
            simp at hlt
        · rcases hadd x hx a b ha hb with h | h
          · rw [h] at hlt; simp at hlt
          · rw [h] at hlt; simp [FloatOps.lt, XNum.lt] at hlt)
      hn (m.dim + 1) [] zero ((.inf, []), aux)
      (validPre_nil _) (by simp) trivial (Or.inl ⟨rfl, fun a b h => by
        have := h.length_le
        simp at this⟩)
    rcases h2 with h2 | ⟨h2, h3, h4⟩
    · left
      unfold solveDfs
      rw [XNum.inf_def, h1]
      simp only [rm_bind_ok, rm_pure]
      rw [h2]
    · right
      refine ⟨r.1.2, ?_, h2, h4⟩
      unfold solveDfs
      rw [XNum.inf_def, h1]
      simp only [rm_bind_ok, rm_pure]
      rw [← h3]
  have hinf : eq (inf : XNum K) inf = true := rfl
  rcases hr with rfl | rfl | rfl | rfl | rfl
  · exact main _ _ (fun _ _ _ _ _ => ⟨_, _, rfl⟩)
  · exact main _ _ (fun _ _ _ _ _ => ⟨_, _, rfl⟩)
  · exact main _ _ (fun _ _ _ _ _ => ⟨_, _, rfl⟩)
  · refine main _ _ (fun _ p _ _ hp => ?_)
    obtain ⟨x, hx⟩ := mstBound_total m hinf hp
    exact ⟨_, _, by unfold test5; rw [hx]; rfl⟩
  · refine main _ _ (fun a p _ _ hp => ?_)
    obtain ⟨x, hx⟩ := mstBound_total m hinf hp
    unfold test6
    rw [hx]
    simp only [rm_bind_ok]
    cases a.lookup (hash p) with
    | some v => exact ⟨_, _, rfl⟩
    | none => exact ⟨_, _, rfl⟩

/-- a matrix with a missing edge for which v2 does find a tour -/
example : ∃ (m : Mat (XNum ℚ)), RepInf m (fun i j => i + j ≠ 5) (fun _ _ => (1 : ℚ)) ∧ 1 ≤ m.dim ∧
    secondImprovedSolver m = .ok (.fin 4, [0, 2, 1, 3]) :=
  ⟨⟨4, fun i j => if i + j ≠ 5 then .fin 1 else .inf⟩,
    ⟨fun i j _ _ h => if_pos h, fun i j _ _ h => if_neg h⟩, by decide, by decide +kernel⟩

end missing

end Walky.Props
