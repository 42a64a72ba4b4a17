import Verif.Model.PythonNN
import Verif.Lemmas.NearestNeighbour
import Verif.Lemmas.Instance
import Verif.Lemmas.Bounds
import Verif.Lemmas.Euler

/-! # The Python reference for nearest neighbour -/

namespace Walky

open FloatOps XNum Spec

/-- every city is nearest to the one before among those not visited; with `tie`, the one with the lowest number -/
def GreedyT (tie : Prop) (n : Nat) (G : Nat → Nat → Int) (p : List Nat) : Prop :=
  ∀ l x y r, p = l ++ x :: y :: r → ∀ z < n, z ∉ l → z ≠ x → G x y ≤ G x z ∧ (tie → G x z ≤ G x y → y ≤ z)

theorem GreedyT.snoc {tie : Prop} {n : Nat} {G : Nat → Nat → Int} {l : List Nat} {x y : Nat}
    (h : GreedyT tie n G (l ++ [x]))
    (hy : ∀ z < n, z ∉ l ++ [x] → G x y ≤ G x z ∧ (tie → G x z ≤ G x y → y ≤ z)) :
    GreedyT tie n G (l ++ [x] ++ [y]) := by
  intro l' x' y' r he z hz hzl hzx
  rcases List.eq_nil_or_concat r with rfl | ⟨r', w, rfl⟩
  · have e2 : (l ++ [x]) ++ [y] = (l' ++ [x']) ++ [y'] := by rw [he]; simp
    obtain ⟨e3, e4⟩ := List.append_inj' e2 rfl
    obtain ⟨e5, e6⟩ := List.append_inj' e3 rfl
    simp at e4 e6
    subst e4 e5 e6
    exact hy z hz (by simp [hzl, hzx])
  · have e2 : (l ++ [x]) ++ [y] = (l' ++ x' :: y' :: r') ++ [w] := by rw [he]; simp
    obtain ⟨e3, e4⟩ := List.append_inj' e2 rfl
    exact h l' x' y' r' e3 z hz hzl hzx

theorem pyMinKey_ok (key : Nat → Int) {l : List Nat} (hl : l ≠ []) :
    ∃ x, pyMinKey key l = .ok x ∧ x ∈ l ∧ (∀ z ∈ l, key x ≤ key z) ∧
      (l.Pairwise (· < ·) → ∀ z ∈ l, key z ≤ key x → x ≤ z) := by
  cases l with
  | nil => exact absurd rfl hl
  | cons a t =>
    refine ⟨_, rfl, ?_⟩
    clear hl
    have key : ∀ (t done : List Nat) (b : Nat), b ∈ done → (∀ z ∈ done, key b ≤ key z) →
        ((done ++ t).Pairwise (· < ·) → ∀ z ∈ done, key z ≤ key b → b ≤ z) →
        (t.foldl (fun b y => if key y < key b then y else b) b) ∈ done ++ t ∧
        (∀ z ∈ done ++ t, key (t.foldl (fun b y => if key y < key b then y else b) b) ≤ key z) ∧
        ((done ++ t).Pairwise (· < ·) → ∀ z ∈ done ++ t,
          key z ≤ key (t.foldl (fun b y => if key y < key b then y else b) b) →
            t.foldl (fun b y => if key y < key b then y else b) b ≤ z) := by
      intro t
      induction t with
      | nil =>
        intro done b h1 h2 h3
        simp only [List.append_nil, List.foldl_nil] at h3 ⊢
        exact ⟨h1, h2, h3⟩
      | cons y t ih =>
        intro done b h1 h2 h3
        have e : done ++ y :: t = (done ++ [y]) ++ t := by simp
        rw [e, List.foldl_cons]
        rw [e] at h3
        by_cases hlt : key y < key b
        · rw [if_pos hlt]
          refine ih (done ++ [y]) y (by simp) ?_ ?_
          · intro z hz
            rcases List.mem_append.mp hz with hz | hz
            · have := h2 z hz; omega
            · simp at hz; rw [hz]
          · intro _ z hz hle
            rcases List.mem_append.mp hz with hz | hz
            · have := h2 z hz; omega
            · simp at hz; omega
        · rw [if_neg hlt]
          refine ih (done ++ [y]) b (by simp [h1]) ?_ ?_
          · intro z hz
            rcases List.mem_append.mp hz with hz | hz
            · exact h2 z hz
            · simp at hz; rw [hz]; omega
          · intro hp z hz hle
            rcases List.mem_append.mp hz with hz | hz
            · exact h3 hp z hz hle
            · simp at hz
              rw [hz]
              have h4 := (List.pairwise_append.mp (List.pairwise_append.mp hp).1).2.2 b h1 y (by simp)
              omega
    simpa using key t [a] a (by simp) (by simp) (by simp)

theorem pyNNLoop_ok {iter : List Nat → List Nat} (hi : ∀ l, (iter l).Perm l) {tie : Prop}
    (ht : tie → ∀ l : List Nat, l.Pairwise (· < ·) → iter l = l) (G : Nat → Nat → Int) {n start : Nat} :
    ∀ (fuel : Nat) (l unvisited : List Nat) (x : Nat), (l ++ [x]).Nodup → (l ++ [x]).head? = some start →
      unvisited.Pairwise (· < ·) → (∀ z, z ∈ unvisited ↔ z < n ∧ z ∉ l ++ [x]) → (∀ z ∈ l ++ [x], z < n) →
      GreedyT tie n G (l ++ [x]) → unvisited.length ≤ fuel →
      ∃ p, pyNNLoop iter G fuel (l ++ [x]) unvisited x = .ok p ∧ IsTour n p ∧ p.head? = some start ∧
        GreedyT tie n G p := by
  intro fuel
  induction fuel with
  | zero =>
    intro l u x h1 h2 h3 h4 h5 h6 h7
    have hu : u = [] := List.length_eq_zero_iff.mp (by omega)
    subst hu
    refine ⟨l ++ [x], by unfold pyNNLoop; rfl, ?_, h2, h6⟩
    rw [isTour_iff]
    refine ⟨h1, fun z => ⟨h5 z, fun hz => ?_⟩⟩
    by_contra hc
    exact absurd ((h4 z).mpr ⟨hz, hc⟩) (by simp)
  | succ fuel ih =>
    intro l u x h1 h2 h3 h4 h5 h6 h7
    by_cases hu : u = []
    · subst hu
      refine ⟨l ++ [x], by unfold pyNNLoop; rfl, ?_, h2, h6⟩
      rw [isTour_iff]
      refine ⟨h1, fun z => ⟨h5 z, fun hz => ?_⟩⟩
      by_contra hc
      exact absurd ((h4 z).mpr ⟨hz, hc⟩) (by simp)
    · have hne : iter u ≠ [] := fun h => hu (List.length_eq_zero_iff.mp (by
        rw [← (hi u).length_eq, h]; rfl))
      obtain ⟨y, k1, k2, k3, k4⟩ := pyMinKey_ok (G x) hne
      have hy := (hi u).mem_iff.mp k2
      have hyn := (h4 y).mp hy
      have hnd : u.Nodup := h3.imp (fun h => Nat.ne_of_lt h)
      unfold pyNNLoop
      rw [if_neg (by simpa using hu)]
      simp only [k1, rm_bind_ok]
      refine ih (l ++ [x]) (u.erase y) y ?_ ?_ (h3.sublist List.erase_sublist) ?_ ?_ ?_ ?_
      · exact List.nodup_append.mpr ⟨h1, by simp, by
          intro a ha b hb; simp at hb; subst hb; exact fun e => hyn.2 (e ▸ ha)⟩
      · rw [List.head?_append, h2]; rfl
      · intro z
        rw [hnd.mem_erase_iff, h4 z, List.mem_append (t := [y]), List.mem_singleton]
        tauto
      · intro z hz
        rcases List.mem_append.mp hz with hz | hz
        · exact h5 z hz
        · simp at hz; rw [hz]; exact hyn.1
      · refine h6.snoc fun z hz hzn => ?_
        have hzu : z ∈ u := (h4 z).mpr ⟨hz, hzn⟩
        refine ⟨k3 z ((hi u).mem_iff.mpr hzu), fun htie hle => ?_⟩
        have e := ht htie u h3
        rw [e] at k4
        exact k4 h3 z hzu hle
      · rw [List.length_erase_of_mem hy]; omega

theorem pyTourCost_ok (G : Nat → Nat → Int) {n : Nat} {p : List Nat} (hp : p.length = n) (hn : 1 ≤ n) :
    ∃ k, pyTourCost G n p = .ok k ∧ (k : ℚ) = tourCost (fun i j => (G i j : ℚ)) p := by
  have hne : p ≠ [] := by rintro rfl; simp at hp; omega
  have hsum : ∀ j, j + 1 ≤ n → (List.range j).foldlM (fun (s : Int) i => do
      let a ← idx p i
      let b ← idx p (i + 1)
      return s + G a b) 0 = .ok (((pairs (p.take (j + 1))).map fun e => G e.1 e.2).sum) := by
    intro j
    induction j with
    | zero =>
      intro _
      have : pairs (p.take 1) = [] := by
        cases p with
        | nil => rfl
        | cons a t => rfl
      rw [this]
      rfl
    | succ j ih =>
      intro hj
      rw [List.range_succ, List.foldlM_append, ih (by omega), rm_bind_ok]
      have h1 : j < p.length := by omega
      have h2 : j + 1 < p.length := by omega
      simp only [List.foldlM_cons, List.foldlM_nil, idx_lt h1, idx_lt h2, rm_bind_ok, rm_pure]
      have e1 : p.take (j + 1 + 1) = p.take j ++ [p[j], p[j + 1]] := by
        rw [List.take_succ_eq_append_getElem h2, List.take_succ_eq_append_getElem h1, List.append_assoc]
        rfl
      have e2 : p.take (j + 1) = p.take j ++ [p[j]] := List.take_succ_eq_append_getElem h1
      rw [e1, e2]
      have e3 : pairs (p.take j ++ [p[j], p[j + 1]]) = pairs (p.take j ++ [p[j]]) ++ [(p[j], p[j + 1])] :=
        pairs_append (p.take j) p[j] [p[j + 1]]
      rw [e3]
      simp
  have h0 : 0 < p.length := by omega
  have hlast : p.getLast? = some (p.getLast hne) := List.getLast?_eq_some_getLast hne
  refine ⟨((pairs p).map fun e => G e.1 e.2).sum + G (p.getLast hne) p[0], ?_, ?_⟩
  · unfold pyTourCost
    rw [hsum (n - 1) (by omega), rm_bind_ok, hlast, idx_lt h0, List.take_of_length_le (by omega)]
    rfl
  · rw [tourCost_eq _ p hne]
    have : p.head hne = p[0] := by rw [List.head_eq_getElem]
    rw [this, ← edgesCost_pairs]
    unfold edgesCost
    have hc : ∀ l : List (Nat × Nat), (((l.map fun e => G e.1 e.2).sum : Int) : ℚ) =
        (l.map fun e => (G e.1 e.2 : ℚ)).sum := by
      intro l
      induction l with
      | nil => rfl
      | cons e l ih => simp [ih]
    rw [Int.cast_add, hc]

/-- The greedy tour from a city is unique. -/
theorem greedy_unique {K : Type} [Field K] [LinearOrder K] [IsStrictOrderedRing K] {n : Nat} {c : Nat → Nat → K}
    {p q : List Nat} (hp : IsTour n p) (hq : IsTour n q) (gp : Greedy n c p)
    (gq : Greedy n c q) {s : Nat} (h1 : p.head? = some s) (h2 : q.head? = some s) : p = q := by
  have hlen : p.length = q.length := hp.length_eq.trans hq.length_eq.symm
  have key : ∀ (r r' l : List Nat) (x : Nat), p = l ++ x :: r → q = l ++ x :: r' → r = r' := by
    intro r
    induction r with
    | nil =>
      intro r' l x e1 e2
      rw [e1, e2] at hlen
      simp at hlen
      exact hlen.symm
    | cons y r ih =>
      intro r' l x e1 e2
      cases r' with
      | nil => rw [e1, e2] at hlen; simp at hlen
      | cons y' r' =>
        have np : p.Nodup := hp.nodup_iff.mpr List.nodup_range
        have nq : q.Nodup := hq.nodup_iff.mpr List.nodup_range
        have hy : y < n := by
          have : y ∈ List.range n := hp.mem_iff.mp (by rw [e1]; simp)
          simpa using this
        have hy' : y' < n := by
          have : y' ∈ List.range n := hq.mem_iff.mp (by rw [e2]; simp)
          simpa using this
        have fresh : ∀ (L : List Nat) (a b : Nat) (R : List Nat), (L ++ a :: b :: R).Nodup → b ∉ L ∧ b ≠ a := by
          intro L a b R h
          rw [List.nodup_append] at h
          refine ⟨fun hb => h.2.2 b hb b (by simp) rfl, fun hb => ?_⟩
          rw [hb] at h
          simp at h
        rw [e1] at np
        rw [e2] at nq
        obtain ⟨f1, f2⟩ := fresh _ _ _ _ np
        obtain ⟨f3, f4⟩ := fresh _ _ _ _ nq
        obtain ⟨a1, a2⟩ := gp l x y r e1 y' hy' f3 f4
        obtain ⟨b1, b2⟩ := gq l x y' r' e2 y hy f1 f2
        have hyy : y = y' := Nat.le_antisymm (a2 b1) (b2 a1)
        subst hyy
        rw [ih r' (l ++ [x]) y (by rw [e1]; simp) (by rw [e2]; simp)]
  cases p with
  | nil => simp at h1
  | cons a t =>
    cases q with
    | nil => simp at h2
    | cons b t' =>
      simp at h1 h2
      subst h1
      subst h2
      rw [key t t' [] _ rfl rfl]

end Walky
