import Verif.Model.Christofides
import Verif.Lemmas.Hill
import Verif.Lemmas.Eval
import Mathlib.Algebra.BigOperators.Intervals
import Mathlib.Algebra.Order.BigOperators.Group.Finset

/-! # Helper lemmas: Hierholzer's algorithm -/

set_option linter.unusedSectionVars false
set_option linter.unusedSimpArgs false

namespace Walky

open FloatOps Spec

variable {α : Type} [FloatOps α]

/-- number of edges of the list between `i` and `j`, loops counted twice -/
def und (L : List (Nat × Nat)) (i j : Nat) : Nat := L.count (i, j) + L.count (j, i)

theorem und_nil (i j : Nat) : und [] i j = 0 := rfl

theorem und_append (L M : List (Nat × Nat)) (i j : Nat) : und (L ++ M) i j = und L i j + und M i j := by
  simp [und]; omega

theorem und_cons (e : Nat × Nat) (L : List (Nat × Nat)) (i j : Nat) :
    und (e :: L) i j = und [e] i j + und L i j := und_append [e] L i j

theorem und_comm (L : List (Nat × Nat)) (i j : Nat) : und L i j = und L j i := by
  unfold und; omega

theorem und_single (a b i j : Nat) : und [(a, b)] i j =
    (if i = a ∧ j = b then 1 else 0) + (if i = b ∧ j = a then 1 else 0) := by
  unfold und
  simp only [List.count_singleton, beq_iff_eq, Prod.mk.injEq]
  congr 1
  · congr 1; simp [eq_comm]
  · congr 1; simp [eq_comm, and_comm]

theorem und_pos {L : List (Nat × Nat)} {i j : Nat} (h : und L i j ≠ 0) : (i, j) ∈ L ∨ (j, i) ∈ L := by
  by_contra hc
  rw [not_or] at hc
  apply h
  unfold und
  rw [List.count_eq_zero_of_not_mem hc.1, List.count_eq_zero_of_not_mem hc.2]

theorem sum_map_range (f : Nat → Nat) (n : Nat) : ((List.range n).map f).sum = ∑ i ∈ Finset.range n, f i := by
  induction n with
  | zero => rfl
  | succ n ih => simp [List.range_succ, Finset.sum_range_succ, ih]

namespace MGraph

/-- degree of a vertex -/
def rowSum (g : MGraph α) (i : Nat) : Nat := ∑ j ∈ Finset.range g.dim, g.times i j

/-- all degrees together -/
def total (g : MGraph α) : Nat := ∑ i ∈ Finset.range g.dim, g.rowSum i

theorem times_setTimes (g : MGraph α) (i j k a b : Nat) :
    (g.setTimes i j k).times a b = if a = i ∧ b = j then k else g.times a b := by
  unfold setTimes times put
  simp only
  split <;> rfl

@[simp] theorem dim_setTimes (g : MGraph α) (i j k : Nat) : (g.setTimes i j k).dim = g.dim := rfl

end MGraph

/-- the multigraph is symmetric, loops are counted twice, `deg` holds the degrees -/
structure MOk (g : MGraph α) (deg : List Nat) : Prop where
  sym : ∀ i j, i < g.dim → j < g.dim → g.times i j = g.times j i
  diag : ∀ i, i < g.dim → Even (g.times i i)
  deg : deg = (List.range g.dim).map g.rowSum

theorem MOk.get {g : MGraph α} {deg : List Nat} (h : MOk g deg) {i : Nat} (hi : i < g.dim) :
    deg[i]? = some (g.rowSum i) := by
  rw [h.deg]
  simp [hi]

theorem MOk.sum {g : MGraph α} {deg : List Nat} (h : MOk g deg) : deg.sum = g.total := by
  rw [h.deg, sum_map_range]
  rfl

theorem rowSum_eq_zero {g : MGraph α} {i : Nat} (h : g.rowSum i = 0) {j : Nat} (hj : j < g.dim) :
    g.times i j = 0 := by
  unfold MGraph.rowSum at h
  rw [Finset.sum_eq_zero_iff] at h
  exact h j (by simpa using hj)

theorem le_rowSum {g : MGraph α} {i j : Nat} (hj : j < g.dim) : g.times i j ≤ g.rowSum i :=
  Finset.single_le_sum (f := fun j => g.times i j) (fun _ _ => Nat.zero_le _) (by simpa using hj)

theorem sum_und_single {n a b i : Nat} (ha : a < n) (hb : b < n) :
    ∑ j ∈ Finset.range n, und [(a, b)] i j = (if i = a then 1 else 0) + (if i = b then 1 else 0) := by
  simp only [und_single, Finset.sum_add_distrib]
  congr 1
  · by_cases h : i = a
    · simp [h, hb]
    · simp [h]
  · by_cases h : i = b
    · simp [h, ha]
    · simp [h]

theorem vecLimit_pos : 0 < vecLimit := Nat.two_pow_pos 60

theorem decr_pos (dbg : Bool) {x : Nat} (h : x ≠ 0) : decr dbg x = .ok (x - 1) := by
  unfold decr
  rw [if_neg h]

theorem decr_succ (dbg : Bool) (x : Nat) : decr dbg (x + 1) = .ok x := decr_pos dbg (Nat.succ_ne_zero x)

/-- one edge is walked along -/
theorem euler_step (dbg : Bool) {g : MGraph α} {deg : List Nat} (h : MOk g deg) {v w : Nat} (hv : v < g.dim)
    (hw : w < g.dim) (hne : g.times v w ≠ 0) :
    ∃ g1 g2 d1 d2, g.dec dbg v w = .ok g1 ∧ g1.dec dbg w v = .ok g2 ∧
      deg[v]? = some (d1 + 1) ∧ (deg.set v d1)[w]? = some (d2 + 1) ∧
      MOk g2 ((deg.set v d1).set w d2) ∧ g2.dim = g.dim ∧
      ∀ i j, g.times i j = g2.times i j + und [(v, w)] i j := by
  have hg1 : g.dec dbg v w = .ok (g.setTimes v w (g.times v w - 1)) := by
    unfold MGraph.dec
    rw [if_pos ⟨hv, hw⟩, decr_pos dbg hne]
    rfl
  have hne2 : (g.setTimes v w (g.times v w - 1)).times w v ≠ 0 := by
    rw [MGraph.times_setTimes]
    split
    · rename_i hc
      have : Even (g.times v v) := h.diag v hv
      have e : w = v := hc.1
      subst e
      obtain ⟨k, hk⟩ := this
      omega
    · rw [h.sym w v hw hv]; exact hne
  have hg2 : (g.setTimes v w (g.times v w - 1)).dec dbg w v =
      .ok ((g.setTimes v w (g.times v w - 1)).setTimes w v
        ((g.setTimes v w (g.times v w - 1)).times w v - 1)) := by
    unfold MGraph.dec
    rw [if_pos ⟨hw, hv⟩, decr_pos dbg hne2]
    rfl
  set g2 := (g.setTimes v w (g.times v w - 1)).setTimes w v
        ((g.setTimes v w (g.times v w - 1)).times w v - 1) with hg2def
  have htimes : ∀ i j, g.times i j = g2.times i j + und [(v, w)] i j := by
    intro i j
    rw [hg2def, und_single]
    rw [MGraph.times_setTimes] at hne2
    simp only [MGraph.times_setTimes]
    by_cases h1 : i = v ∧ j = w
    · obtain ⟨rfl, rfl⟩ := h1
      by_cases h2 : i = j
      · subst h2
        simp at hne2 ⊢
        omega
      · have h3 : ¬ (i = j ∧ j = i) := fun hc => h2 hc.1
        simp only [h3, if_false, and_self, if_true]
        omega
    · by_cases h2 : i = w ∧ j = v
      · obtain ⟨rfl, rfl⟩ := h2
        simp only [h1, if_false, and_self, if_true] at hne2 ⊢
        omega
      · simp only [h1, h2, if_false]
        omega
  have hdim : g2.dim = g.dim := rfl
  have hrow : ∀ i, g.rowSum i = g2.rowSum i + ((if i = v then 1 else 0) + (if i = w then 1 else 0)) := by
    intro i
    unfold MGraph.rowSum
    rw [hdim, ← sum_und_single hv hw, ← Finset.sum_add_distrib]
    exact Finset.sum_congr rfl fun j _ => htimes i j
  refine ⟨_, g2, g.rowSum v - 1, g2.rowSum w, hg1, hg2, ?_, ?_, ?_, hdim, htimes⟩
  · rw [h.get hv]
    have := hrow v
    simp only [if_true] at this
    congr 1
    omega
  · have hl : deg.length = g.dim := by rw [h.deg]; simp
    by_cases hvw : v = w
    · subst hvw
      rw [List.getElem?_set_self (by omega)]
      have := hrow v
      simp only [if_true] at this
      congr 1
      omega
    · rw [List.getElem?_set_ne hvw, h.get hw]
      have := hrow w
      simp only [if_true, fun hc => hvw (Eq.symm hc), if_false] at this
      rw [this, if_neg (fun hc => hvw (Eq.symm hc))]
  · refine ⟨?_, ?_, ?_⟩
    · intro i j hi hj
      have a := htimes i j
      have b := htimes j i
      rw [und_comm] at b
      have := h.sym i j hi hj
      omega
    · intro i hi
      have a := htimes i i
      have := h.diag i hi
      rw [a] at this
      have hu : Even (und [(v, w)] i i) := ⟨_, rfl⟩
      exact (Nat.even_add.mp this).mpr hu
    · apply List.ext_getElem?
      intro i
      have hl : deg.length = g.dim := by rw [h.deg]; simp
      by_cases hi : i < g.dim
      · have hr := hrow i
        have hget := h.get hi
        have hrhs : ((List.range g2.dim).map g2.rowSum)[i]? = some (g2.rowSum i) := by
          simp [hdim, hi]
        rw [hrhs]
        by_cases h1 : w = i
        · subst h1
          rw [List.getElem?_set_self (by simp; omega)]
        · rw [List.getElem?_set_ne h1]
          by_cases h2 : v = i
          · subst h2
            rw [List.getElem?_set_self (by omega)]
            rw [if_pos rfl, if_neg (Ne.symm h1)] at hr
            congr 1
            omega
          · rw [List.getElem?_set_ne h2, hget]
            rw [if_neg (Ne.symm h2), if_neg (Ne.symm h1)] at hr
            rw [hr]
            rfl
      · rw [List.getElem?_eq_none (by simp; omega), List.getElem?_eq_none (by simp [hdim]; omega)]

theorem total_lt {g g2 : MGraph α} (hd : g2.dim = g.dim) {L : List (Nat × Nat)}
    (h : ∀ i j, g.times i j = g2.times i j + und L i j) {e : Nat × Nat} (he : e ∈ L)
    (h1 : e.1 < g.dim) (h2 : e.2 < g.dim) : g2.total < g.total := by
  unfold MGraph.total MGraph.rowSum
  rw [hd]
  refine Finset.sum_lt_sum (fun i _ => Finset.sum_le_sum fun j _ => ?_) ⟨e.1, by simpa using h1, ?_⟩
  · have := h i j; omega
  · refine Finset.sum_lt_sum (fun j _ => ?_) ⟨e.2, by simpa using h2, ?_⟩
    · have := h e.1 j; omega
    · have := h e.1 e.2
      have : 1 ≤ und L e.1 e.2 := by
        unfold und
        have : 1 ≤ L.count (e.1, e.2) := List.one_le_count_iff.mpr he
        omega
      omega

theorem find?_range_none {n : Nat} {p : Nat → Bool} (h : (List.range n).find? p = none) :
    ∀ j < n, p j = false := by
  intro j hj
  rw [List.find?_eq_none] at h
  simpa using h j (by simpa using hj)

theorem find?_range_some {n : Nat} {p : Nat → Bool} {j : Nat} (h : (List.range n).find? p = some j) :
    j < n ∧ p j = true :=
  ⟨by simpa using List.mem_of_find?_eq_some h, List.find?_some h⟩

/-- `find_cycle` walks until it is stuck. -/
theorem findCycleLoop_ok (dbg : Bool) : ∀ (fuel : Nat) (g : MGraph α) (deg : List Nat) (v : Nat) (cyc : List Nat),
    MOk g deg → v < g.dim → g.total < fuel →
    ∃ t g' deg', findCycleLoop dbg fuel g deg v cyc = .ok (cyc ++ t, g', deg') ∧ MOk g' deg' ∧
      g'.dim = g.dim ∧ (∀ x ∈ t, x < g.dim) ∧
      (∀ i j, g.times i j = g'.times i j + und (pairs (v :: t)) i j) ∧
      g'.rowSum ((v :: t).getLast (by simp)) = 0 ∧ (g.rowSum v ≠ 0 → t ≠ []) := by
  intro fuel
  induction fuel with
  | zero => intro g deg v cyc _ _ h; omega
  | succ fuel ih =>
    intro g deg v cyc hok hv hf
    rw [findCycleLoop, if_pos hv]
    cases hfd : (List.range g.dim).find? (fun j => g.times v j != 0) with
    | none =>
      have hz : ∀ j < g.dim, g.times v j = 0 := by
        intro j hj
        simpa using find?_range_none hfd j hj
      have hrow : g.rowSum v = 0 := by
        unfold MGraph.rowSum
        exact Finset.sum_eq_zero fun j hj => hz j (by simpa using hj)
      refine ⟨[], g, deg, by simp, hok, rfl, by simp, ?_, by simpa using hrow, fun h => absurd hrow h⟩
      intro i j
      simp [pairs, und_nil]
    | some w =>
      obtain ⟨hw, hne⟩ := find?_range_some hfd
      have hne : g.times v w ≠ 0 := by simpa using hne
      obtain ⟨g1, g2, d1, d2, a1, a2, a3, a4, a5, a6, a7⟩ := euler_step dbg hok hv hw hne
      have hlt : g2.total < g.total := total_lt a6 a7 (e := (v, w)) (by simp) hv hw
      obtain ⟨t, g', deg', b1, b2, b3, b4, b5, b6, _⟩ := ih g2 _ w (cyc ++ [w]) a5 (by omega) (by omega)
      refine ⟨w :: t, g', deg', ?_, b2, by rw [b3, a6], ?_, ?_, ?_, fun _ => by simp⟩
      · simp only [a1, a2, rm_bind_ok, idx_ok a3, idx_ok a4, decr_succ, b1]
        simp
      · intro x hx
        rcases List.mem_cons.mp hx with rfl | hx
        · exact hw
        · rw [← a6]; exact b4 x hx
      · intro i j
        rw [a7 i j, b5 i j, pairs_cons₂, und_cons (v, w) (pairs (w :: t))]
        omega
      · simpa using b6

theorem findOpen_ok {n : Nat} {deg : List Nat} (hl : deg.length = n) : ∀ (walk : List Nat) (k : Nat),
    (∀ x ∈ walk, x < n) →
    (findOpen deg walk k = .ok none ∧ ∀ x ∈ walk, deg[x]? = some 0) ∨
    ∃ A v B d, walk = A ++ v :: B ∧ findOpen deg walk k = .ok (some (k + A.length, v)) ∧
      deg[v]? = some d ∧ d ≠ 0 := by
  intro walk
  induction walk with
  | nil => intro k _; exact Or.inl ⟨rfl, by simp⟩
  | cons a t ih =>
    intro k h
    have ha : a < deg.length := by rw [hl]; exact h a (by simp)
    have hget := List.getElem?_eq_getElem ha
    rw [findOpen, idx_ok hget]
    simp only [rm_bind_ok]
    by_cases hd : deg[a] = 0
    · rw [if_neg (by simpa using hd)]
      rcases ih (k + 1) (fun x hx => h x (by simp [hx])) with ⟨h1, h2⟩ | ⟨A, v, B, d, h1, h2, h3, h4⟩
      · left
        refine ⟨h1, ?_⟩
        intro x hx
        rcases List.mem_cons.mp hx with rfl | hx
        · rw [hget, hd]
        · exact h2 x hx
      · right
        refine ⟨a :: A, v, B, d, by simp [h1], ?_, h3, h4⟩
        rw [h2]
        simp
        omega
    · right
      refine ⟨[], a, t, deg[a], rfl, ?_, hget, hd⟩
      rw [if_pos (by simpa using hd)]
      simp

theorem pairs_append (A : List Nat) (v : Nat) (B : List Nat) :
    pairs (A ++ v :: B) = pairs (A ++ [v]) ++ pairs (v :: B) := by
  induction A with
  | nil => rfl
  | cons a A ih =>
    cases A with
    | nil => rfl
    | cons b A => simpa [pairs_cons₂] using ih

/-- Hierholzer's loop: it terminates, and every neighbour of a vertex of the walk is in the walk. -/
theorem eulerLoop_ok (dbg : Bool) : ∀ (fuel : Nat) (g : MGraph α) (deg : List Nat) (walk : List Nat),
    MOk g deg → (∀ x ∈ walk, x < g.dim) → g.total < fuel →
    ∃ walk', eulerLoop dbg fuel g deg walk = .ok walk' ∧ (∀ x ∈ walk', x < g.dim) ∧
      (∀ x ∈ walk, x ∈ walk') ∧ walk'.head? = walk.head? ∧
      (∀ i ∈ walk', ∀ j < g.dim, g.times i j ≠ 0 → j ∈ walk') := by
  intro fuel
  induction fuel with
  | zero => intro g deg walk _ _ h; omega
  | succ fuel ih =>
    intro g deg walk hok hv hf
    rw [eulerLoop]
    rcases findOpen_ok (deg := deg) (n := g.dim) (by rw [hok.deg]; simp) walk 0 hv with
      ⟨h1, h2⟩ | ⟨A, v, B, d, h1, h2, h3, h4⟩
    · rw [h1]
      refine ⟨walk, rfl, hv, fun x hx => hx, rfl, ?_⟩
      intro i hi j hj hne
      have := h2 i hi
      rw [hok.get (hv i hi)] at this
      injection this with this
      exact absurd (rowSum_eq_zero this hj) hne
    · have hvd : v < g.dim := hv v (by rw [h1]; simp)
      rw [hok.get hvd] at h3
      injection h3 with h3
      obtain ⟨t, g', deg', b1, b2, b3, b4, b5, b6, b7⟩ :=
        findCycleLoop_ok dbg (vecLimit + deg.sum) g deg v [v] hok hvd (by rw [hok.sum]; exact Nat.lt_add_of_pos_left vecLimit_pos)
      have ht := b7 (by rw [h3]; exact h4)
      have htake : walk.take (0 + A.length + 1) = A ++ [v] := by
        rw [h1, show A ++ v :: B = (A ++ [v]) ++ B by simp]
        rw [List.take_left' (by simp)]
      have hdrop : walk.drop (0 + A.length + 1) = B := by
        rw [h1, show A ++ v :: B = (A ++ [v]) ++ B by simp]
        rw [List.drop_left' (by simp)]
      have hlt : g'.total < g.total := by
        obtain ⟨w, t, rfl⟩ := List.exists_cons_of_ne_nil ht
        exact total_lt b3 b5 (e := (v, w)) (by simp [pairs]) hvd (b4 w (by simp))
      have hmem : ∀ x ∈ v :: t, x ∈ A ++ [v] ++ t ++ B := by
        intro x hx
        simp only [List.mem_append, List.mem_cons, List.not_mem_nil, or_false] at hx ⊢
        tauto
      obtain ⟨walk', c1, c2, c3, c4, c5⟩ := ih g' deg' (A ++ [v] ++ t ++ B) b2 (by
        intro x hx
        rw [b3]
        simp only [List.mem_append, List.mem_cons, List.not_mem_nil, or_false] at hx
        rcases hx with ((hx | rfl) | hx) | hx
        · exact hv x (by rw [h1]; simp [hx])
        · exact hvd
        · exact b4 x hx
        · exact hv x (by rw [h1]; simp [hx])) (by omega)
      refine ⟨walk', ?_, by rw [← b3]; exact c2, ?_, ?_, ?_⟩
      · rw [h2]
        simp only [rm_bind_ok]
        unfold findCycle
        rw [b1]
        simp only [rm_bind_ok, htake, hdrop]
        simpa using c1
      · intro x hx
        apply c3
        rw [h1] at hx
        simp only [List.mem_append, List.mem_cons, List.not_mem_nil, or_false] at hx ⊢
        tauto
      · rw [c4, h1]
        cases A <;> simp
      · intro i hi j hj hne
        by_cases hz : g'.times i j = 0
        · have hu : und (pairs (v :: t)) i j ≠ 0 := by
            have := b5 i j
            omega
          have : j ∈ v :: t := by
            rcases und_pos hu with h | h
            · exact (mem_pairs h).2
            · exact (mem_pairs h).1
          exact c3 j (hmem j this)
        · exact c5 i hi j (by omega) hz

/-- number of ends of the steps of a walk at `i` -/
theorem sum_und_pairs {n : Nat} : ∀ (t : List Nat) (v i : Nat), (∀ x ∈ v :: t, x < n) →
    ∑ j ∈ Finset.range n, und (pairs (v :: t)) i j + (if i = v then 1 else 0) +
      (if i = (v :: t).getLast (by simp) then 1 else 0) = 2 * (v :: t).count i := by
  intro t
  induction t with
  | nil =>
    intro v i _
    by_cases h : i = v
    · simp [pairs, und_nil, h]
    · simp [pairs, und_nil, h, List.count_cons, Ne.symm h]
  | cons w t ih =>
    intro v i h
    have := ih w i (fun x hx => h x (by simp at hx ⊢; tauto))
    rw [pairs_cons₂]
    simp only [fun j => und_cons (v, w) (pairs (w :: t)) i j, Finset.sum_add_distrib]
    rw [sum_und_single (h v (by simp)) (h w (by simp))]
    rw [List.getLast_cons (by simp), List.count_cons]
    by_cases h1 : i = v
    · subst h1
      simp only [beq_self_eq_true, if_true]
      omega
    · have h2 : (v == i) = false := by simpa using Ne.symm h1
      simp only [h1, h2, if_false]
      simp only [Bool.false_eq_true, if_false]
      omega

/-- Hierholzer's loop on even degrees: closed walks are inserted, and the walk together with the
remaining edges stays the same multiset of edges. -/
theorem eulerLoop_even (dbg : Bool) : ∀ (fuel : Nat) (g : MGraph α) (deg : List Nat) (walk : List Nat),
    MOk g deg → (∀ x ∈ walk, x < g.dim) → g.total < fuel → (∀ i < g.dim, Even (g.rowSum i)) →
    ∃ (walk' : List Nat) (R : Nat → Nat → Nat), eulerLoop dbg fuel g deg walk = .ok walk' ∧
      walk'.head? = walk.head? ∧ walk'.getLast? = walk.getLast? ∧
      (∀ i ∈ walk', ∀ j < g.dim, R i j = 0) ∧
      (∀ i j, g.times i j + und (pairs walk) i j = R i j + und (pairs walk') i j) := by
  intro fuel
  induction fuel with
  | zero => intro g deg walk _ _ h; omega
  | succ fuel ih =>
    intro g deg walk hok hv hf heven
    rw [eulerLoop]
    rcases findOpen_ok (deg := deg) (n := g.dim) (by rw [hok.deg]; simp) walk 0 hv with
      ⟨h1, h2⟩ | ⟨A, v, B, d, h1, h2, h3, h4⟩
    · rw [h1]
      refine ⟨walk, g.times, rfl, rfl, rfl, ?_, fun _ _ => rfl⟩
      intro i hi j hj
      have := h2 i hi
      rw [hok.get (hv i hi)] at this
      injection this with this
      exact rowSum_eq_zero this hj
    · have hvd : v < g.dim := hv v (by rw [h1]; simp)
      rw [hok.get hvd] at h3
      injection h3 with h3
      obtain ⟨t, g', deg', b1, b2, b3, b4, b5, b6, b7⟩ :=
        findCycleLoop_ok dbg (vecLimit + deg.sum) g deg v [v] hok hvd (by rw [hok.sum]; exact Nat.lt_add_of_pos_left vecLimit_pos)
      have ht := b7 (by rw [h3]; exact h4)
      have htake : walk.take (0 + A.length + 1) = A ++ [v] := by
        rw [h1, show A ++ v :: B = (A ++ [v]) ++ B by simp]
        rw [List.take_left' (by simp)]
      have hdrop : walk.drop (0 + A.length + 1) = B := by
        rw [h1, show A ++ v :: B = (A ++ [v]) ++ B by simp]
        rw [List.drop_left' (by simp)]
      have hlt : g'.total < g.total := by
        obtain ⟨w, t, rfl⟩ := List.exists_cons_of_ne_nil ht
        exact total_lt b3 b5 (e := (v, w)) (by simp [pairs]) hvd (b4 w (by simp))
      have hval : ∀ x ∈ v :: t, x < g.dim := by
        intro x hx
        rcases List.mem_cons.mp hx with rfl | hx
        · exact hvd
        · exact b4 x hx
      have hrow : ∀ i, g.rowSum i + (if i = v then 1 else 0) +
          (if i = (v :: t).getLast (by simp) then 1 else 0) = g'.rowSum i + 2 * (v :: t).count i := by
        intro i
        rw [← sum_und_pairs t v i hval]
        unfold MGraph.rowSum
        rw [b3, Finset.sum_congr rfl (fun j _ => b5 i j), Finset.sum_add_distrib]
        omega
      have hclosed : (v :: t).getLast (by simp) = v := by
        by_contra hne
        have := hrow ((v :: t).getLast (by simp))
        rw [if_neg hne, if_pos rfl, b6] at this
        obtain ⟨k, hk⟩ := heven _ (hval _ (List.getLast_mem (by simp)))
        omega
      have heven' : ∀ i < g'.dim, Even (g'.rowSum i) := by
        intro i hi
        have := hrow i
        rw [hclosed] at this
        obtain ⟨k, hk⟩ := heven i (by omega)
        rw [Nat.even_iff]
        split at this <;> omega
      obtain ⟨C, hC⟩ : ∃ C, v :: t = C ++ [v] := by
        refine ⟨(v :: t).dropLast, ?_⟩
        conv_lhs => rw [← List.dropLast_append_getLast (l := v :: t) (by simp)]
        rw [hclosed]
      have hpairs : ∀ i j, und (pairs (A ++ [v] ++ t ++ B)) i j =
          und (pairs walk) i j + und (pairs (v :: t)) i j := by
        intro i j
        have e1 : A ++ [v] ++ t ++ B = A ++ v :: (t ++ B) := by simp
        have e2 : v :: (t ++ B) = C ++ v :: B := by
          rw [← List.cons_append, hC]; simp
        rw [e1, pairs_append, e2, pairs_append C, h1, pairs_append A v B, hC]
        simp only [und_append]
        omega
      obtain ⟨walk', R, c1, c2, c3, c4, c5⟩ := ih g' deg' (A ++ [v] ++ t ++ B) b2 (by
        intro x hx
        rw [b3]
        simp only [List.mem_append, List.mem_cons, List.not_mem_nil, or_false] at hx
        rcases hx with ((hx | rfl) | hx) | hx
        · exact hv x (by rw [h1]; simp [hx])
        · exact hvd
        · exact b4 x hx
        · exact hv x (by rw [h1]; simp [hx])) (by omega) heven'
      refine ⟨walk', R, ?_, ?_, ?_, by rw [← b3]; exact c4, ?_⟩
      · rw [h2]
        simp only [rm_bind_ok]
        unfold findCycle
        rw [b1]
        simp only [rm_bind_ok, htake, hdrop]
        simpa using c1
      · rw [c2, h1]
        cases A <;> simp
      · rw [c3, h1]
        have e1 : A ++ [v] ++ t ++ B = A ++ (C ++ v :: B) := by
          have e2 : v :: (t ++ B) = C ++ v :: B := by
            rw [← List.cons_append, hC]; simp
          rw [← e2]; simp
        rw [e1, ← List.append_assoc, List.getLast?_append, List.getLast?_append (l' := v :: B)]
        cases hB : (v :: B).getLast? with
        | none => simp at hB
        | some x => rfl
      · intro i j
        have := c5 i j
        rw [hpairs i j] at this
        have := b5 i j
        omega

theorem multiDegrees_eq {g : MGraph α} (hs : ∀ i j, i < g.dim → j < g.dim → g.times i j = g.times j i) :
    multiDegrees g = (List.range g.dim).map g.rowSum := by
  unfold multiDegrees
  apply List.map_congr_left
  intro j hj
  rw [sum_map_range]
  unfold MGraph.rowSum
  apply Finset.sum_congr rfl
  intro i hi
  exact hs i j (by simpa using hi) (by simpa using hj)

/-- every vertex is linked to 0 in the multigraph -/
def MGraph.Connected (g : MGraph α) : Prop :=
  ∀ j < g.dim, Relation.ReflTransGen (fun a b => a < g.dim ∧ b < g.dim ∧ g.times a b ≠ 0) 0 j

theorem eulerianCycle_ok (dbg : Bool) {g : MGraph α} (hs : ∀ i j, i < g.dim → j < g.dim → g.times i j = g.times j i)
    (hd : ∀ i, i < g.dim → Even (g.times i i)) (h0 : 0 < g.dim) (hc : g.Connected) :
    ∃ walk, eulerianCycle dbg g = .ok walk ∧ (∀ x, x ∈ walk ↔ x < g.dim) ∧ walk.head? = some 0 := by
  have hok : MOk g (multiDegrees g) := ⟨hs, hd, multiDegrees_eq hs⟩
  obtain ⟨walk, h1, h2, h3, h4, h5⟩ := eulerLoop_ok dbg (vecLimit + (multiDegrees g).sum) g (multiDegrees g) [0] hok
    (by simpa using h0) (by rw [hok.sum]; exact Nat.lt_add_of_pos_left vecLimit_pos)
  refine ⟨walk, h1, fun x => ⟨h2 x, fun hx => ?_⟩, h4⟩
  have := hc x hx
  induction this with
  | refl => exact h3 0 (by simp)
  | tail _ hbc ih => exact h5 _ (ih hbc.1) _ hbc.2.1 hbc.2.2

theorem eulerianCycle_even (dbg : Bool) {g : MGraph α} (hs : ∀ i j, i < g.dim → j < g.dim → g.times i j = g.times j i)
    (hd : ∀ i, i < g.dim → Even (g.times i i)) (h0 : 0 < g.dim) (hc : g.Connected)
    (he : ∀ i < g.dim, Even (g.rowSum i)) :
    ∃ walk, eulerianCycle dbg g = .ok walk ∧ (∀ x, x ∈ walk ↔ x < g.dim) ∧ walk.head? = some 0 ∧
      walk.getLast? = some 0 ∧
      ∀ i j, i < g.dim → j < g.dim → und (pairs walk) i j = g.times i j := by
  have hok : MOk g (multiDegrees g) := ⟨hs, hd, multiDegrees_eq hs⟩
  obtain ⟨walk, h1, h2, h3⟩ := eulerianCycle_ok dbg hs hd h0 hc
  obtain ⟨walk', R, k1, k2, k3, k4, k5⟩ := eulerLoop_even dbg (vecLimit + (multiDegrees g).sum) g (multiDegrees g) [0]
    hok (by simpa using h0) (by rw [hok.sum]; exact Nat.lt_add_of_pos_left vecLimit_pos) he
  have : walk' = walk := by
    unfold eulerianCycle at h1
    rw [k1] at h1
    injection h1
  subst this
  refine ⟨walk', h1, h2, h3, k3, ?_⟩
  intro i j hi hj
  have := k5 i j
  rw [k4 i ((h2 i).mpr hi) j hj] at this
  simp [pairs, und_nil] at this
  unfold pairs
  omega

/-! ## a walk that a debug build finds is found by every build -/

theorem rm_bind_build {β γ : Type} {x x' : RM β} {f f' : β → RM γ} {y : γ} (h : (x >>= f) = .ok y)
    (hx : ∀ b, x = .ok b → x' = .ok b) (hf : ∀ b, f b = .ok y → f' b = .ok y) : (x' >>= f') = .ok y := by
  cases x with
  | error e => cases h
  | ok b => rw [hx b rfl]; exact hf b h

theorem decr_build {x y : Nat} (h : decr true x = .ok y) (dbg : Bool) : decr dbg x = .ok y := by
  unfold decr at h ⊢
  split at h
  · cases h
  · rename_i hx
    rw [if_neg hx]
    exact h

theorem dec_build {g g' : MGraph α} {i j : Nat} (h : g.dec true i j = .ok g') (dbg : Bool) :
    g.dec dbg i j = .ok g' := by
  unfold MGraph.dec at h ⊢
  split at h
  · rename_i hx
    rw [if_pos hx]
    exact rm_bind_build h (fun _ hb => decr_build hb dbg) fun _ hb => hb
  · cases h

theorem findCycleLoop_build (dbg : Bool) : ∀ (fuel : Nat) (g : MGraph α) (deg : List Nat) (v : Nat) (cyc : List Nat)
    {r : List Nat × MGraph α × List Nat}, findCycleLoop true fuel g deg v cyc = .ok r →
    findCycleLoop dbg fuel g deg v cyc = .ok r := by
  intro fuel
  induction fuel with
  | zero => intro g deg v cyc r h; cases h
  | succ fuel ih =>
    intro g deg v cyc r h
    rw [findCycleLoop] at h ⊢
    split at h
    · rename_i hv
      rw [if_pos hv]
      split at h
      · exact h
      · refine rm_bind_build h (fun _ hb => dec_build hb dbg) fun _ h => ?_
        refine rm_bind_build h (fun _ hb => dec_build hb dbg) fun _ h => ?_
        refine rm_bind_build h (fun _ hb => hb) fun _ h => ?_
        refine rm_bind_build h (fun _ hb => decr_build hb dbg) fun _ h => ?_
        refine rm_bind_build h (fun _ hb => hb) fun _ h => ?_
        refine rm_bind_build h (fun _ hb => decr_build hb dbg) fun _ h => ?_
        exact ih _ _ _ _ h
    · cases h

theorem eulerLoop_build (dbg : Bool) : ∀ (fuel : Nat) (g : MGraph α) (deg : List Nat) (walk : List Nat)
    {w : List Nat}, eulerLoop true fuel g deg walk = .ok w → eulerLoop dbg fuel g deg walk = .ok w := by
  intro fuel
  induction fuel with
  | zero => intro g deg walk w h; cases h
  | succ fuel ih =>
    intro g deg walk w h
    rw [eulerLoop] at h ⊢
    refine rm_bind_build h (fun _ hb => hb) fun o h => ?_
    cases o with
    | none => exact h
    | some kv => exact rm_bind_build h (fun _ hb => findCycleLoop_build dbg _ _ _ _ _ hb) fun _ h => ih _ _ _ h

theorem eulerianCycle_build {g : MGraph α} {w : List Nat} (h : eulerianCycle true g = .ok w) (dbg : Bool) :
    eulerianCycle dbg g = .ok w := eulerLoop_build dbg _ _ _ _ h

end Walky
