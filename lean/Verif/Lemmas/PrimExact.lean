import Verif.Lemmas.PrimPure
import Verif.Lemmas.XNum
import Verif.Rep
import Mathlib.Algebra.BigOperators.Group.List.Basic
import Mathlib.Algebra.Order.BigOperators.Group.List
import Mathlib.Tactic.Linarith
import Mathlib.Tactic.Ring

/-! # Helper lemmas: Prim in exact arithmetic -/

set_option linter.unusedSectionVars false

namespace Walky

open FloatOps XNum

variable {K : Type} [Field K] [LinearOrder K] [IsStrictOrderedRing K]

theorem olt_proper {x y : XNum K} (hx : Proper x) (hy : Proper y) :
    olt x y = FloatOps.lt x y := by
  rcases hx with rfl | ⟨a, rfl⟩ <;> rcases hy with rfl | ⟨b, rfl⟩ <;> simp

/-- `min_by` returns a minimum -/
theorem minByFirst_le {β : Type} {lt : β → β → Bool} {f : β → XNum K} {l : List β} {x : β}
    (hf : ∀ y ∈ l, Proper (f y)) (hlt : ∀ y ∈ l, ∀ z ∈ l, lt y z = FloatOps.lt (f y) (f z))
    (h : minByFirst lt l = some x) : ∀ y ∈ l, FloatOps.le (f x) (f y) = true := by
  cases l with
  | nil => simp [minByFirst] at h
  | cons a t =>
    simp only [minByFirst, Option.some.injEq] at h
    subst h
    have := foldl_inv (fun best y => if lt y best then y else best)
      (fun done b => b ∈ a :: t ∧ ∀ y ∈ a :: done, FloatOps.le (f b) (f y) = true) t a
      ⟨by simp, by simpa using (hf a (by simp)).le_refl⟩ (by
        intro done i rest b hl hb
        have hi : i ∈ a :: t := by simp [hl]
        by_cases hib : lt i b = true
        · simp only [hib, if_true]
          refine ⟨hi, ?_⟩
          intro y hy
          have hlt' := hlt i hi b hb.1
          rw [hib] at hlt'
          rcases List.mem_cons.mp hy with h | h
          · exact le_trans' (le_of_lt' hlt'.symm) (hb.2 y (by simp [h]))
          · rcases List.mem_append.mp h with h | h
            · exact le_trans' (le_of_lt' hlt'.symm) (hb.2 y (by simp [h]))
            · simp at h; subst h; exact (hf _ hi).le_refl
        · have hib' : lt i b = false := by simpa using hib
          simp only [hib', Bool.false_eq_true, if_false]
          refine ⟨hb.1, ?_⟩
          intro y hy
          have hlt' := hlt i hi b hb.1
          rw [hib'] at hlt'
          rcases List.mem_cons.mp hy with h | h
          · exact hb.2 y (by simp [h])
          · rcases List.mem_append.mp h with h | h
            · exact hb.2 y (by simp [h])
            · simp at h; subst h
              exact Proper.not_lt (hf _ hi) (hf _ hb.1) hlt'.symm)
    exact this.2

/-- A run of Prim's algorithm from the tree vertices `S` on the vertex set `U`: each pick
`(v, u)` joins a new vertex `v` to a tree vertex `u` by a cheapest crossing edge. -/
inductive PrimRun (c : Nat → Nat → K) (U : Nat → Prop) : List Nat → List (Nat × Nat) → Prop
  | nil {S : List Nat} (h : ∀ j, U j → j ∈ S) : PrimRun c U S []
  | cons {S : List Nat} {v u : Nat} {P : List (Nat × Nat)} (hu : u ∈ S) (hv : U v) (hvS : v ∉ S)
      (hmin : ∀ i j, i ∈ S → U j → j ∉ S → c u v ≤ c i j) (hP : PrimRun c U (v :: S) P) :
      PrimRun c U S ((v, u) :: P)

/-- Exact invariant of the distance vector, tree vertices `S ≠ []`. -/
structure DistInv (n : Nat) (ex : List Nat) (c : Nat → Nat → K) (S : List Nat)
    (d : Dist (XNum K)) : Prop where
  len : d.length = n + 1
  last : d[n]? = some (⟨n, XNum.inf⟩, false)
  ent : ∀ j, j < n → ∃ e : Edge (XNum K), d[j]? = some (e, decide (j ∈ ex ∨ j ∈ S)) ∧
    (j ∉ ex → j ∉ S → e.dst ∈ S ∧ e.cost = fin (c e.dst j) ∧ ∀ i ∈ S, c e.dst j ≤ c i j)

theorem DistInv.cand {n : Nat} {ex : List Nat} {c : Nat → Nat → K} {S : List Nat}
    {d : Dist (XNum K)} (h : DistInv n ex c S d) {x : Nat × Edge (XNum K)}
    (hx : x ∈ d.candidates) : (x.1 = n ∧ x.2 = ⟨n, XNum.inf⟩) ∨
      (x.1 < n ∧ x.1 ∉ ex ∧ x.1 ∉ S ∧ x.2.dst ∈ S ∧ x.2.cost = fin (c x.2.dst x.1) ∧
        ∀ i ∈ S, c x.2.dst x.1 ≤ c i x.1) := by
  rw [Dist.mem_candidates] at hx
  have hlt : x.1 < n + 1 := by
    rw [List.getElem?_eq_some_iff] at hx
    have := hx.1
    rwa [h.len] at this
  rcases Nat.lt_succ_iff_lt_or_eq.mp hlt with h1 | h1
  · right
    obtain ⟨e, he, hee⟩ := h.ent x.1 h1
    rw [hx] at he
    simp only [Option.some.injEq] at he
    have e1 : x.2 = e := congrArg Prod.fst he
    have e2 : false = decide (x.1 ∈ ex ∨ x.1 ∈ S) := congrArg Prod.snd he
    have e3 : ¬ (x.1 ∈ ex ∨ x.1 ∈ S) := by simpa using e2.symm
    push Not at e3
    obtain ⟨a1, a2, a3⟩ := hee e3.1 e3.2
    rw [e1]
    exact ⟨h1, e3.1, e3.2, a1, a2, a3⟩
  · left
    refine ⟨h1, ?_⟩
    rw [h1, h.last] at hx
    simp only [Option.some.injEq] at hx
    exact (congrArg Prod.fst hx).symm

theorem DistInv.cand_proper {n : Nat} {ex : List Nat} {c : Nat → Nat → K} {S : List Nat}
    {d : Dist (XNum K)} (h : DistInv n ex c S d) {x : Nat × Edge (XNum K)}
    (hx : x ∈ d.candidates) : Proper x.2.cost := by
  rcases h.cand hx with h1 | h1
  · rw [h1.2]; exact proper_inf
  · rw [h1.2.2.2.2.1]; exact proper_fin _

/-- what `find` returns -/
theorem DistInv.find {n : Nat} {ex : List Nat} {c : Nat → Nat → K} {S : List Nat}
    {d : Dist (XNum K)} (h : DistInv n ex c S d) :
    (d.find.2.cost = XNum.inf ∧ ∀ j, j < n → j ∉ ex → j ∈ S) ∨
      (d.find.1 < n ∧ d.find.1 ∉ ex ∧ d.find.1 ∉ S ∧ d.find.2.dst ∈ S ∧
        d.find.2.cost = fin (c d.find.2.dst d.find.1) ∧
        ∀ i j, i ∈ S → j < n → j ∉ ex → j ∉ S → c d.find.2.dst d.find.1 ≤ c i j) := by
  have hne : d.candidates ≠ [] := by
    have : (n, (⟨n, XNum.inf⟩ : Edge (XNum K))) ∈ d.candidates := Dist.mem_candidates.mpr h.last
    intro h0
    rw [h0] at this
    simp at this
  obtain ⟨x, hx⟩ := minByFirst_isSome (lt := Dist.candLt) hne
  have hf : d.find = x := by unfold Dist.find; rw [hx]; rfl
  have hmem := minByFirst_mem hx
  have hle := minByFirst_le (lt := Dist.candLt) (f := fun y => y.2.cost) (fun y hy => h.cand_proper hy)
    (fun y hy z hz => olt_proper (h.cand_proper hy) (h.cand_proper hz)) hx
  rw [hf]
  have entry : ∀ j, j < n → j ∉ ex → j ∉ S → ∃ e : Edge (XNum K), (j, e) ∈ d.candidates ∧
      e.dst ∈ S ∧ e.cost = fin (c e.dst j) ∧ ∀ i ∈ S, c e.dst j ≤ c i j := by
    intro j hj hje hjS
    obtain ⟨e, he, hee⟩ := h.ent j hj
    refine ⟨e, ?_, hee hje hjS⟩
    rw [Dist.mem_candidates, he]
    simp [hje, hjS]
  rcases h.cand hmem with h1 | h1
  · left
    refine ⟨by rw [h1.2], ?_⟩
    intro j hj hje
    by_contra hjS
    obtain ⟨e, he, _, hc, _⟩ := entry j hj hje hjS
    have := hle _ he
    simp only [h1.2, hc] at this
    simp at this
  · right
    obtain ⟨a1, a2, a3, a4, a5, a6⟩ := h1
    refine ⟨a1, a2, a3, a4, a5, ?_⟩
    intro i j hi hj hje hjS
    obtain ⟨e, he, _, hc, hb⟩ := entry j hj hje hjS
    have := hle _ he
    simp only [a5, hc, le_fin, decide_eq_true_eq] at this
    exact this.trans (hb i hi)

theorem DistInv.next {m : Mat (XNum K)} {ex : List Nat} {c : Nat → Nat → K} {S : List Nat}
    {d : Dist (XNum K)} (hm : Rep m c) (h : DistInv m.dim ex c S d) {v : Nat} (hv : v < m.dim) :
    DistInv m.dim ex c (v :: S) (d.next m v) := by
  refine ⟨by simp [Dist.next, h.len], ?_, ?_⟩
  · unfold Dist.next
    rw [Dist.getElem?_updateInOrder List.nodup_range]
    simp only [List.mem_range, lt_irrefl, if_false]
    rw [List.getElem?_modify, h.last]
    simp [Nat.ne_of_lt hv]
  · intro j hj
    obtain ⟨e, he, hee⟩ := h.ent j hj
    unfold Dist.next
    rw [Dist.getElem?_updateInOrder List.nodup_range, List.getElem?_modify, he]
    simp only [List.mem_range, hj, if_true]
    by_cases hvj : v = j
    · subst hvj
      refine ⟨(Dist.relaxEntry v (m.get v v) (e, true)).1, ?_, ?_⟩
      · simp only [Option.map_eq_map, if_true, Option.map_some, List.mem_cons, true_or, or_true, decide_true]
        congr 1
        unfold Dist.relaxEntry
        split <;> rfl
      · intro _ hn
        exact absurd (by simp) hn
    · simp only [hvj, if_false, Option.map_eq_map, Option.map_some]
      refine ⟨(Dist.relaxEntry v (m.get v j) (e, decide (j ∈ ex ∨ j ∈ S))).1, ?_, ?_⟩
      · congr 1
        have hjv : j ≠ v := fun h => hvj h.symm
        unfold Dist.relaxEntry
        split <;> simp [hjv]
      · intro hjex hjS
        have hjS' : j ∉ S := fun h => hjS (by simp [h])
        obtain ⟨b1, b2, b3⟩ := hee hjex hjS'
        have hrow : m.get v j = fin (c v j) := hm.off v j hv hj hvj
        unfold Dist.relaxEntry
        simp only [hrow, b2, lt_fin, decide_eq_true_eq]
        split
        · rename_i hlt
          refine ⟨by simp, rfl, ?_⟩
          intro i hi
          rcases List.mem_cons.mp hi with h | h
          · rw [h]
          · exact hlt.le.trans (b3 i h)
        · rename_i hlt
          refine ⟨by simp [b1], b2, ?_⟩
          intro i hi
          rcases List.mem_cons.mp hi with h | h
          · rw [h]; exact not_lt.mp hlt
          · exact b3 i h

/-- the vertices outside the tree -/
def remaining (n : Nat) (ex S : List Nat) : List Nat :=
  (List.range n).filter fun j => decide (j ∉ ex ∧ j ∉ S)

theorem mem_remaining {n : Nat} {ex S : List Nat} {j : Nat} :
    j ∈ remaining n ex S ↔ j < n ∧ j ∉ ex ∧ j ∉ S := by
  simp [remaining]

theorem remaining_length_cons {n : Nat} {ex S : List Nat} {v : Nat} (hv : v < n) (hex : v ∉ ex)
    (hS : v ∉ S) : (remaining n ex (v :: S)).length + 1 = (remaining n ex S).length := by
  have hp : (remaining n ex S).Perm (v :: remaining n ex (v :: S)) := by
    rw [List.perm_ext_iff_of_nodup]
    · intro j
      simp only [List.mem_cons, mem_remaining]
      constructor
      · rintro ⟨h1, h2, h3⟩
        by_cases h : j = v
        · exact Or.inl h
        · right; exact ⟨h1, h2, by simp [h, h3]⟩
      · rintro (h | ⟨h1, h2, h3⟩)
        · subst h; exact ⟨hv, hex, hS⟩
        · push Not at h3; exact ⟨h1, h2, h3.2⟩
    · exact List.nodup_range.filter _
    · rw [List.nodup_cons]
      exact ⟨by simp [mem_remaining], List.nodup_range.filter _⟩
  simpa using hp.length_eq.symm

/-- the picks as `(vertex, tree vertex)` pairs -/
def pairOf (p : Nat × Edge (XNum K)) : Nat × Nat := (p.1, p.2.dst)

theorem picks_primRun {m : Mat (XNum K)} {ex : List Nat} {c : Nat → Nat → K} (hm : Rep m c) :
    ∀ (k : Nat) (S : List Nat) (d : Dist (XNum K)), DistInv m.dim ex c S d →
      (remaining m.dim ex S).length ≤ k →
      PrimRun c (fun j => j < m.dim ∧ j ∉ ex) S ((picks m k d).map pairOf) ∧
        ∀ p ∈ picks m k d, p.1 < m.dim ∧ p.1 ∉ S ∧ p.2.cost = fin (c p.2.dst p.1) := by
  intro k
  induction k with
  | zero =>
    intro S d hd hk
    refine ⟨?_, by simp [picks]⟩
    simp only [picks, List.map_nil]
    apply PrimRun.nil
    intro j hj
    by_contra hjS
    have : j ∈ remaining m.dim ex S := mem_remaining.mpr ⟨hj.1, hj.2, hjS⟩
    have h0 : remaining m.dim ex S = [] := List.length_eq_zero_iff.mp (by omega)
    rw [h0] at this
    simp at this
  | succ k ih =>
    intro S d hd hk
    unfold picks
    rcases hd.find with ⟨h1, h2⟩ | ⟨h1, h2, h3, h4, h5, h6⟩
    · rw [h1]
      simp only [inf_def, eq_inf_inf, if_true, List.map_nil]
      exact ⟨PrimRun.nil (fun j hj => h2 j hj.1 hj.2), by simp⟩
    · rw [h5]
      simp only [inf_def, eq_fin_inf, Bool.false_eq_true, if_false, List.map_cons]
      obtain ⟨i1, i2⟩ := ih (d.find.1 :: S) (d.next m d.find.1) (hd.next hm h1) (by
        have := remaining_length_cons h1 h2 h3; omega)
      refine ⟨PrimRun.cons h4 ⟨h1, h2⟩ h3 (fun i j hi hj hjS => h6 i j hi hj.1 hj.2 hjS) i1, ?_⟩
      intro p hp
      rcases List.mem_cons.mp hp with h | h
      · subst h; exact ⟨h1, h3, h5⟩
      · obtain ⟨j1, j2, j3⟩ := i2 p h
        exact ⟨j1, fun h => j2 (by simp [h]), j3⟩

/-- first iteration: the start vertex is picked -/
theorem primPicks_eq {m : Mat (XNum K)} {ex : List Nat} {c : Nat → Nat → K} (hm : Rep m c)
    {start : Nat} (hs : start < m.dim) (hsex : start ∉ ex) (hex : ∀ v ∈ ex, v < m.dim) :
    ∃ P, primPicks m ex start = (start, ⟨start, fin 0⟩) :: P ∧
      PrimRun c (fun j => j < m.dim ∧ j ∉ ex) [start] (P.map pairOf) ∧
      ∀ p ∈ P, p.1 < m.dim ∧ p.1 ≠ start ∧ p.2.cost = fin (c p.2.dst p.1) := by
  have hcand : ∀ x ∈ (initDist m.dim ex start : Dist (XNum K)).candidates,
      x = (start, ⟨start, fin 0⟩) ∨ x.2.cost = XNum.inf := by
    intro x hx
    rw [Dist.mem_candidates] at hx
    have hlt : x.1 < m.dim + 1 := by
      rw [List.getElem?_eq_some_iff] at hx
      have := hx.1
      rwa [length_initDist] at this
    rw [getElem?_initDist hlt] at hx
    simp only [Option.some.injEq] at hx
    have hx1 := congrArg Prod.fst hx
    simp only at hx1
    split at hx1
    · left; rename_i h; exact Prod.ext h.symm hx1.symm
    · right; rw [← hx1]; rfl
  have hmemS : (start, (⟨start, fin 0⟩ : Edge (XNum K))) ∈
      (initDist m.dim ex start : Dist (XNum K)).candidates := by
    rw [Dist.mem_candidates, getElem?_initDist (by simp; omega)]
    simp [hsex]
  have hne : (initDist m.dim ex start : Dist (XNum K)).candidates ≠ [] := by
    intro h0; rw [h0] at hmemS; simp at hmemS
  have hprop : ∀ x ∈ (initDist m.dim ex start : Dist (XNum K)).candidates, Proper x.2.cost := by
    intro x hx
    rcases hcand x hx with h | h
    · rw [h]; exact proper_fin _
    · rw [h]; exact proper_inf
  obtain ⟨x, hx⟩ := minByFirst_isSome (lt := Dist.candLt) hne
  have hf : (initDist m.dim ex start : Dist (XNum K)).find = x := by
    unfold Dist.find; rw [hx]; rfl
  have hle := minByFirst_le (lt := Dist.candLt) (f := fun y => y.2.cost) hprop
    (fun y hy z hz => olt_proper (hprop y hy) (hprop z hz)) hx _ hmemS
  have hxs : x = (start, ⟨start, fin 0⟩) := by
    rcases hcand x (minByFirst_mem hx) with h | h
    · exact h
    · simp only [h] at hle
      simp at hle
  have hinv : DistInv m.dim ex c [start] ((initDist m.dim ex start : Dist (XNum K)).next m start) := by
    refine ⟨by simp [Dist.next, length_initDist], ?_, ?_⟩
    · unfold Dist.next
      rw [Dist.getElem?_updateInOrder List.nodup_range]
      simp only [List.mem_range, lt_irrefl, if_false]
      rw [List.getElem?_modify, getElem?_initDist (by omega)]
      have : m.dim ∉ ex := fun h => lt_irrefl _ (hex _ h)
      simp [Nat.ne_of_lt hs, this]
    · intro j hj
      unfold Dist.next
      rw [Dist.getElem?_updateInOrder List.nodup_range, List.getElem?_modify,
        getElem?_initDist (by omega)]
      simp only [List.mem_range, hj, if_true]
      by_cases hsj : start = j
      · subst hsj
        simp only [if_true, Option.map_eq_map, Option.map_some]
        refine ⟨(Dist.relaxEntry start (m.get start start)
          ((⟨start, zero⟩ : Edge (XNum K)), true)).1, ?_, ?_⟩
        · congr 1
          unfold Dist.relaxEntry
          split <;> simp
        · intro _ h; exact absurd (by simp) h
      · have hjs : j ≠ start := fun h => hsj h.symm
        simp only [hsj, if_false, Option.map_eq_map, Option.map_some]
        have hrow : m.get start j = fin (c start j) := hm.off start j hs hj hsj
        refine ⟨⟨start, fin (c start j)⟩, ?_, ?_⟩
        · simp [Dist.relaxEntry, hrow, hjs]
        · intro _ _
          refine ⟨by simp, rfl, ?_⟩
          intro i hi
          simp at hi; rw [hi]
  unfold primPicks
  have hstep : picks m (m.dim + 1) (initDist m.dim ex start) =
      (start, ⟨start, fin 0⟩) :: picks m m.dim ((initDist m.dim ex start).next m start) := by
    rw [picks, hf, hxs]
    simp
  refine ⟨_, hstep, ?_⟩
  have hrem : (remaining m.dim ex [start]).length ≤ m.dim := by
    have := List.length_filter_le (fun j => decide (j ∉ ex ∧ j ∉ [start])) (List.range m.dim)
    simpa [remaining] using this
  obtain ⟨h1, h2⟩ := picks_primRun hm m.dim [start] _ hinv hrem
  refine ⟨h1, ?_⟩
  intro p hp
  obtain ⟨a, b, d⟩ := h2 p hp
  exact ⟨a, by simpa using b, d⟩

/-! ## Spanning and minimality -/

/-- `x` is linked to the set `A` by the undirected edges `F`. -/
inductive Conn (F : List (Nat × Nat)) (A : List Nat) : Nat → Prop
  | base {x : Nat} (h : x ∈ A) : Conn F A x
  | step {x y : Nat} (e : (x, y) ∈ F ∨ (y, x) ∈ F) (h : Conn F A y) : Conn F A x

theorem Conn.mono {F F' : List (Nat × Nat)} {A A' : List Nat} {x : Nat} (h : Conn F A x)
    (hF : ∀ e ∈ F, e ∈ F') (hA : ∀ a ∈ A, a ∈ A') : Conn F' A' x := by
  induction h with
  | base h => exact .base (hA _ h)
  | step e _ ih => exact .step (e.imp (hF _) (hF _)) ih

theorem Conn.trans {F : List (Nat × Nat)} {A B : List Nat} {x : Nat} (h : Conn F A x)
    (hA : ∀ a ∈ A, Conn F B a) : Conn F B x := by
  induction h with
  | base h => exact hA _ h
  | step e _ ih => exact .step e ih

/-- the edges picked by Prim link every vertex to the tree -/
theorem PrimRun.conn {c : Nat → Nat → K} {U : Nat → Prop} {S : List Nat} {P : List (Nat × Nat)}
    (h : PrimRun c U S P) : ∀ j, U j → Conn P S j := by
  induction h with
  | nil h => intro j hj; exact .base (h j hj)
  | @cons S v u P hu hv hvS hmin hP ih =>
    intro j hj
    refine ((ih j hj).mono (fun e he => List.mem_cons_of_mem _ he) (fun a ha => ha)).trans ?_
    intro a ha
    rcases List.mem_cons.mp ha with h | h
    · subst h; exact .step (Or.inl (by simp)) (.base hu)
    · exact .base h

/-- vertices reachable from `v` without entering `S` -/
inductive Reach (F : List (Nat × Nat)) (S : List Nat) (v : Nat) : Nat → Prop
  | refl (h : v ∉ S) : Reach F S v v
  | step {x y : Nat} (h : Reach F S v x) (e : (x, y) ∈ F ∨ (y, x) ∈ F) (hy : y ∉ S) :
      Reach F S v y

theorem Reach.notMem {F : List (Nat × Nat)} {S : List Nat} {v x : Nat} (h : Reach F S v x) :
    x ∉ S := by
  cases h with
  | refl h => exact h
  | step _ _ h => exact h

theorem crossing {F : List (Nat × Nat)} {S : List Nat} {v x : Nat} (h : Conn F S x)
    (hr : Reach F S v x) : ∃ a b, Reach F S v a ∧ b ∈ S ∧ ((a, b) ∈ F ∨ (b, a) ∈ F) := by
  induction h with
  | base h => exact absurd h hr.notMem
  | @step x y e _ ih =>
    by_cases hy : y ∈ S
    · exact ⟨x, y, hr, hy, e⟩
    · exact ih (hr.step e hy)

theorem Reach.conn {F : List (Nat × Nat)} {S : List Nat} {v x : Nat} (h : Reach F S v x)
    {f : Nat × Nat} (hf : f.1 ∈ S ∨ f.2 ∈ S) : Conn (F.erase f) (v :: S) x := by
  induction h with
  | refl h => exact .base (by simp)
  | @step x y hx e hy ih =>
    have hxS := hx.notMem
    refine .step ?_ ih
    rcases e with e | e
    · right
      refine (List.mem_erase_of_ne ?_).mpr e
      rintro rfl
      rcases hf with h | h
      · exact hxS h
      · exact hy h
    · left
      refine (List.mem_erase_of_ne ?_).mpr e
      rintro rfl
      rcases hf with h | h
      · exact hy h
      · exact hxS h

/-- total weight of a list of edges -/
def edgesCost (c : Nat → Nat → K) (F : List (Nat × Nat)) : K := (F.map fun e => c e.1 e.2).sum

theorem edgesCost_erase (c : Nat → Nat → K) {F : List (Nat × Nat)} {f : Nat × Nat} (h : f ∈ F) :
    edgesCost c F = c f.1 f.2 + edgesCost c (F.erase f) := by
  unfold edgesCost
  have := ((List.perm_cons_erase h).map fun e => c e.1 e.2).sum_eq
  simpa using this

/-- Prim's picks are at most as expensive as every competing connected edge set. -/
theorem PrimRun.min {c : Nat → Nat → K} {U : Nat → Prop} {S : List Nat} {P : List (Nat × Nat)}
    (h : PrimRun c U S P) (hsym : ∀ i j, U i → U j → c i j = c j i) (hS : ∀ i ∈ S, U i) :
    ∀ F : List (Nat × Nat), (∀ e ∈ F, U e.1 ∧ U e.2) → (∀ j, U j → Conn F S j) →
      (F.length = P.length ∨ ∀ e ∈ F, 0 ≤ c e.1 e.2) →
      edgesCost c P ≤ edgesCost c F := by
  induction h with
  | nil h =>
    intro F _ _ hlen
    rcases hlen with hlen | hlen
    · have : F = [] := List.length_eq_zero_iff.mp (by simpa using hlen)
      simp [this]
    · unfold edgesCost
      simp only [List.map_nil, List.sum_nil]
      apply List.sum_nonneg
      intro x hx
      obtain ⟨e, he, rfl⟩ := List.mem_map.mp hx
      exact hlen e he
  | @cons S v u P hu hv hvS hmin hP ih =>
    intro F hFU hF hlen
    obtain ⟨a, b, hr, hb, hf⟩ := crossing (hF v hv) (Reach.refl (F := F) hvS)
    obtain ⟨f, hfF, hfab⟩ : ∃ f ∈ F, f = (a, b) ∨ f = (b, a) := by
      rcases hf with hf | hf
      · exact ⟨_, hf, Or.inl rfl⟩
      · exact ⟨_, hf, Or.inr rfl⟩
    have haS := hr.notMem
    have hfS : f.1 ∈ S ∨ f.2 ∈ S := by
      rcases hfab with h | h <;> subst h <;> simp [hb]
    have hcf : c u v ≤ c f.1 f.2 := by
      have hU := hFU f hfF
      rcases hfab with h | h
      · subst h
        rw [hsym _ _ hU.1 hU.2]
        exact hmin b a hb hU.1 haS
      · subst h
        exact hmin b a hb hU.2 haS
    have hca := hr.conn hfS
    have hF' : ∀ j, U j → Conn (F.erase f) (v :: S) j := by
      intro j hj
      have hc := hF j hj
      clear hj
      induction hc with
      | base h => exact .base (by simp [h])
      | @step x y e _ ihc =>
        by_cases hx : (x, y) = f
        · rcases hfab with h | h
          · rw [h] at hx; cases hx; exact hca
          · rw [h] at hx; cases hx; exact .base (by simp [hb])
        · by_cases hy : (y, x) = f
          · rcases hfab with h | h
            · rw [h] at hy; cases hy; exact .base (by simp [hb])
            · rw [h] at hy; cases hy; exact hca
          · refine .step ?_ ihc
            rcases e with e | e
            · left; exact (List.mem_erase_of_ne hx).mpr e
            · right; exact (List.mem_erase_of_ne hy).mpr e
    have := ih (by
        intro i hi
        rcases List.mem_cons.mp hi with h | h
        · rw [h]; exact hv
        · exact hS i h) (F.erase f)
      (fun e he => hFU e (List.mem_of_mem_erase he)) hF' (by
        rcases hlen with hlen | hlen
        · left
          rw [List.length_erase_of_mem hfF, hlen]
          simp
        · right
          exact fun e he => hlen e (List.mem_of_mem_erase he))
    rw [edgesCost_erase c hfF]
    have hcons : edgesCost c ((v, u) :: P) = c u v + edgesCost c P := by
      unfold edgesCost
      simp only [List.map_cons, List.sum_cons]
      rw [hsym v u hv (hS u hu)]
    rw [hcons]
    exact add_le_add hcf this

/-- the picked vertices are exactly the vertices outside the initial tree -/
theorem PrimRun.perm {c : Nat → Nat → K} {n : Nat} {ex : List Nat} {S : List Nat}
    {P : List (Nat × Nat)} (h : PrimRun c (fun j => j < n ∧ j ∉ ex) S P) :
    (P.map Prod.fst).Perm (remaining n ex S) := by
  generalize hU : (fun j => j < n ∧ j ∉ ex) = U at h
  induction h with
  | @nil S h =>
    subst hU
    have : remaining n ex S = [] := by
      rw [List.eq_nil_iff_forall_not_mem]
      intro j hj
      rw [mem_remaining] at hj
      exact hj.2.2 (h j ⟨hj.1, hj.2.1⟩)
    rw [this]; rfl
  | @cons S v u P hu hv hvS hmin hP ih =>
    subst hU
    simp only [List.map_cons]
    refine ((ih).cons v).trans ?_
    rw [List.perm_ext_iff_of_nodup]
    · intro j
      simp only [List.mem_cons, mem_remaining]
      constructor
      · rintro (h | ⟨h1, h2, h3⟩)
        · subst h; exact ⟨hv.1, hv.2, hvS⟩
        · push Not at h3; exact ⟨h1, h2, h3.2⟩
      · rintro ⟨h1, h2, h3⟩
        by_cases h : j = v
        · exact Or.inl h
        · right; exact ⟨h1, h2, by simp [h, h3]⟩
    · rw [List.nodup_cons]
      exact ⟨by simp [mem_remaining], List.nodup_range.filter _⟩
    · exact List.nodup_range.filter _

/-- the endpoints of the picked edges are vertices -/
theorem PrimRun.mem {c : Nat → Nat → K} {U : Nat → Prop} {S : List Nat} {P : List (Nat × Nat)}
    (h : PrimRun c U S P) (hS : ∀ i ∈ S, U i) : ∀ e ∈ P, U e.1 ∧ U e.2 ∧ e.1 ≠ e.2 := by
  induction h with
  | nil h => simp
  | @cons S v u P hu hv hvS hmin hP ih =>
    intro e he
    rcases List.mem_cons.mp he with h | h
    · subst h
      exact ⟨hv, hS u hu, by intro h; simp only at h; subst h; exact hvS hu⟩
    · refine ih ?_ e h
      intro i hi
      rcases List.mem_cons.mp hi with h | h
      · rw [h]; exact hv
      · exact hS i h

end Walky
