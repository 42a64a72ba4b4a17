import Verif.Lemmas.DfsEntered
import Verif.Lemmas.Bounds
import Verif.Lemmas.Threaded

/-! # Helper lemmas: instances on which the spanning tree bound cuts off all good tours -/

set_option linter.unusedSectionVars false

namespace Walky

open FloatOps Spec XNum

variable {K : Type} [Field K] [LinearOrder K] [IsStrictOrderedRing K]

/-- `i` and `i+1` have distance 2 up to city `d`, all other cities have distance 1 -/
def ladder (d i j : Nat) : K :=
  if i = j then 0 else if (j = i + 1 ∧ j ≤ d) ∨ (i = j + 1 ∧ i ≤ d) then 2 else 1

theorem ladder_ge (d : Nat) {i j : Nat} (h : i ≠ j) : 1 ≤ (ladder d i j : K) := by
  unfold ladder
  rw [if_neg h]
  split <;> norm_num

theorem ladder_le (d i j : Nat) : (ladder d i j : K) ≤ 2 := by
  unfold ladder
  split
  · norm_num
  · split <;> norm_num

theorem ladder_symm (d i j : Nat) : (ladder d i j : K) = ladder d j i := by
  unfold ladder
  by_cases h : i = j
  · simp [h]
  · rw [if_neg h, if_neg (Ne.symm h)]
    congr 1
    exact propext Or.comm

theorem ladder_metric (n d : Nat) : Metric n (ladder d : Nat → Nat → K) := by
  refine ⟨fun i _ => by simp [ladder], fun i j _ _ => ladder_symm d i j, fun i j k _ _ _ => ?_⟩
  have h0 : ∀ i : Nat, (ladder d i i : K) = 0 := fun i => by simp [ladder]
  by_cases h1 : i = k
  · subst h1; rw [h0]; simp
  by_cases h2 : k = j
  · subst h2; rw [h0]; simp
  have a := ladder_ge (K := K) d h1
  have b := ladder_ge (K := K) d h2
  have e := ladder_le (K := K) d i j
  linarith

theorem ladder_nonneg (n d : Nat) : Nonneg n (ladder d : Nat → Nat → K) :=
  fun _ _ _ _ h => zero_le_one.trans (ladder_ge d h)

theorem ladder_one {d i j : Nat} (h : i ≠ j) (h2 : ¬ (j = i + 1 ∧ j ≤ d)) (h3 : ¬ (i = j + 1 ∧ i ≤ d)) :
    (ladder d i j : K) = 1 := by
  unfold ladder
  rw [if_neg h, if_neg (by tauto)]

theorem ladder_two {d i : Nat} (h : i + 1 ≤ d) : (ladder d i (i + 1) : K) = 2 := by
  unfold ladder
  rw [if_neg (by omega), if_pos (Or.inl ⟨rfl, h⟩)]

/-! ## costs -/

theorem path_snoc_ge {c : Nat → Nat → K} (h1 : ∀ i j, i ≠ j → 1 ≤ c i j) {l : List Nat} {x : Nat}
    (hl : l ≠ []) (hx : x ∉ l) : pathCost c l + 1 ≤ pathCost c (l ++ [x]) := by
  have e := List.dropLast_append_getLast hl
  conv_rhs => rw [← e]
  rw [List.append_assoc, List.cons_append, List.nil_append, pathCost_snoc, e]
  have : 1 ≤ c (l.getLast hl) x := h1 _ _ (by rintro rfl; exact hx (List.getLast_mem hl))
  linarith

theorem path_snoc_le {c : Nat → Nat → K} (h2 : ∀ i j, c i j ≤ 2) (l : List Nat) (x : Nat) :
    pathCost c (l ++ [x]) ≤ pathCost c l + 2 := by
  by_cases hl : l = []
  · subst hl; simp
  · have e := List.dropLast_append_getLast hl
    conv_lhs => rw [← e]
    rw [List.append_assoc, List.cons_append, List.nil_append, pathCost_snoc, e]
    have := h2 (l.getLast hl) x
    linarith

theorem path_take_le {c : Nat → Nat → K} (h2 : ∀ i j, c i j ≤ 2) (l : List Nat) {j D : Nat}
    (hj : j ≤ D) : pathCost c (l.take D) ≤ pathCost c (l.take j) + 2 * ((D : K) - j) := by
  induction D, hj using Nat.le_induction with
  | base => simp
  | succ D _ ih =>
    rcases Nat.lt_or_ge D l.length with h | h
    · rw [← List.take_concat_get' l D h]
      have := path_snoc_le h2 (l.take D) l[D]
      push_cast
      linarith
    · have e : l.take (D + 1) = l.take D := by
        rw [List.take_of_length_le h, List.take_of_length_le (by omega)]
      rw [e]
      push_cast
      linarith

/-- a path without repetitions -/
theorem path_ge {c : Nat → Nat → K} (h1 : ∀ i j, i ≠ j → 1 ≤ c i j) : ∀ {p : List Nat}, p.Nodup →
    (p.length : K) ≤ pathCost c p + 1
  | [], _ => by simp
  | [_], _ => by simp
  | a :: b :: t, h => by
    have ih := path_ge h1 (List.nodup_cons.mp h).2
    have := h1 a b (by rintro rfl; simp at h)
    simp only [List.length_cons, pathCost_cons₂] at ih ⊢
    push_cast at ih ⊢
    linarith

/-- cutting a tour at position `D - 1` -/
theorem tour_cut (c : Nat → Nat → K) {p : List Nat} {D : Nat} (hD : 1 ≤ D) (hp : D ≤ p.length) :
    tourCost c p = pathCost c (p.take D) + pathCost c (p.drop (D - 1) ++ p.take 1) := by
  obtain ⟨D, rfl⟩ : ∃ D', D = D' + 1 := ⟨D - 1, by omega⟩
  obtain ⟨a, t, rfl⟩ : ∃ a t, p = a :: t := by
    cases p with
    | nil => simp at hp
    | cons a t => exact ⟨a, t, rfl⟩
  have e : (a :: t) ++ [a] = (a :: t).take D ++ (a :: t)[D] :: ((a :: t).drop (D + 1) ++ [a]) := by
    conv_lhs => rw [← List.take_append_drop D (a :: t)]
    rw [List.drop_eq_getElem_cons (show D < (a :: t).length by omega)]
    simp
  show pathCost c ((a :: t) ++ [a]) = _
  rw [e, pathCost_append, List.take_concat_get' (a :: t) D (by omega), Nat.add_sub_cancel,
    List.drop_eq_getElem_cons (show D < (a :: t).length by omega)]
  rfl

theorem tour_rest_ge {c : Nat → Nat → K} (h1 : ∀ i j, i ≠ j → 1 ≤ c i j) {p : List Nat} (hp : p.Nodup)
    {D : Nat} (hD : 2 ≤ D) (hl : D ≤ p.length) :
    (p.length : K) - D + 1 ≤ pathCost c (p.drop (D - 1) ++ p.take 1) := by
  have hnd : (p.drop (D - 1) ++ p.take 1).Nodup := by
    have h : (p.take (D - 1) ++ p.drop (D - 1)).Nodup := by rw [List.take_append_drop]; exact hp
    obtain ⟨-, a2, a3⟩ := List.nodup_append.mp h
    refine List.nodup_append.mpr ⟨a2, hp.sublist (List.take_sublist _ _), ?_⟩
    intro x hx y hy hxy
    subst hxy
    refine a3 x ?_ x hx rfl
    exact (List.take_prefix_take_left (show 1 ≤ D - 1 by omega)).subset hy
  have := path_ge h1 hnd
  have hlen : (p.drop (D - 1) ++ p.take 1).length = p.length - (D - 1) + 1 := by
    simp only [List.length_append, List.length_drop, List.length_take]
    omega
  rw [hlen] at this
  have hc : ((p.length - (D - 1) : ℕ) : K) = p.length - D + 1 := by
    rw [Nat.cast_sub (by omega), Nat.cast_sub (by omega)]
    push_cast
    ring
  push_cast at this
  rw [hc] at this
  linarith

theorem tour_ge {c : Nat → Nat → K} (h1 : ∀ i j, i ≠ j → 1 ≤ c i j) {n : Nat} (hn : 2 ≤ n)
    {p : List Nat} (hp : IsTour n p) : (n : K) ≤ tourCost c p := by
  have hl := hp.length
  have a := tour_cut c (p := p) (D := 2) (by omega) (by omega)
  have b := tour_rest_ge h1 hp.nodup (D := 2) le_rfl (by omega)
  have d := path_ge h1 (hp.nodup.sublist (List.take_sublist 2 p))
  rw [List.length_take, Nat.min_eq_left (by omega)] at d
  rw [hl] at b
  push_cast at b d
  linarith

/-! ## the spanning tree bound -/

theorem mstBound_ge {m : Mat (XNum K)} {c : Nat → Nat → K} (hm : Rep m c) (hsym : Symm m.dim c)
    (h1 : ∀ i j, i ≠ j → 1 ≤ c i j) {p : List Nat} (hv : ValidPre m.dim p) (hlt : p.length < m.dim) :
    ∃ x, mstBound m p = .ok (fin x) ∧ 2 * ((m.dim : K) - p.length - 1) ≤ x := by
  rcases primSeq_weight hm hsym hv.2 with ⟨h, -⟩ | ⟨start, P, a1, a2, a3, a4, a5, a6⟩
  · exfalso
    have : (List.range m.dim).Subperm p :=
      List.subperm_of_subset List.nodup_range (fun i hi => h i (by simpa using hi))
    have := this.length_le
    simp at this
    omega
  · refine ⟨2 * edgesCost c P, ?_, ?_⟩
    · unfold mstBound
      rw [a4]
      simp only [rm_bind_ok, rm_pure]
      rw [a5]
    · have hperm : (p ++ start :: remaining m.dim p [start]).Perm (List.range m.dim) := by
        rw [List.perm_ext_iff_of_nodup ?_ List.nodup_range]
        · intro j
          simp only [List.mem_append, List.mem_cons, mem_remaining, List.mem_range,
            List.not_mem_nil, or_false]
          constructor
          · rintro (h | h | h)
            · exact hv.2 j h
            · omega
            · exact h.1
          · intro hj
            by_cases hp : j ∈ p
            · exact Or.inl hp
            · by_cases hs : j = start
              · exact Or.inr (Or.inl hs)
              · exact Or.inr (Or.inr ⟨hj, hp, hs⟩)
        · refine List.nodup_append.mpr ⟨hv.1, List.nodup_cons.mpr ⟨by simp [mem_remaining],
            List.nodup_range.filter _⟩, ?_⟩
          intro x hx y hy hxy
          subst hxy
          rcases List.mem_cons.mp hy with h | h
          · subst h; exact a2 hx
          · exact (mem_remaining.mp h).2.1 hx
      have hlen := hperm.length_eq
      simp only [List.length_append, List.length_cons, List.length_range, ← a3.length] at hlen
      have hs : ∀ (L : List (Nat × Nat)), (∀ e ∈ L, e.1 ≠ e.2) → (L.length : K) ≤ edgesCost c L := by
        intro L
        induction L with
        | nil => intro _; simp [edgesCost]
        | cons e L ih =>
          intro h
          have b1 := ih fun f hf => h f (by simp [hf])
          have b2 := h1 e.1 e.2 (h e (by simp))
          simp only [edgesCost, List.map_cons, List.sum_cons, List.length_cons] at b1 ⊢
          push_cast
          linarith
      have := hs P fun e he => (a6 e he).2.2
      have hc : (m.dim : K) = p.length + (P.length + 1) := by exact_mod_cast hlen.symm
      rw [hc]
      linarith

/-- If the last `n - D + 1` edges of `I` have length 1, `D ≤ n - 5`, nothing shorter than `I` has been
entered. -/
theorem stuck {m : Mat (XNum K)} {c : Nat → Nat → K} (hm : Rep m c) (hsym : Symm m.dim c)
    (h1 : ∀ i j, i ≠ j → 1 ≤ c i j) (h2 : ∀ i j, c i j ≤ 2) {I p : List Nat} (hI : IsTour m.dim I)
    (hp : IsTour m.dim p) {k D : Nat} (hk : p.take k = I.take k) (hD : 2 ≤ D) (hD5 : D + 5 ≤ m.dim)
    (htail : pathCost c (I.drop (D - 1) ++ I.take 1) = (m.dim : K) - D + 1)
    (hent : Entered c (test5 m) (fun _ => True) (tourCost c I) I k p) :
    tourCost c I ≤ tourCost c p := by
  have lI := hI.length
  have lp := hp.length
  have cutI := tour_cut c (p := I) (D := D) (by omega) (by omega)
  rw [htail] at cutI
  have hvp : ∀ j, ValidPre m.dim (p.take j) := fun j =>
    ⟨hp.nodup.sublist (List.take_sublist _ _), fun i hi => hp.mem.mp (List.mem_of_mem_take hi)⟩
  -- what passes the test
  have hpass : ∀ j, k < j → 2 ≤ j → j ≤ D → (p.take j <+: I) ∨
      pathCost c (p.take j) + 2 * ((m.dim : K) - j - 1) ≤ tourCost c I := by
    intro j hkj hj hjD
    have hlen : (p.take j).length = j := by rw [List.length_take]; omega
    rcases hent (p.take j) (List.take_prefix _ _) (by omega) (by omega) with h | ⟨a, b, a', -, hb, hle, ht⟩
    · exact Or.inl h
    · right
      obtain ⟨x, hx, hx'⟩ := mstBound_ge hm hsym h1 (hvp j) (by omega)
      unfold test5 at ht
      rw [hx] at ht
      simp only [rm_bind_ok, rm_pure, XNum.add_fin] at ht
      have ht2 : FloatOps.le (fin (pathCost c (p.take j) + x)) b = true := by
        injection ht with ht
        injection ht
      have := le_trans' ht2 hle
      simp only [XNum.le_fin, decide_eq_true_eq] at this
      rw [hlen] at hx'
      linarith
  have htake : ∀ {j : Nat}, j ≤ m.dim → p.take j <+: I → p.take j = I.take j := by
    intro j hj h
    have e := List.prefix_iff_eq_take.mp h
    rwa [List.length_take, lp, Nat.min_eq_left hj] at e
  have hmono : ∀ {i j : Nat}, i ≤ j → p.take j = I.take j → p.take i = I.take i := by
    intro i j hij h
    have := congrArg (List.take i) h
    rwa [List.take_take, List.take_take, Nat.min_eq_left hij] at this
  have hall : ∀ j, j ≤ D → p.take j = I.take j := by
    intro j
    induction j with
    | zero => intro _; simp
    | succ j ih =>
      intro hj
      have ih := ih (by omega)
      rcases Nat.lt_or_ge k (j + 1) with hkj | hkj
      · by_cases hj0 : j = 0
        · subst hj0
          rcases hpass 2 (by omega) le_rfl hD with h | h
          · exact hmono (by omega) (htake (by omega) h)
          · exfalso
            have a := path_ge h1 (hvp 2).1
            have b := path_take_le h2 I (j := 1) (D := D) (by omega)
            have e1 : pathCost c (I.take 1) = 0 := by cases I <;> simp
            rw [List.length_take, lp, Nat.min_eq_left (by omega)] at a
            have : (D : K) + 5 ≤ m.dim := by exact_mod_cast hD5
            push_cast at a b h
            linarith
        · rcases hpass (j + 1) hkj (by omega) hj with h | h
          · exact htake (by omega) h
          · exfalso
            have hjl : j < p.length := by omega
            have hne : p.take j ≠ [] := by
              intro h0
              have := congrArg List.length h0
              rw [List.length_take, Nat.min_eq_left (by omega)] at this
              exact hj0 this
            have hx : p[j] ∉ p.take j := by
              have hnd := (hvp (j + 1)).1
              rw [← List.take_concat_get' p j hjl] at hnd
              intro hmem
              exact (List.nodup_append.mp hnd).2.2 _ hmem _ (by simp) rfl
            have a := path_snoc_ge h1 hne hx
            rw [List.take_concat_get' p j hjl] at a
            have b := path_take_le h2 I (j := j) (D := D) (by omega)
            rw [← ih] at b
            have : (D : K) + 5 ≤ m.dim := by exact_mod_cast hD5
            push_cast at h
            linarith
      · exact hmono hkj hk
  have hDe := hall D le_rfl
  have cutp := tour_cut c (p := p) (D := D) (by omega) (by omega)
  have b := tour_rest_ge h1 hp.nodup (D := D) hD (by omega)
  rw [lp] at b
  rw [cutI, cutp, hDe]
  linarith

/-! ## the tours of the instance -/

theorem ladder_far {d i j : Nat} (h : i ≠ j) (h2 : d < i ∨ d < j) : (ladder d i j : K) = 1 :=
  ladder_one h (by omega) (by omega)

theorem path_units {c : Nat → Nat → K} : ∀ {l : List Nat}, l ≠ [] →
    (∀ i (h : i + 1 < l.length), c l[i] l[i + 1] = 1) → pathCost c l + 1 = l.length
  | [], h, _ => absurd rfl h
  | [_], _, _ => by simp
  | a :: b :: t, _, h => by
    have ih := path_units (l := b :: t) (by simp) (fun i hi => h (i + 1) (by simp at hi ⊢; omega))
    have h0 := h 0 (by simp)
    simp only [List.getElem_cons_zero, List.getElem_cons_succ] at h0
    simp only [List.length_cons, pathCost_cons₂, h0] at ih ⊢
    push_cast at ih ⊢
    linarith

/-- the last edges have length 1 -/
theorem ladder_tail {n d D : Nat} {I : List Nat} (hI : IsTour n I) (hD : 2 ≤ D) (hDn : D + 1 ≤ n)
    (hfar : ∀ z ∈ I.drop D, d < z) :
    pathCost (ladder d) (I.drop (D - 1) ++ I.take 1) = (n : K) - D + 1 := by
  have lI := hI.length
  have hlen : (I.drop (D - 1) ++ I.take 1).length = n - (D - 1) + 1 := by
    simp only [List.length_append, List.length_drop, List.length_take]
    omega
  have hfar' : ∀ i (h : i < I.length), D ≤ i → d < I[i] := by
    intro i h hi
    refine hfar _ ?_
    rw [List.mem_iff_getElem]
    exact ⟨i - D, by simp; omega, by simp [show D + (i - D) = i by omega]⟩
  have key := path_units (c := (ladder d : Nat → Nat → K)) (l := I.drop (D - 1) ++ I.take 1)
    (by intro h; rw [h] at hlen; simp at hlen) (by
      intro i hi
      rw [hlen] at hi
      have e1 : (I.drop (D - 1) ++ I.take 1)[i] = I[D - 1 + i]'(by omega) := by
        rw [List.getElem_append_left (by simp; omega)]
        simp
      rw [e1]
      by_cases hl : i + 1 < n - (D - 1)
      · have e2 : (I.drop (D - 1) ++ I.take 1)[i + 1] = I[D - 1 + (i + 1)]'(by omega) := by
          rw [List.getElem_append_left (by simp; omega)]
          simp
        rw [e2]
        refine ladder_far ?_ (Or.inr (hfar' _ (by omega) (by omega)))
        intro h
        have := (List.Nodup.getElem_inj_iff hI.nodup).mp h
        omega
      · have e2 : (I.drop (D - 1) ++ I.take 1)[i + 1] = I[0]'(by omega) := by
          rw [List.getElem_append_right (by simp; omega)]
          simp only [List.length_drop, List.getElem_take]
          congr 1
          omega
        rw [e2]
        refine ladder_far ?_ (Or.inl (hfar' _ (by omega) (by omega)))
        intro h
        have := (List.Nodup.getElem_inj_iff hI.nodup).mp h
        omega)
  rw [hlen] at key
  have hc : ((n - (D - 1) : ℕ) : K) = n - D + 1 := by
    rw [Nat.cast_sub (by omega), Nat.cast_sub (by omega)]
    push_cast
    ring
  push_cast at key
  rw [hc] at key
  linarith

/-- first the even, then the odd cities -/
def evenOdd (n : Nat) : List Nat :=
  (List.range n).map fun i => if i < (n + 1) / 2 then 2 * i else 2 * (i - (n + 1) / 2) + 1

theorem evenOdd_tour (n : Nat) : IsTour n (evenOdd n) := by
  refine isTour_of_nodup ?_ ?_ (by simp [evenOdd])
  · unfold evenOdd
    refine List.Nodup.map_on ?_ List.nodup_range
    intro x hx y hy h
    simp only [List.mem_range] at hx hy
    split at h <;> split at h <;> omega
  · intro i hi
    simp only [evenOdd, List.mem_map, List.mem_range] at hi
    obtain ⟨j, hj, rfl⟩ := hi
    split <;> omega

theorem evenOdd_cost {n : Nat} (hn : 5 ≤ n) (d : Nat) : tourCost (ladder d) (evenOdd n) = (n : K) := by
  have e : tourCost (ladder d : Nat → Nat → K) (evenOdd n) = pathCost (ladder d) (evenOdd n ++ [0]) := by
    have : ∃ t, evenOdd n = 0 :: t := by
      obtain ⟨k, rfl⟩ : ∃ k, n = k + 1 := ⟨n - 1, by omega⟩
      refine ⟨(evenOdd (k + 1)).tail, ?_⟩
      unfold evenOdd
      rw [List.range_succ_eq_map]
      simp only [List.map_cons, List.tail_cons]
      rw [if_pos (by omega)]
    obtain ⟨t, ht⟩ := this
    rw [ht]
    rfl
  rw [e]
  have key := path_units (c := (ladder d : Nat → Nat → K)) (l := evenOdd n ++ [0]) (by simp) (by
    intro i hi
    simp only [List.length_append, List.length_singleton, evenOdd, List.length_map, List.length_range] at hi
    have e1 : (evenOdd n ++ [0])[i]'(by simp [evenOdd]; omega) =
        if i < (n + 1) / 2 then 2 * i else 2 * (i - (n + 1) / 2) + 1 := by
      rw [List.getElem_append_left (by simp [evenOdd]; omega)]
      simp [evenOdd]
    rw [e1]
    by_cases hl : i + 1 < n
    · have e2 : (evenOdd n ++ [0])[i + 1]'(by simp [evenOdd]; omega) =
          if i + 1 < (n + 1) / 2 then 2 * (i + 1) else 2 * (i + 1 - (n + 1) / 2) + 1 := by
        rw [List.getElem_append_left (by simp [evenOdd]; omega)]
        simp [evenOdd]
      rw [e2]
      apply ladder_one <;> (split <;> split <;> omega)
    · have e2 : (evenOdd n ++ [0])[i + 1]'(by simp [evenOdd]; omega) = 0 := by
        rw [List.getElem_append_right (by simp [evenOdd]; omega)]
        simp
      rw [e2]
      apply ladder_one <;> (split <;> omega))
  have hl : (evenOdd n ++ [0]).length = n + 1 := by simp [evenOdd]
  rw [hl] at key
  push_cast at key
  linarith

/-- an increasing path pays for every city that it does not leave out -/
theorem ladder_inc (d : Nat) : ∀ (t : List Nat) (a : Nat), (a :: t).Pairwise (· < ·) →
    3 * ((a :: t).length : K) + (min ((a :: t).getLast (by simp)) d : ℕ) + 2 * a ≤
      pathCost (ladder d) (a :: t) + 3 + (min a d : ℕ) + 2 * ((a :: t).getLast (by simp) : ℕ)
  | [], a, _ => by simp
  | b :: t, a, h => by
    have ih := ladder_inc d t b (List.pairwise_cons.mp h).2
    have hab : a < b := (List.pairwise_cons.mp h).1 b (by simp)
    have hstep : 3 + (min b d : ℕ) + 2 * (a : K) ≤ ladder d a b + (min a d : ℕ) + 2 * b := by
      rcases Nat.lt_or_ge d b with hd | hd
      · rw [ladder_far (by omega) (Or.inr hd)]
        have : 3 + min b d + 2 * a ≤ 1 + min a d + 2 * b := by omega
        exact_mod_cast this
      · by_cases hb : b = a + 1
        · subst hb
          rw [ladder_two hd]
          have : 3 + min (a + 1) d + 2 * a ≤ 2 + min a d + 2 * (a + 1) := by omega
          exact_mod_cast this
        · rw [ladder_one (by omega) (by omega) (by omega)]
          have : 3 + min b d + 2 * a ≤ 1 + min a d + 2 * b := by omega
          exact_mod_cast this
    rw [List.getLast_cons (by simp : b :: t ≠ []), pathCost_cons₂]
    simp only [List.length_cons] at ih ⊢
    push_cast at ih hstep ⊢
    linarith

theorem pairwise_lt_getElem {l : List Nat} (h : l.Pairwise (· < ·)) : ∀ (i : Nat) (hi : i < l.length),
    i ≤ l[i]
  | 0, _ => Nat.zero_le _
  | i + 1, hi => by
    have ih := pairwise_lt_getElem h i (by omega)
    have := List.pairwise_iff_getElem.mp h i (i + 1) (by omega) hi (by omega)
    omega

/-- the first tour below a prefix -/
theorem ladder_firstLeaf {n d : Nat} {pre : List Nat} (hv : ValidPre n pre) (hd : d + 1 + pre.length ≤ n)
    (hn : pre.length + 2 ≤ n) :
    (n : K) + d ≤ tourCost (ladder d) (firstLeaf n pre) + 2 * pre.length := by
  have hleaf := isTour_firstLeaf hv
  unfold firstLeaf at hleaf ⊢
  set F := (List.range n).filter (fun i => !pre.contains i) with hF
  have hlenF : pre.length + F.length = n := by
    have := hleaf.length
    simpa using this
  have hpw : F.Pairwise (· < ·) := List.pairwise_lt_range.filter _
  rw [tourCost_append_comm]
  have hFt : IsTour n (F ++ pre) := (List.perm_append_comm).trans hleaf
  have hcut := tour_cut (ladder d : Nat → Nat → K) (p := F ++ pre) (D := F.length) (by omega) (by simp)
  have hrest := tour_rest_ge (c := (ladder d : Nat → Nat → K)) (fun i j h => ladder_ge d h)
    hFt.nodup (D := F.length) (by omega) (by simp)
  rw [hcut]
  have e0 : (F ++ pre).take F.length = F := by simp
  rw [e0]
  rw [List.length_append] at hrest
  obtain ⟨a, t, hat⟩ : ∃ a t, F = a :: t := by
    cases hF' : F with
    | nil => rw [hF'] at hlenF; simp at hlenF; omega
    | cons a t => exact ⟨a, t, rfl⟩
  have hinc := ladder_inc (K := K) d t a (hat ▸ hpw)
  set x := (a :: t).getLast (by simp) with hx
  have hxF : x ∈ F := by rw [hat]; exact List.getLast_mem _
  have hxn : x < n := by
    have := (List.mem_filter.mp (hF ▸ hxF)).1
    simpa using this
  have hxl : F.length - 1 ≤ x := by
    have h1 := pairwise_lt_getElem hpw (F.length - 1) (by omega)
    have h2 : F[F.length - 1]'(by omega) = x := by
      rw [hx, List.getLast_eq_getElem]
      simp only [hat]
    omega
  have hax : F.length + a ≤ x + 1 := by
    have : ∀ (t : List Nat) (a : Nat), (a :: t).Pairwise (· < ·) →
        (a :: t).length + a ≤ (a :: t).getLast (by simp) + 1 := by
      intro t
      induction t with
      | nil => intro a _; simp; omega
      | cons b t ih =>
        intro a h
        have h1 := ih b (List.pairwise_cons.mp h).2
        have h2 : a < b := (List.pairwise_cons.mp h).1 b (by simp)
        rw [List.getLast_cons (by simp)]
        simp only [List.length_cons] at h1 ⊢
        omega
    have := this t a (hat ▸ hpw)
    rw [← hx, ← hat] at this
    exact this
  rw [← hat] at hinc
  have hnat : n + d + 2 + 2 * x + min a d ≤ 3 * F.length + min x d + 2 * a + 3 * pre.length := by
    omega
  have hnatK : (n : K) + d + 2 + 2 * x + (min a d : ℕ) ≤
      3 * F.length + (min x d : ℕ) + 2 * a + 3 * pre.length := by
    exact_mod_cast hnat
  have hl : (n : K) = pre.length + F.length := by exact_mod_cast hlenF.symm
  push_cast at hrest
  linarith

end Walky
