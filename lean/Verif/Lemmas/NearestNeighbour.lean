import Verif.Model.NearestNeighbour
import Verif.Lemmas.PrimExact
import Verif.Lemmas.OneTree
import Verif.Lemmas.Cost

/-! # Helper lemmas: nearest neighbour -/

set_option linter.unusedSectionVars false
set_option linter.unusedSimpArgs false

namespace Walky

open FloatOps XNum Spec

variable {K : Type} [Field K] [LinearOrder K] [IsStrictOrderedRing K]

/-- the scan finds the first nearest unvisited vertex -/
theorem nnScan {m : Mat (XNum K)} {c : Nat → Nat → K} (hm : Rep m c) {visited : List Bool}
    {path : List Nat}
    (hvis : ∀ j < m.dim, visited[j]? = some (decide (j ∈ path))) {x : Nat} (hx : x < m.dim)
    (hxp : x ∈ path) :
    ∃ r, (List.range m.dim).foldlM (nnScanStep m visited x) (none, FloatOps.inf) = .ok r ∧
      ((∀ j < m.dim, j ∈ path) ∨ ∃ y, r = (some y, fin (c x y)) ∧ y < m.dim ∧ y ∉ path ∧
        ∀ z < m.dim, z ∉ path → c x y ≤ c x z ∧ (c x z ≤ c x y → y ≤ z)) := by
  have key := foldlM_ok (nnScanStep m visited x) (fun done r =>
      (∀ j ∈ done, j ∈ path) ∧ r = (none, XNum.inf) ∨
        ∃ y, r = (some y, fin (c x y)) ∧ y ∈ done ∧ y ∉ path ∧
        ∀ z ∈ done, z ∉ path → c x y ≤ c x z ∧ (c x z ≤ c x y → y ≤ z))
      (List.range m.dim) (none, FloatOps.inf) (Or.inl ⟨by simp, rfl⟩) (by
    intro done i rest r hl hr
    have hi : i < m.dim := by
      have : i ∈ List.range m.dim := by rw [hl]; simp
      simpa using this
    have hlt : ∀ j ∈ done, j < i := by
      intro j hj
      have hs : (List.range m.dim).Pairwise (· < ·) := List.pairwise_lt_range
      rw [hl, List.pairwise_append] at hs
      exact hs.2.2 j hj i (by simp)
    unfold nnScanStep
    rw [idx_ok (hvis i hi)]
    simp only [rm_bind_ok]
    by_cases hip : i ∈ path
    · simp only [hip, decide_true, if_true, rm_pure]
      refine ⟨r, rfl, ?_⟩
      rcases hr with ⟨h1, h2⟩ | ⟨y, h1, h2, h3, h4⟩
      · left
        refine ⟨?_, h2⟩
        intro j hj
        rcases List.mem_append.mp hj with h | h
        · exact h1 j h
        · simp at h; rw [h]; exact hip
      · right
        refine ⟨y, h1, by simp [h2], h3, ?_⟩
        intro z hz hzp
        rcases List.mem_append.mp hz with h | h
        · exact h4 z h hzp
        · simp at h; rw [h] at hzp; exact absurd hip hzp
    · simp only [hip, decide_false, Bool.false_eq_true, if_false]
      have hxi : x ≠ i := fun h => hip (h ▸ hxp)
      rw [entry_ok hx hi, hm.off x i hx hi hxi]
      simp only [rm_bind_ok]
      rcases hr with ⟨h1, rfl⟩ | ⟨y, rfl, h2, h3, h4⟩
      · simp only [lt_fin_inf, if_true, rm_pure]
        refine ⟨_, rfl, Or.inr ⟨i, rfl, by simp, hip, ?_⟩⟩
        intro z hz hzp
        rcases List.mem_append.mp hz with h | h
        · exact absurd (h1 z h) hzp
        · simp at h; rw [h]; exact ⟨le_rfl, fun _ => le_rfl⟩
      · by_cases hc : c x i < c x y
        · simp only [lt_fin, hc, decide_true, if_true, rm_pure]
          refine ⟨_, rfl, Or.inr ⟨i, rfl, by simp, hip, ?_⟩⟩
          intro z hz hzp
          rcases List.mem_append.mp hz with h | h
          · have := (h4 z h hzp).1
            exact ⟨hc.le.trans this, fun h => absurd (this.trans h) (not_le.mpr hc)⟩
          · simp at h; rw [h]; exact ⟨le_rfl, fun _ => le_rfl⟩
        · simp only [lt_fin, hc, decide_false, Bool.false_eq_true, if_false, rm_pure]
          refine ⟨_, rfl, Or.inr ⟨y, rfl, by simp [h2], h3, ?_⟩⟩
          intro z hz hzp
          rcases List.mem_append.mp hz with h | h
          · exact h4 z h hzp
          · simp at h; rw [h]
            exact ⟨not_lt.mp hc, fun _ => (hlt y h2).le⟩)
  obtain ⟨r, h1, h2⟩ := key
  refine ⟨r, h1, ?_⟩
  rcases h2 with ⟨h, _⟩ | ⟨y, e1, e2, e3, e4⟩
  · left; intro j hj; exact h j (by simpa using hj)
  · right
    refine ⟨y, e1, by simpa using e2, e3, ?_⟩
    intro z hz hzp
    exact e4 z (by simpa using hz) hzp

/-- every step of the walk `p` goes to the first nearest unvisited city -/
def Greedy (n : Nat) (c : Nat → Nat → K) (p : List Nat) : Prop :=
  ∀ l x y r, p = l ++ x :: y :: r → ∀ z < n, z ∉ l → z ≠ x → c x y ≤ c x z ∧ (c x z ≤ c x y → y ≤ z)

theorem Greedy.snoc {n : Nat} {c : Nat → Nat → K} {l : List Nat} {x y : Nat}
    (h : Greedy n c (l ++ [x]))
    (hy : ∀ z < n, z ∉ l ++ [x] → c x y ≤ c x z ∧ (c x z ≤ c x y → y ≤ z)) :
    Greedy n c (l ++ [x] ++ [y]) := by
  intro l' x' y' r he z hz hzl hzx
  rcases List.eq_nil_or_concat r with rfl | ⟨r', w, rfl⟩
  · have e2 : (l ++ [x]) ++ [y] = (l' ++ [x']) ++ [y'] := by rw [he]; simp
    obtain ⟨e3, e4⟩ := List.append_inj' e2 rfl
    obtain ⟨e5, e6⟩ := List.append_inj' e3 rfl
    simp at e4 e6
    subst e4 e5 e6
    exact hy z hz (by simp [hzl, hzx])
  · have e2 : (l ++ [x]) ++ [y] = (l' ++ x' :: y' :: r') ++ [w] := by rw [he]; simp
    obtain ⟨e3, e4⟩ := List.append_inj' e2 rfl
    exact h l' x' y' r' e3 z hz hzl hzx

structure NNInv (n : Nat) (c : Nat → Nat → K) (start : Nat) (s : NNState (XNum K)) : Prop where
  last : ∃ l, s.path = l ++ [s.current]
  head : s.path.head? = some start
  nodup : s.path.Nodup
  rng : ∀ j ∈ s.path, j < n
  vlen : s.visited.length = n
  vis : ∀ j < n, s.visited[j]? = some (decide (j ∈ s.path))
  dist : s.distance = fin (pathCost c s.path)
  greedy : Greedy n c s.path

theorem nnLoop_ok {m : Mat (XNum K)} {c : Nat → Nat → K} (hm : Rep m c) {start : Nat} :
    ∀ (fuel : Nat) (s : NNState (XNum K)), NNInv m.dim c start s → m.dim ≤ s.path.length + fuel →
      ∃ s', nnLoop m fuel s = .ok s' ∧ NNInv m.dim c start s' ∧ m.dim ≤ s'.path.length := by
  intro fuel
  induction fuel with
  | zero =>
    intro s h hf
    unfold nnLoop
    rw [if_neg (by omega)]
    exact ⟨s, rfl, h, by omega⟩
  | succ fuel ih =>
    intro s h hf
    unfold nnLoop
    by_cases hlt : s.path.length < m.dim
    · rw [if_pos hlt]
      obtain ⟨l, hl⟩ := h.last
      have hcur : s.current ∈ s.path := by rw [hl]; simp
      obtain ⟨r, hr, hcase⟩ := nnScan hm h.vis (h.rng _ hcur) hcur
      simp only
      rw [hr]
      simp only [rm_bind_ok]
      rcases hcase with hall | ⟨y, rfl, hy1, hy2, hy3⟩
      · exfalso
        have : (List.range m.dim).Subperm s.path :=
          List.subperm_of_subset List.nodup_range (fun j hj => hall j (by simpa using hj))
        have := this.length_le
        simp at this
        omega
      · simp only [h.vlen, hy1, if_true]
        refine ih _ ⟨⟨s.path, rfl⟩, ?_, ?_, ?_, by simp [h.vlen], ?_, ?_, ?_⟩ (by simp; omega)
        · simp only
          rw [List.head?_append, h.head]
          rfl
        · exact List.nodup_append.mpr ⟨h.nodup, by simp, by
            intro a ha b hb; simp at hb; subst hb; exact fun e => hy2 (e ▸ ha)⟩
        · intro j hj
          rcases List.mem_append.mp hj with h' | h'
          · exact h.rng j h'
          · simp at h'; rw [h']; exact hy1
        · intro j hj
          simp only
          by_cases hjy : y = j
          · subst hjy
            rw [List.getElem?_set_self (by rw [h.vlen]; exact hj)]
            simp
          · have : j ≠ y := fun e => hjy e.symm
            rw [List.getElem?_set_ne hjy, h.vis j hj]
            simp [this]
        · simp only [h.dist, add_fin]
          rw [hl, List.append_assoc]
          simp only [List.cons_append, List.nil_append]
          rw [pathCost_snoc]
        · have hg := h.greedy
          simp only
          rw [hl] at hg ⊢
          exact hg.snoc (by rw [← hl]; exact hy3)
    · rw [if_neg hlt]
      exact ⟨s, rfl, h, by omega⟩

theorem singleNN_exact {m : Mat (XNum K)} {c : Nat → Nat → K} (hm : Rep m c) {i : Nat}
    (hi : i < m.dim) : ∃ p, singleNN m i = .ok (fin (tourCost c p), p) ∧ IsTour m.dim p ∧
      p.head? = some i ∧ Greedy m.dim c p := by
  unfold singleNN
  rw [if_pos hi]
  obtain ⟨s, h1, h2, h3⟩ := nnLoop_ok (start := i) hm m.dim
    { path := [i], visited := (List.replicate m.dim false).set i true, current := i,
      distance := FloatOps.zero } (by
      refine ⟨⟨[], rfl⟩, rfl, by simp, by simpa using hi, by simp, ?_, rfl, ?_⟩
      · intro j hj
        by_cases hij : i = j
        · subst hij; simp [hj]
        · have : j ≠ i := fun e => hij e.symm
          simp [hij, this, hj]
      · intro l x y r he
        have := congrArg List.length he
        simp at this
        omega) (by simp)
  rw [h1]
  simp only [rm_bind_ok]
  have htour : IsTour m.dim s.path := by
    refine isTour_of_nodup h2.nodup h2.rng ?_
    have : s.path.Subperm (List.range m.dim) :=
      List.subperm_of_subset h2.nodup (fun j hj => by simpa using h2.rng j hj)
    have := this.length_le
    simp at this
    omega
  obtain ⟨l, hl⟩ := h2.last
  have hcur : s.current < m.dim := h2.rng _ (by rw [hl]; simp)
  rw [entry_ok hcur hi]
  have hne : s.path ≠ [] := by rw [hl]; simp
  have hhead : s.path.head hne = i := by
    have := h2.head
    rw [List.head?_eq_some_head hne] at this
    simpa using this
  have hlast : s.path.getLast hne = s.current := by simp [hl]
  have hent : m.get s.current i = fin (c s.current i) := by
    by_cases h : s.current = i
    · have hd : m.dim = 1 := by
        have hlen := htour.length
        rcases l with _ | ⟨a, l⟩
        · rw [hl] at hlen; simpa using hlen.symm
        · have h4 := h2.nodup
          have h5 := h2.head
          rw [hl] at h4 h5
          simp at h4 h5
          exfalso
          exact h4.1.2 (h5.trans h.symm)
      have hi0 : i = 0 := by omega
      rw [h, hi0]
      exact hm.single hd
    · exact hm.off _ _ hcur hi h
  refine ⟨s.path, ?_, htour, h2.head, h2.greedy⟩
  rw [hent, h2.dist]
  simp only [rm_bind_ok, rm_pure, add_fin]
  rw [tourCost_eq c s.path hne, hhead, hlast]

/-! ## Minima -/

/-- `w` is the smallest element of `l` -/
def IsMin (w : K) (l : List K) : Prop := w ∈ l ∧ ∀ x ∈ l, w ≤ x

theorem IsMin.unique {w w' : K} {l : List K} (h : IsMin w l) (h' : IsMin w' l) : w = w' :=
  _root_.le_antisymm (h.2 _ h'.1) (h'.2 _ h.1)

theorem minByFirst_sols {l : List (K × List Nat)} (h : l ≠ []) :
    ∃ w p, minByFirst solLt (l.map fun s => (fin s.1, s.2)) = some (fin w, p) ∧ (w, p) ∈ l ∧
      IsMin w (l.map Prod.fst) := by
  obtain ⟨x, hx⟩ := minByFirst_isSome (lt := solLt) (l := l.map fun s => (fin s.1, s.2))
    (by simpa using h)
  have hmem := minByFirst_mem hx
  obtain ⟨⟨w, p⟩, hs, rfl⟩ := List.mem_map.mp hmem
  have hle := minByFirst_le (lt := solLt) (f := fun y : Solution (XNum K) => y.1) (fun y hy => by
      obtain ⟨s, _, rfl⟩ := List.mem_map.mp hy; exact proper_fin _)
    (fun y hy z hz => by
      obtain ⟨s, _, rfl⟩ := List.mem_map.mp hy
      obtain ⟨t, _, rfl⟩ := List.mem_map.mp hz
      exact olt_proper (proper_fin _) (proper_fin _)) hx
  refine ⟨w, p, hx, hs, List.mem_map.mpr ⟨_, hs, rfl⟩, ?_⟩
  intro y hy
  obtain ⟨s, hs', rfl⟩ := List.mem_map.mp hy
  have := hle _ (List.mem_map.mpr ⟨s, hs', rfl⟩)
  simpa using this

theorem strictWeak_solLt {α : Type} [FloatOps α] (ho : StrictWeak (olt : α → α → Bool)) :
    StrictWeak (solLt : Solution α → Solution α → Bool) :=
  ⟨fun a b c => ho.trans a.1 b.1 c.1, fun a b c => ho.negtrans a.1 b.1 c.1⟩

/-! ## Selecting reductions -/

theorem RTree.reduce_sel {β : Type} {f : β → β → β} {R : β → β → Prop} {P : β → Prop}
    (hrefl : ∀ a, P a → R a a) (htrans : ∀ a b c, R a b → R b c → R a c)
    (hf : ∀ a b, P a → P b → (f a b = a ∨ f a b = b) ∧ R (f a b) a ∧ R (f a b) b) :
    ∀ (t : RTree β), (∀ x ∈ t.flatten, P x) →
      (t.flatten = [] ∧ t.reduce f = none) ∨
      ∃ w, t.reduce f = some w ∧ w ∈ t.flatten ∧ ∀ x ∈ t.flatten, R w x := by
  intro t
  induction t with
  | empty => intro _; left; exact ⟨rfl, rfl⟩
  | leaf x =>
    intro h
    right
    exact ⟨x, rfl, by simp [RTree.flatten], by
      intro y hy
      simp [RTree.flatten] at hy
      rw [hy]
      exact hrefl x (h x (by simp [RTree.flatten]))⟩
  | node l r ihl ihr =>
    intro h
    simp only [RTree.flatten, List.mem_append] at h
    simp only [RTree.flatten, RTree.reduce]
    rcases ihl (fun x hx => h x (Or.inl hx)) with ⟨a1, a2⟩ | ⟨w, a1, a2, a3⟩ <;>
      rcases ihr (fun x hx => h x (Or.inr hx)) with ⟨b1, b2⟩ | ⟨w', b1, b2, b3⟩
    · left; simp [a1, a2, b1, b2, combineO]
    · right; exact ⟨w', by simp [a2, b1, combineO], by simp [b2], by simpa [a1] using b3⟩
    · right; exact ⟨w, by simp [b2, a1], by simp [a2], by simpa [b1] using a3⟩
    · right
      obtain ⟨c1, c2, c3⟩ := hf w w' (h w (Or.inl a2)) (h w' (Or.inr b2))
      refine ⟨f w w', by simp [a1, b1, combineO], ?_, ?_⟩
      · rcases c1 with c | c <;> rw [c] <;> simp [a2, b2]
      · intro x hx
        rcases List.mem_append.mp hx with hx | hx
        · exact htrans _ _ _ c2 (a3 x hx)
        · exact htrans _ _ _ c3 (b3 x hx)

/-- lexicographic order on (cost, rank) -/
def CRLe (a b : XNum K × Nat) : Prop :=
  ∃ v u, a.1 = fin v ∧ b.1 = fin u ∧ (v < u ∨ v = u ∧ a.2 ≤ b.2)

theorem costRank_reduce (t : RTree (XNum K × Nat)) (h : ∀ x ∈ t.flatten, ∃ v, x.1 = fin v)
    (hne : t.flatten ≠ []) :
    ∃ w, t.reduce costRankOp = some w ∧ w ∈ t.flatten ∧ ∀ x ∈ t.flatten, CRLe w x := by
  have := RTree.reduce_sel (f := costRankOp) (R := CRLe) (P := fun x : XNum K × Nat => ∃ v, x.1 = fin v)
    (by rintro a ⟨v, hv⟩; exact ⟨v, v, hv, hv, Or.inr ⟨rfl, le_rfl⟩⟩)
    (by
      rintro a b c ⟨v, u, h1, h2, h3⟩ ⟨u', w, h4, h5, h6⟩
      have : u = u' := by rw [h2] at h4; simpa using h4
      subst this
      refine ⟨v, w, h1, h5, ?_⟩
      rcases h3 with h3 | ⟨h3, h3'⟩ <;> rcases h6 with h6 | ⟨h6, h6'⟩
      · exact Or.inl (h3.trans h6)
      · exact Or.inl (h6 ▸ h3)
      · exact Or.inl (h3 ▸ h6)
      · exact Or.inr ⟨h3.trans h6, h3'.trans h6'⟩)
    (by
      rintro ⟨a, r⟩ ⟨b, r'⟩ ⟨v, hv⟩ ⟨u, hu⟩
      simp only at hv hu
      subst hv hu
      unfold costRankOp CRLe
      simp only [lt_fin, decide_eq_true_eq]
      by_cases h1 : v < u
      · simp only [h1, if_true]
        simp [h1]
      · simp only [h1, if_false]
        by_cases h2 : v = u
        · subst h2
          by_cases h3 : r < r'
          · simp [h3, h3.le]
          · simp [h3, not_lt.mp h3]
        · have h4 : u < v := lt_of_le_of_ne (not_lt.mp h1) (fun e => h2 e.symm)
          simp [h2, h4])
    t h
  rcases this with ⟨h1, _⟩ | h
  · exact absurd h1 hne
  · exact h

theorem mapM_err {α β : Type} {f : α → RM β} {l : List α} {a : α} (ha : a ∈ l) {e : Panic}
    (he : f a = .error e) : ∃ e, l.mapM f = .error e := by
  induction l with
  | nil => simp at ha
  | cons x t ih =>
    rw [List.mapM_cons]
    cases hx : f x with
    | error e => exact ⟨e, rfl⟩
    | ok v =>
      have ht : a ∈ t := by
        rcases List.mem_cons.mp ha with h | h
        · rw [← h, he] at hx; cases hx
        · exact h
      obtain ⟨e, he⟩ := ih ht
      exact ⟨e, by rw [he]; rfl⟩

theorem mem_nnChunk {n size v : Nat} (hs : 1 ≤ size) (hv : v < n) :
    ∃ r < size, v ∈ nnChunk n size r := by
  have hd := Nat.div_add_mod n size
  have hm := Nat.mod_lt n hs
  set cs := n / size with hcsd
  by_cases h : v < cs * (size - 1)
  · have hcs : 0 < cs := by
      rcases Nat.eq_zero_or_pos cs with h0 | h0
      · rw [h0] at h; simp at h
      · exact h0
    have h1 := Nat.div_add_mod v cs
    have h2 := Nat.mod_lt v hcs
    have h3 : v / cs < size - 1 := (Nat.div_lt_iff_lt_mul hcs).mpr (by rw [Nat.mul_comm]; exact h)
    refine ⟨v / cs, by omega, ?_⟩
    unfold nnChunk
    simp only [List.mem_range'_1, ← hcsd]
    rw [if_neg (by omega)]
    omega
  · refine ⟨size - 1, by omega, ?_⟩
    unfold nnChunk
    simp only [List.mem_range'_1, ← hcsd]
    have e : size * cs = cs * (size - 1) + cs := by
      obtain ⟨k, rfl⟩ : ∃ k, size = k + 1 := ⟨size - 1, by omega⟩
      simp only [Nat.add_sub_cancel]
      ring
    split
    · omega
    · rename_i h'
      have : n % size = 0 := by
        by_contra hne
        exact h' (by simp [hne])
      show cs * (size - 1) ≤ v ∧ v < cs * (size - 1) + (cs * (size - 1) + cs - cs * (size - 1))
      omega

theorem nnChunk_lt {n size r v : Nat} (hr : r < size) (hv : v ∈ nnChunk n size r) : v < n := by
  unfold nnChunk at hv
  simp only [List.mem_range'_1] at hv
  split at hv
  · omega
  · have hd := Nat.div_add_mod n size
    have : n / size * r + n / size ≤ size * (n / size) := by
      calc n / size * r + n / size = n / size * (r + 1) := by ring
        _ ≤ n / size * size := Nat.mul_le_mul_left _ hr
        _ = _ := Nat.mul_comm _ _
    omega

theorem nnChunk_ne_nil {n size r : Nat} (hs : 1 ≤ size) (hn : size ≤ n) : nnChunk n size r ≠ [] := by
  have hcs : 0 < n / size := Nat.div_pos hn hs
  unfold nnChunk
  simp only [ne_eq, List.range'_eq_nil_iff]
  split
  · rename_i h
    have hd := Nat.div_add_mod n size
    have hle : n / size * r + n / size ≤ size * (n / size) := by
      calc n / size * r + n / size = n / size * (r + 1) := by ring
        _ ≤ n / size * size := Nat.mul_le_mul_left _ (by omega)
        _ = _ := Nat.mul_comm _ _
    omega
  · omega

end Walky
