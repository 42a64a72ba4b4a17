import Verif.Lemmas.Near
import Verif.Lemmas.Binary64
import Verif.Lemmas.FixedPrim

/-! # Relative errors of sums and of the weights of graphs -/

namespace Walky

open FloatOps XNum Spec

variable {K : Type} [Field K] [LinearOrder K] [IsStrictOrderedRing K] {R : Rounding K} {B u S : K}
  {D : K → Prop}

/-- Sums of numbers of `D` that are not negative have a relative error of at most `u` up to the size `B`,
and are exact below `S`. -/
structure Rounding.Summing (R : Rounding K) (D : K → Prop) (B u S : K) : Prop where
  upos : 0 ≤ u
  zero : D 0
  keep : ∀ x, D x → R.rnd x = .fin x
  add : ∀ a b, D a → D b → 0 ≤ a → 0 ≤ b → a + b ≤ B → ∃ y, R.rnd (a + b) = .fin y ∧ D y ∧ a ≤ y ∧ b ≤ y ∧
    |y - (a + b)| ≤ u * (a + b) ∧ (y < S → y = a + b)
  half : ∀ y, D y → S ≤ y → D (y / 2)
  tiny : ∀ l : List K, (∀ x ∈ l, D x ∧ 0 ≤ x) → l.sum < S → D l.sum

omit [IsStrictOrderedRing K] in
theorem Rounding.Summing.rel (h : R.Summing D B u S) : R.Rel D B u := by
  intro a b ha hb ha0 hb0 hB
  obtain ⟨y, y1, y2, y3, -, y5, -⟩ := h.add a b ha hb ha0 hb0 hB
  exact ⟨y, y1, y2, ha0.trans y3, y5⟩

/-- IEEE double precision -/
theorem summing64 : binary64.Summing IsDouble (pow2 1023) (pow2 (-53)) (pow2 (-1021)) where
  upos := (pow2_pos _).le
  zero := isDouble_zero
  keep _ h := round64_isDouble h
  add := by
    intro a b ha hb ha0 hb0 hB
    have hab : 0 ≤ a + b := add_nonneg ha0 hb0
    obtain ⟨y, y1, y2, y3⟩ := round64_add ha hb ((abs_of_nonneg hab).le.trans hB)
    rw [abs_of_nonneg hab] at y3
    by_cases h0 : a + b = 0
    · have ha1 : a = 0 := by linarith
      have hb1 : b = 0 := by linarith
      rw [h0] at y3
      simp only [mul_zero, sub_zero] at y3
      have hy : y = 0 := abs_nonpos_iff.mp y3
      refine ⟨y, y1, y2, by rw [hy, ha1], by rw [hy, hb1], by rw [h0, hy]; simp, fun _ => by rw [hy, h0]⟩
    have hy : y = nearest64 (a + b) := by
      unfold round64 at y1
      rw [if_neg h0] at y1
      split at y1
      · cases y1
      · split at y1
        · cases y1
        · exact (XNum.fin.inj y1).symm
    have hge : ∀ d, IsDouble d → d ≤ a + b → d ≤ y := by
      intro d hd hle
      by_contra hlt
      have := nearest64_nearest h0 hd
      rw [← hy, abs_of_nonpos (by linarith), abs_of_nonpos (by linarith)] at this
      linarith
    refine ⟨y, y1, y2, hge a ha (by linarith), hge b hb (by linarith), y3, fun hS => ?_⟩
    obtain ⟨z, hz⟩ := isDouble_multiple ha
    obtain ⟨w, hw⟩ := isDouble_multiple hb
    have hs : a + b = ((z + w : ℤ) : ℚ) * pow2 (-1074) := by rw [hz, hw]; push_cast; ring
    have hSd : IsDouble (pow2 (-1021)) := by
      have := isDouble_of_int (z := 1) (q := -1021) (by norm_num) (by norm_num) (by norm_num)
      simpa using this
    have hlt : a + b < pow2 (-1021) := by
      by_contra hn
      have := hge _ hSd (not_lt.mp hn)
      linarith
    have hd : IsDouble (a + b) := by
      rw [hs]
      refine isDouble_of_int ?_ (by norm_num) (by norm_num)
      rw [hs, show (-1021 : ℤ) = 53 + -1074 by norm_num, pow2_add] at hlt
      have h1 := lt_of_mul_lt_mul_right hlt (pow2_pos _).le
      rw [show pow2 53 = ((2 ^ 53 : ℤ) : ℚ) by norm_num [pow2_eq]] at h1
      have h2 : z + w < 2 ^ 53 := by exact_mod_cast h1
      have h3 : (0 : ℚ) ≤ ((z + w : ℤ) : ℚ) := by
        rw [hs] at hab
        exact nonneg_of_mul_nonneg_left hab (pow2_pos _)
      have h4 : 0 ≤ z + w := by exact_mod_cast h3
      rw [abs_of_nonneg h4]
      exact h2.le
    have := round64_isDouble hd
    rw [y1] at this
    exact XNum.fin.inj this
  half := by
    intro y hy hS
    obtain ⟨z, q, hx, hz, hq, hb⟩ := hy
    have hhalf : y / 2 = z * pow2 (q - 1) := by rw [hx, pow2_half]; ring
    have hy0 : 0 < y := lt_of_lt_of_le (pow2_pos _) hS
    have hlt : |y / 2| < pow2 1024 := by
      rw [abs_of_pos hy0] at hb
      rw [abs_of_pos (by linarith)]
      linarith
    rcases hq.eq_or_lt with h | h
    · subst h
      have h1 : pow2 53 ≤ (z : ℚ) := by
        rw [hx, show (-1021 : ℤ) = 53 + -1074 by norm_num, pow2_add] at hS
        exact le_of_mul_le_mul_right hS (pow2_pos _)
      rw [show pow2 53 = ((2 ^ 53 : ℤ) : ℚ) by norm_num [pow2_eq]] at h1
      have h2 : 2 ^ 53 ≤ z := by exact_mod_cast h1
      have h3 : z = 2 ^ 53 := _root_.le_antisymm ((le_abs_self z).trans hz) h2
      refine ⟨2 ^ 52, -1074, ?_, by norm_num, by norm_num, hlt⟩
      rw [hx, h3]
      push_cast
      ring
    · exact ⟨z, q - 1, hhalf, hz, by omega, hlt⟩
  tiny := by
    intro l hl hS
    have hm : ∃ z : ℤ, l.sum = z * pow2 (-1074) := by
      clear hS
      induction l with
      | nil => exact ⟨0, by simp⟩
      | cons x t ih =>
        obtain ⟨z, hz⟩ := ih fun y hy => hl y (by simp [hy])
        obtain ⟨w, hw⟩ := isDouble_multiple (hl x (by simp)).1
        exact ⟨w + z, by rw [List.sum_cons, hz, hw]; push_cast; ring⟩
    have h0 : 0 ≤ l.sum := List.sum_nonneg fun x hx => (hl x hx).2
    obtain ⟨z, hz⟩ := hm
    rw [hz]
    refine isDouble_of_int ?_ (by norm_num) (by norm_num)
    rw [hz, show (-1021 : ℤ) = 53 + -1074 by norm_num, pow2_add] at hS
    have h1 := lt_of_mul_lt_mul_right hS (pow2_pos _).le
    rw [show pow2 53 = ((2 ^ 53 : ℤ) : ℚ) by norm_num [pow2_eq]] at h1
    have h2 : z < 2 ^ 53 := by exact_mod_cast h1
    rw [hz] at h0
    have h3 : (0 : ℚ) ≤ (z : ℚ) := nonneg_of_mul_nonneg_left h0 (pow2_pos _)
    have h4 : 0 ≤ z := by exact_mod_cast h3
    rw [abs_of_nonneg h4]
    exact h2.le

/-- `x` is an approximation of `a` with relative error `δ`, exact below `S` -/
structure Approx (D : K → Prop) (S δ x a : K) : Prop where
  dom : D x
  xpos : 0 ≤ x
  pos : 0 ≤ a
  err : |x - a| ≤ δ * a
  small : x < S → x = a

theorem Approx.mono {δ δ' x a : K} (h : Approx D S δ x a) (hd : δ ≤ δ') : Approx D S δ' x a :=
  ⟨h.dom, h.xpos, h.pos, h.err.trans (mul_le_mul_of_nonneg_right hd h.pos), h.small⟩

theorem Approx.refl {x : K} (h : D x) (h0 : 0 ≤ x) : Approx D S 0 x x :=
  ⟨h, h0, h0, by simp, fun _ => rfl⟩

theorem Approx.le {δ x a : K} (h : Approx D S δ x a) : x ≤ (1 + δ) * a := by
  have := (abs_le.mp h.err).2
  linarith

theorem Approx.add (h : R.Summing D B u S) {δ x a w b : K} (h1 : Approx D S δ x a)
    (h2 : Approx D S δ w b) (hB : (1 + δ) * (a + b) ≤ B) :
    ∃ y, @FloatOps.add _ R.ops (fin x) (fin w) = fin y ∧ x ≤ y ∧ w ≤ y ∧
      Approx D S ((1 + δ) * (1 + u) - 1) y (a + b) := by
  have k1 := h1.le
  have k2 := h2.le
  have hxw : x + w ≤ (1 + δ) * (a + b) := by linarith
  obtain ⟨y, y1, y2, y3, y4, y5, y6⟩ := h.add x w h1.dom h2.dom h1.xpos h2.xpos (hxw.trans hB)
  refine ⟨y, y1, y3, y4, y2, h1.xpos.trans y3, add_nonneg h1.pos h2.pos, ?_, fun hS => ?_⟩
  · have e1 : y - (a + b) = (y - (x + w)) + ((x - a) + (w - b)) := by ring
    rw [e1]
    have k3 := abs_add_le (y - (x + w)) ((x - a) + (w - b))
    have k4 := abs_add_le (x - a) (w - b)
    have k5 := mul_le_mul_of_nonneg_left hxw h.upos
    have k6 := h1.err
    have k7 := h2.err
    have e2 : ((1 + δ) * (1 + u) - 1) * (a + b) = u * ((1 + δ) * (a + b)) + δ * a + δ * b := by ring
    rw [e2]
    linarith
  · rw [y6 hS, h1.small (lt_of_le_of_lt y3 hS), h2.small (lt_of_le_of_lt y4 hS)]

theorem grow_nonneg {δ : K} (hu : 0 ≤ u) (hδ : 0 ≤ δ) : δ ≤ (1 + δ) * (1 + u) - 1 := by nlinarith

theorem foldl_rel (h : R.Summing D B u S) : ∀ (l : List (K × K)) (x a δ : K), 0 ≤ δ →
    (∀ q ∈ l, Approx D S δ q.1 q.2) → Approx D S δ x a →
    (1 + δ) * (1 + u) ^ l.length * (a + (l.map Prod.snd).sum) ≤ B →
    ∃ y, (l.map fun q => fin q.1).foldl (@FloatOps.add _ R.ops) (fin x) = fin y ∧
      Approx D S ((1 + δ) * (1 + u) ^ l.length - 1) y (a + (l.map Prod.snd).sum) := by
  intro l
  induction l with
  | nil =>
    intro x a δ _ _ hx _
    refine ⟨x, rfl, ?_⟩
    simpa using hx
  | cons q t ih =>
    intro x a δ hδ hl hx hB
    have hq := hl q (by simp)
    have ht0 : 0 ≤ (t.map Prod.snd).sum := by
      refine List.sum_nonneg ?_
      intro z hz
      obtain ⟨r, hr, rfl⟩ := List.mem_map.mp hz
      exact (hl r (by simp [hr])).pos
    have hu := h.upos
    have ha := hx.pos
    have hb := hq.pos
    have hp1 : 1 ≤ (1 + u) ^ (t.length + 1) := one_le_pow₀ (by linarith)
    simp only [List.map_cons, List.sum_cons, List.length_cons, List.foldl_cons] at hB ⊢
    have hs0 : 0 ≤ (1 + δ) * (a + (q.2 + (t.map Prod.snd).sum)) := by positivity
    obtain ⟨y, y1, -, -, y2⟩ := hx.add h hq (by
      refine le_trans ?_ hB
      have k1 : (1 + δ) * (a + q.2) ≤ (1 + δ) * (a + (q.2 + (t.map Prod.snd).sum)) :=
        mul_le_mul_of_nonneg_left (by linarith) (by linarith)
      have k2 := mul_le_mul_of_nonneg_left hp1 hs0
      nlinarith)
    rw [y1]
    have e3 : (1 + δ) * (1 + u) ^ (t.length + 1) =
        (1 + ((1 + δ) * (1 + u) - 1)) * (1 + u) ^ t.length := by ring
    rw [e3, ← add_assoc] at hB ⊢
    exact ih y (a + q.2) _ (hδ.trans (grow_nonneg hu hδ))
      (fun r hr => (hl r (by simp [hr])).mono (grow_nonneg hu hδ)) y2 hB

theorem sum_rel (h : R.Summing D B u S) {l : List (K × K)} {δ : K} (hδ : 0 ≤ δ)
    (hl : ∀ q ∈ l, Approx D S δ q.1 q.2)
    (hB : (1 + δ) * (1 + u) ^ l.length * (l.map Prod.snd).sum ≤ B) :
    ∃ y, @FloatOps.sum _ R.ops (l.map fun q => fin q.1) = fin y ∧
      Approx D S ((1 + δ) * (1 + u) ^ l.length - 1) y (l.map Prod.snd).sum := by
  have := foldl_rel h l 0 0 δ hδ hl ⟨h.zero, le_rfl, le_rfl, by simp, fun _ => rfl⟩
    (by rw [zero_add]; exact hB)
  rwa [zero_add] at this

/-! ## Weights of graphs -/

/-- finite numbers are in `D` and not negative -/
def NN (D : K → Prop) (x : XNum K) : Prop := ∀ a, x = .fin a → D a ∧ 0 ≤ a

omit [IsStrictOrderedRing K] in
theorem nn_good (h : D 0) : Good (NN D) :=
  ⟨fun a ha => by rw [← XNum.fin.inj ha]; exact ⟨h, le_rfl⟩, fun a ha => by cases ha⟩

omit [IsStrictOrderedRing K] in
theorem foldl_add_fin {l : List (XNum K)} {x : XNum K} {w : K}
    (h : l.foldl FloatOps.add x = fin w) : (∃ a, x = fin a) ∧ ∀ y ∈ l, ∃ a, y = fin a := by
  induction l generalizing x with
  | nil => exact ⟨⟨w, h⟩, by simp⟩
  | cons y t ih =>
    obtain ⟨⟨a, ha⟩, h2⟩ := ih h
    have : (∃ b, x = fin b) ∧ ∃ b, y = fin b := by
      cases x <;> cases y <;> first
        | exact ⟨⟨_, rfl⟩, _, rfl⟩
        | cases ha
    refine ⟨this.1, ?_⟩
    intro z hz
    rcases List.mem_cons.mp hz with rfl | hz
    · exact this.2
    · exact h2 z hz

omit [IsStrictOrderedRing K] in
/-- a graph of finite weight has finite costs -/
theorem finG_of_weight {g : Graph (XNum K)} {w : K} (h : g.undirectedEdgeWeight = fin w) : FinG g := by
  have hd : ∃ a, g.directedEdgeWeight = fin a := by
    unfold Graph.undirectedEdgeWeight at h
    cases hg : g.directedEdgeWeight with
    | fin a => exact ⟨a, rfl⟩
    | _ => rw [hg] at h; cases h
  obtain ⟨a, ha⟩ := hd
  intro v hv e he
  obtain ⟨b, hb⟩ := (foldl_add_fin ha).2 _ (List.mem_map_of_mem hv)
  exact (foldl_add_fin hb).2 _ (List.mem_map_of_mem he)

theorem wsum_of_weight {g : Graph (XNum K)} {w : K} (h : g.undirectedEdgeWeight = fin w) :
    wsum g = 2 * w := by
  have h1 := directedEdgeWeight_fin g (finG_of_weight h)
  unfold Graph.undirectedEdgeWeight at h
  rw [h1] at h
  have h : wsum g / 2 = w := XNum.fin.inj h
  rw [← h]
  ring

theorem directedEdgeWeight_rel (h : R.Summing D B u S) {k : Nat} {g : Graph (XNum K)}
    (hg : GE (NN D) k g) (hf : FinG g) (hB : (1 + u) ^ (k + g.length) * wsum g ≤ B) :
    ∃ y, @Graph.directedEdgeWeight _ R.ops g = fin y ∧
      Approx D S ((1 + u) ^ (k + g.length) - 1) y (wsum g) := by
  have hu := h.upos
  have hu1 : 1 ≤ 1 + u := by linarith
  have hcost : ∀ v ∈ g, ∀ e ∈ v, Edge.cost e = fin (toK (Edge.cost e)) ∧ D (toK (Edge.cost e)) ∧
      0 ≤ toK (Edge.cost e) := by
    intro v hv e he
    obtain ⟨a, ha⟩ := hf v hv e he
    have := hg.cost v hv e he a ha
    rw [ha]
    exact ⟨rfl, this⟩
  have hvpos : ∀ v ∈ g, 0 ≤ (v.map fun e => toK (Edge.cost e)).sum := by
    intro v hv
    refine List.sum_nonneg ?_
    intro z hz
    obtain ⟨e, he, rfl⟩ := List.mem_map.mp hz
    exact (hcost v hv e he).2.2
  have hle : ∀ v ∈ g, (v.map fun e => toK (Edge.cost e)).sum ≤ wsum g := by
    intro v hv
    refine List.single_le_sum ?_ _ (List.mem_map.mpr ⟨v, hv, rfl⟩)
    intro z hz
    obtain ⟨w, hw, rfl⟩ := List.mem_map.mp hz
    exact hvpos w hw
  have hlen : ∀ v ∈ g, v.length ≤ k := by
    intro v hv
    refine le_trans ?_ hg.count
    exact List.single_le_sum (fun _ _ => Nat.zero_le _) _ (List.mem_map.mpr ⟨v, hv, rfl⟩)
  have hw0 : 0 ≤ wsum g := by
    refine List.sum_nonneg ?_
    intro z hz
    obtain ⟨w, hw, rfl⟩ := List.mem_map.mp hz
    exact hvpos w hw
  have hrow : ∀ v : List (Edge (XNum K)), ∃ x, v ∈ g → @FloatOps.sum _ R.ops (v.map Edge.cost) = fin x ∧
      Approx D S ((1 + u) ^ k - 1) x (v.map fun e => toK (Edge.cost e)).sum := by
    intro v
    by_cases hv : v ∈ g
    · have hpow : (1 + u) ^ v.length ≤ (1 + u) ^ k := pow_le_pow_right₀ hu1 (hlen v hv)
      obtain ⟨x, x1, x2⟩ := sum_rel (l := v.map fun e => (toK (Edge.cost e), toK (Edge.cost e))) (δ := 0) h
        le_rfl (fun q hq => by
          obtain ⟨e, he, rfl⟩ := List.mem_map.mp hq
          exact Approx.refl (hcost v hv e he).2.1 (hcost v hv e he).2.2) (by
          simp only [List.length_map, List.map_map, add_zero, one_mul]
          refine le_trans ?_ hB
          refine mul_le_mul ?_ (hle v hv) (hvpos v hv) (by positivity)
          exact pow_le_pow_right₀ hu1 ((hlen v hv).trans (by omega)))
      refine ⟨x, fun _ => ⟨?_, ?_⟩⟩
      · rw [← x1]
        congr 1
        rw [List.map_map]
        exact List.map_congr_left fun e he => (hcost v hv e he).1
      · simp only [List.length_map, List.map_map, add_zero, one_mul] at x2
        exact x2.mono (by linarith)
    · exact ⟨0, fun h => absurd h hv⟩
  choose f hf' using hrow
  have h1k : 1 ≤ (1 + u) ^ k := one_le_pow₀ hu1
  obtain ⟨y, y1, y2⟩ := sum_rel (l := g.map fun v => (f v, (v.map fun e => toK (Edge.cost e)).sum))
    (δ := (1 + u) ^ k - 1) h (by linarith) (fun q hq => by
      obtain ⟨v, hv, rfl⟩ := List.mem_map.mp hq
      exact (hf' v hv).2) (by
      simp only [List.length_map, List.map_map, add_sub_cancel]
      rw [← pow_add]
      exact hB)
  simp only [List.length_map, List.map_map, add_sub_cancel] at y1 y2
  rw [← pow_add] at y2
  refine ⟨y, ?_, y2⟩
  rw [← y1]
  unfold Graph.directedEdgeWeight
  congr 1
  exact List.map_congr_left fun v hv => (hf' v hv).1

/-- `undirected_edge_weight`: relative error `(1 + u) ^ (k + n) - 1` for `k` directed edges and `n`
vertices -/
theorem undirectedEdgeWeight_rel (h : R.Summing D B u S) {k : Nat} {g : Graph (XNum K)}
    (hg : GE (NN D) k g) {l : List K} (hl : ∀ x ∈ l, D x ∧ 0 ≤ x)
    (hw : g.undirectedEdgeWeight = fin l.sum) (hB : (1 + u) ^ (k + g.length) * (2 * l.sum) ≤ B) :
    ∃ y, @Graph.undirectedEdgeWeight _ R.ops g = fin y ∧
      |y - l.sum| ≤ ((1 + u) ^ (k + g.length) - 1) * l.sum := by
  have h2 := wsum_of_weight hw
  obtain ⟨y, y1, y2⟩ := directedEdgeWeight_rel h hg (finG_of_weight hw) (by rw [h2]; exact hB)
  rw [h2] at y2
  have hl0 : 0 ≤ l.sum := List.sum_nonneg fun x hx => (hl x hx).2
  have hD : D (y / 2) := by
    rcases lt_or_ge y S with hS | hS
    · have e : y / 2 = l.sum := by rw [y2.small hS]; ring
      rw [e]
      refine h.tiny l hl ?_
      have := y2.small hS
      linarith
    · exact h.half y y2.dom hS
  refine ⟨y / 2, ?_, ?_⟩
  · unfold Graph.undirectedEdgeWeight
    rw [y1]
    exact h.keep _ hD
  · have e : y / 2 - l.sum = (y - 2 * l.sum) / 2 := by ring
    rw [e, abs_div, abs_of_pos (by norm_num : (0 : K) < 2)]
    have := y2.err
    linarith

end Walky
