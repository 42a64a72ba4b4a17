import Verif.Lemmas.FixedPrim
import Verif.Lemmas.Binary64
import Verif.Lemmas.Total

/-! # Helper lemmas: the 1-tree bound with infinite costs -/

namespace Walky

open FloatOps XNum Spec

variable {K : Type} [Field K] [LinearOrder K] [IsStrictOrderedRing K]

/-- a number that is not negative, or infinity -/
def Pos (x : XNum K) : Prop := x = .inf ∨ ∃ v, x = .fin v ∧ 0 ≤ v

/-- rounding does not change the sign -/
def Rounding.Signed (R : Rounding K) : Prop := ∀ x, 0 ≤ x → Pos (R.rnd x)

theorem roundEven_nonneg {x : ℚ} (h : 0 ≤ x) : 0 ≤ roundEven x := by
  have : 0 ≤ ⌊x⌋ := Int.floor_nonneg.mpr h
  unfold roundEven
  split
  · exact this
  · split
    · omega
    · split <;> omega

theorem signed64 : binary64.Signed := by
  intro x hx
  change Pos (round64 x)
  have h0 : 0 ≤ nearest64 x := by
    unfold nearest64
    exact mul_nonneg (by exact_mod_cast roundEven_nonneg (div_nonneg hx (pow2_pos _).le)) (pow2_pos _).le
  have hp := pow2_pos 1024
  unfold round64
  generalize pow2 1024 = p at *
  split
  · exact Or.inr ⟨0, rfl, le_rfl⟩
  · split
    · exact Or.inl rfl
    · split
      · exfalso
        linarith
      · exact Or.inr ⟨_, rfl, h0⟩

omit [IsStrictOrderedRing K] in
theorem pos_good : Good (Pos : XNum K → Prop) := ⟨Or.inr ⟨0, rfl, le_rfl⟩, Or.inl rfl⟩

variable {R : Rounding K}

theorem Pos.add (hR : R.Signed) {x y : XNum K} (hx : Pos x) (hy : Pos y) : Pos (@FloatOps.add _ R.ops x y) := by
  rcases hx with rfl | ⟨a, rfl, ha⟩ <;> rcases hy with rfl | ⟨b, rfl, hb⟩
  · exact Or.inl rfl
  · exact Or.inl rfl
  · exact Or.inl rfl
  · exact hR _ (add_nonneg ha hb)

theorem Pos.half (hR : R.Signed) {x : XNum K} (hx : Pos x) : Pos (@FloatOps.half _ R.ops x) := by
  rcases hx with rfl | ⟨a, rfl, ha⟩
  · exact Or.inl rfl
  · exact hR _ (by positivity)

theorem Pos.sum (hR : R.Signed) {l : List (XNum K)} (hl : ∀ x ∈ l, Pos x) : Pos (@FloatOps.sum _ R.ops l) := by
  unfold FloatOps.sum
  exact foldl_mem (@FloatOps.add _ R.ops) Pos l _ pos_good.zero (fun b hb i hi => hb.add hR (hl i hi))

theorem Pos.weight (hR : R.Signed) {g : Graph (XNum K)} (hg : ∀ v ∈ g, ∀ e ∈ v, Pos (Edge.cost e)) :
    Pos (@Graph.undirectedEdgeWeight _ R.ops g) := by
  unfold Graph.undirectedEdgeWeight Graph.directedEdgeWeight
  refine Pos.half hR (Pos.sum hR ?_)
  intro x hx
  obtain ⟨v, hv, rfl⟩ := List.mem_map.mp hx
  refine Pos.sum hR ?_
  intro y hy
  obtain ⟨e, he, rfl⟩ := List.mem_map.mp hy
  exact hg v hv e he

omit [IsStrictOrderedRing K] in
theorem pos_notNaN {x : XNum K} (h : Pos x) : @isNaN _ R.ops x = false := by
  rcases h with rfl | ⟨a, rfl, -⟩
  · rfl
  · simp [isNaN, FloatOps.eq, XNum.beq]

omit [IsStrictOrderedRing K] in
theorem maxPartial_pos {x y : XNum K} (hx : Pos x) (hy : Pos y) :
    ∃ r, @maxPartial _ R.ops x y = .ok r ∧ Pos r := by
  unfold maxPartial
  rw [pos_notNaN hx, pos_notNaN hy]
  refine ⟨_, rfl, ?_⟩
  split
  · exact hx
  · exact hy

omit [IsStrictOrderedRing K] in
theorem maxByL_pos {l : List (XNum K)} (hne : l ≠ []) (hl : ∀ x ∈ l, Pos x) :
    ∃ r, @maxByL _ R.ops l = .ok (some r) ∧ Pos r := by
  cases l with
  | nil => exact absurd rfl hne
  | cons a t =>
    obtain ⟨r, h1, h2⟩ := foldlM_ok (@maxPartial _ R.ops) (fun _ x => Pos x) t a (hl a (by simp)) (by
      intro done i rest b hl' hb
      exact maxPartial_pos hb (hl i (by rw [hl']; simp)))
    exact ⟨r, by simp only [maxByL, h1, rm_bind_ok, rm_pure], h2⟩

omit [IsStrictOrderedRing K] in
theorem reduceM_pos (t : RTree (XNum K)) (hl : ∀ x ∈ t.flatten, Pos x) :
    (t.reduceM (@maxPartial _ R.ops) = .ok none ∧ t.flatten = []) ∨
      ∃ r, t.reduceM (@maxPartial _ R.ops) = .ok (some r) ∧ Pos r := by
  induction t with
  | empty => exact Or.inl ⟨rfl, rfl⟩
  | leaf x => exact Or.inr ⟨x, rfl, hl x (by simp [RTree.flatten])⟩
  | node l r ihl ihr =>
    simp only [RTree.flatten] at hl ⊢
    simp only [RTree.reduceM]
    rcases ihl (fun x hx => hl x (by simp [hx])) with ⟨e1, e2⟩ | ⟨x, e1, e2⟩ <;>
      rcases ihr (fun x hx => hl x (by simp [hx])) with ⟨e3, e4⟩ | ⟨y, e3, e4⟩ <;>
      simp only [e1, e3, rm_bind_ok, combineM]
    · left; simp [e2, e4]
    · right; exact ⟨y, rfl, e4⟩
    · right; exact ⟨x, rfl, e2⟩
    · right
      obtain ⟨z, h1, h2⟩ := maxPartial_pos (R := R) e2 e4
      rw [h1]
      exact ⟨z, rfl, h2⟩

section
variable {α : Type} [FloatOps α]

omit [FloatOps α] in
theorem addUndirectedEdge_total {g : Graph α} {u v : Nat} (x : α) (hu : u < g.length) (hv : v < g.length) :
    ∃ g', g.addUndirectedEdge u v x = .ok g' ∧ g'.length = g.length := by
  unfold Graph.addUndirectedEdge Graph.pushEdge
  rw [if_pos ⟨hu, hv⟩, if_pos hu]
  simp only [rm_bind_ok, List.length_modify]
  rw [if_pos hv]
  exact ⟨_, rfl, by simp⟩

/-- With two cities a 1-tree exists. -/
theorem oneTree_total {m : Mat α} (hinf : eq (inf : α) inf = true) (hn : 2 ≤ m.dim) {s : Nat} (hs : s < m.dim) :
    ∃ g, oneTree m s = .ok g := by
  unfold oneTree
  rw [if_pos hs]
  obtain ⟨st, h1, h2, h3⟩ := primSeq_eq m [s] hinf (by simp; omega)
  have hst : st < m.dim := by
    by_contra hc
    have a := h2 0 (by omega)
    have b := h2 1 (by omega)
    simp at a b
    omega
  rw [if_neg (by omega)] at h3
  rw [h3]
  simp only [rm_bind_ok]
  have hlen : ∀ (l : List (Nat × Edge α)) (g : Graph α), (l.foldl (addPick st) g).length = g.length := by
    intro l
    induction l with
    | nil => intro g; rfl
    | cons a t ih => intro g; rw [List.foldl_cons, ih]; simp
  have hL : (((primPicks m [s] st).foldl (addPick st) (List.replicate (m.dim + 1) [])).dropLast).length = m.dim := by
    rw [List.length_dropLast, hlen]
    simp
  generalize ((primPicks m [s] st).foldl (addPick st) (List.replicate (m.dim + 1) [])).dropLast = t at hL
  have hd : ∀ (l : List Nat) (b : Edge α × Edge α), (∀ j ∈ l, j < m.dim) → b.1.dst < m.dim → b.2.dst < m.dim →
      (l.foldl (twoMinStep s (m.get s)) b).1.dst < m.dim ∧ (l.foldl (twoMinStep s (m.get s)) b).2.dst < m.dim := by
    intro l
    induction l with
    | nil => intro b _ h1 h2; exact ⟨h1, h2⟩
    | cons j l ih =>
      intro b hl h1 h2
      have hj := hl j (by simp)
      rw [List.foldl_cons]
      apply ih _ (fun i hi => hl i (by simp [hi]))
      all_goals
        unfold twoMinStep
        split
        · assumption
        · split
          · first | exact hj | exact h1
          · split
            · first | exact h1 | exact hj
            · assumption
  obtain ⟨d1, d2⟩ := hd (List.range m.dim) (⟨s, inf⟩, ⟨s, inf⟩) (by simp) hs hs
  generalize (List.range m.dim).foldl (twoMinStep s (m.get s)) (⟨s, inf⟩, ⟨s, inf⟩) = e at d1 d2
  obtain ⟨g1, e1, e2⟩ := addUndirectedEdge_total (g := t) (u := s) (v := e.1.dst) e.1.cost (by omega) (by omega)
  rw [e1]
  simp only [rm_bind_ok]
  obtain ⟨g2, e3, -⟩ := addUndirectedEdge_total (g := g1) (u := s) (v := e.2.dst) e.2.cost (by omega) (by omega)
  exact ⟨g2, e3⟩

end

theorem oneTreeWeight_pos (hR : R.Signed) {m : Mat (XNum K)} (hm : ∀ i j, i < m.dim → j < m.dim → Pos (m.get i j))
    (hn : 2 ≤ m.dim) {s : Nat} (hs : s < m.dim) : ∃ w, @oneTreeWeight _ R.ops m s = .ok w ∧ Pos w := by
  obtain ⟨g, hg⟩ := @oneTree_total _ R.ops m rfl hn s hs
  unfold oneTreeWeight
  rw [hg]
  rw [oneTree_same] at hg
  exact ⟨_, rfl, Pos.weight hR (oneTree_ge pos_good hm hg).cost⟩

/-- Both versions of the 1-tree bound give a number. -/
theorem oneTreeLb_pos (hR : R.Signed) {m : Mat (XNum K)} (hm : ∀ i j, i < m.dim → j < m.dim → Pos (m.get i j))
    (hn : 2 ≤ m.dim) {shape : List (XNum K) → RTree (XNum K)} (hshape : ∀ l, (shape l).flatten = l) :
    (∃ w, @oneTreeLbSeq _ R.ops m = .ok w ∧ Pos w) ∧ ∃ w, @oneTreeLbPar _ R.ops shape m = .ok w ∧ Pos w := by
  have key : ∀ l : List Nat, (∀ i ∈ l, i < m.dim) → ∃ ws, l.mapM (@oneTreeWeight _ R.ops m) = .ok ws ∧
      ws.length = l.length ∧ ∀ w ∈ ws, Pos w := by
    intro l
    induction l with
    | nil => intro _; exact ⟨[], rfl, rfl, by simp⟩
    | cons a t ih =>
      intro hl
      obtain ⟨ws, h1, h2, h3⟩ := ih (fun i hi => hl i (List.mem_cons_of_mem _ hi))
      obtain ⟨w, a1, a2⟩ := oneTreeWeight_pos hR hm hn (hl a (by simp))
      refine ⟨w :: ws, ?_, by simp [h2], ?_⟩
      · rw [List.mapM_cons, a1, rm_bind_ok, h1]
        rfl
      · intro q hq
        rcases List.mem_cons.mp hq with rfl | hq
        · exact a2
        · exact h3 q hq
  obtain ⟨ws, h1, h2, h3⟩ := key (List.range m.dim) (by simp)
  have hne : ws ≠ [] := by
    intro e
    rw [e] at h2
    simp at h2
    omega
  constructor
  · unfold oneTreeLbSeq
    rw [h1, rm_bind_ok]
    obtain ⟨r, e1, e2⟩ := maxByL_pos (R := R) hne h3
    rw [e1]
    exact ⟨r, rfl, e2⟩
  · unfold oneTreeLbPar
    rw [h1, rm_bind_ok]
    rcases reduceM_pos (R := R) (shape ws) (by rw [hshape]; exact h3) with ⟨-, e⟩ | ⟨r, e1, e2⟩
    · rw [hshape] at e
      exact absurd e hne
    · rw [e1]
      exact ⟨r, rfl, e2⟩

end Walky
