import Verif.Lemmas.Fill
import Verif.Lemmas.Cost
import Verif.Lemmas.XNum
import Verif.Lemmas.OneTree

/-! # Helper lemmas: matchings -/

set_option linter.unusedSectionVars false
set_option linter.unusedSimpArgs false

namespace Walky

open FloatOps Spec

theorem flatten_cons (e : Nat × Nat) (l : List (Nat × Nat)) :
    flattenEdges (e :: l) = e.1 :: e.2 :: flattenEdges l := rfl

theorem flatten_append (l r : List (Nat × Nat)) :
    flattenEdges (l ++ r) = flattenEdges l ++ flattenEdges r := by simp [flattenEdges]

theorem flatten_perm {l r : List (Nat × Nat)} (h : l.Perm r) : (flattenEdges l).Perm (flattenEdges r) :=
  h.flatMap_right _

theorem length_flatten (l : List (Nat × Nat)) : (flattenEdges l).length = 2 * l.length := by
  induction l with
  | nil => rfl
  | cons e l ih => rw [flatten_cons]; simp only [List.length_cons, ih]; omega

theorem mem_flatten {l : List (Nat × Nat)} {v : Nat} :
    v ∈ flattenEdges l ↔ ∃ e ∈ l, v = e.1 ∨ v = e.2 := by
  simp [flattenEdges]

theorem pairUp_flatten (l : List (Nat × Nat)) : pairUp (flattenEdges l) = l := by
  induction l with
  | nil => rfl
  | cons e l ih => rw [flatten_cons, pairUp, ih]

theorem flatten_pairUp : ∀ (l : List Nat), l.length % 2 = 0 → flattenEdges (pairUp l) = l
  | [], _ => rfl
  | [_], h => by simp at h
  | a :: b :: t, h => by
    rw [pairUp, flatten_cons, flatten_pairUp t (by simp at h; omega)]

theorem flatten_pairUp_sublist : ∀ (l : List Nat), (flattenEdges (pairUp l)).Sublist l
  | [] => .slnil
  | [_] => List.nil_sublist _
  | a :: b :: t => by
    rw [pairUp, flatten_cons]
    exact ((flatten_pairUp_sublist t).cons_cons b).cons_cons a

theorem length_pairUp : ∀ (l : List Nat), (pairUp l).length = l.length / 2
  | [] => rfl
  | [_] => by simp [pairUp]
  | a :: b :: t => by
    rw [pairUp, List.length_cons, length_pairUp t]
    simp only [List.length_cons]
    omega

section search
variable {α : Type} [FloatOps α]

/-- `optimizeTwo` without bounds checks -/
def opt2 (m : Mat α) (a b : Nat × Nat) : (Nat × Nat) × (Nat × Nat) :=
  let cost0 := m.get a.1 a.2 +ᶠ m.get b.1 b.2
  let cost1 := m.get a.1 b.1 +ᶠ m.get a.2 b.2
  let cost2 := m.get a.1 b.2 +ᶠ m.get a.2 b.1
  if cost1 <ᶠ cost0 then
    if cost2 <ᶠ cost1 then ((a.1, b.1), (a.2, b.1)) else ((a.1, b.1), (a.2, b.2))
  else if cost2 <ᶠ cost0 then ((a.1, b.2), (a.2, b.1)) else (a, b)

/-- the vertices of the matching are cities -/
def Valid (n : Nat) (l : List (Nat × Nat)) : Prop := ∀ e ∈ l, e.1 < n ∧ e.2 < n

theorem valid_iff {n : Nat} {l : List (Nat × Nat)} : Valid n l ↔ ∀ v ∈ flattenEdges l, v < n := by
  constructor
  · intro h v hv
    obtain ⟨e, he, rfl | rfl⟩ := mem_flatten.mp hv
    · exact (h e he).1
    · exact (h e he).2
  · intro h e he
    exact ⟨h _ (mem_flatten.mpr ⟨e, he, Or.inl rfl⟩), h _ (mem_flatten.mpr ⟨e, he, Or.inr rfl⟩)⟩

theorem optimizeTwo_ok {m : Mat α} {a b : Nat × Nat} (ha : a.1 < m.dim ∧ a.2 < m.dim)
    (hb : b.1 < m.dim ∧ b.2 < m.dim) : optimizeTwo m a b = .ok (opt2 m a b) := by
  unfold optimizeTwo opt2
  simp only [entry_ok ha.1 ha.2, entry_ok hb.1 hb.2, entry_ok ha.1 hb.1, entry_ok ha.2 hb.2,
    entry_ok ha.1 hb.2, entry_ok ha.2 hb.1, rm_bind_ok, rm_pure]
  split
  · split <;> rfl
  · split <;> rfl

theorem opt2_mem (m : Mat α) (a b : Nat × Nat) {v : Nat}
    (h : v ∈ flattenEdges [(opt2 m a b).1, (opt2 m a b).2]) : v ∈ flattenEdges [a, b] := by
  unfold opt2 at h
  simp only [flattenEdges, List.flatMap_cons, List.flatMap_nil, List.append_nil, List.mem_append,
    List.mem_cons, List.not_mem_nil, or_false] at h ⊢
  split at h
  · split at h <;> tauto
  · split at h <;> tauto

/-- `improvePairs` without bounds checks -/
def imp (m : Mat α) : List (Nat × Nat) → List (Nat × Nat)
  | a :: b :: t => (opt2 m a b).1 :: (opt2 m a b).2 :: imp m t
  | l => l

theorem imp_mem (m : Mat α) : ∀ (l : List (Nat × Nat)) (v : Nat), v ∈ flattenEdges (imp m l) →
    v ∈ flattenEdges l
  | [], _, h => h
  | [_], _, h => h
  | a :: b :: t, v, h => by
    rw [imp] at h
    have e1 : flattenEdges ((opt2 m a b).1 :: (opt2 m a b).2 :: imp m t) =
        flattenEdges [(opt2 m a b).1, (opt2 m a b).2] ++ flattenEdges (imp m t) := rfl
    have e2 : flattenEdges (a :: b :: t) = flattenEdges [a, b] ++ flattenEdges t := rfl
    rw [e1, List.mem_append] at h
    rw [e2, List.mem_append]
    rcases h with h | h
    · exact Or.inl (opt2_mem m a b h)
    · exact Or.inr (imp_mem m t v h)

theorem length_imp (m : Mat α) : ∀ (l : List (Nat × Nat)), (imp m l).length = l.length
  | [] => rfl
  | [_] => rfl
  | a :: b :: t => by rw [imp]; simp [length_imp m t]

theorem improvePairs_eq {m : Mat α} : ∀ (l : List (Nat × Nat)), Valid m.dim l →
    improvePairs m l = .ok (imp m l)
  | [], _ => rfl
  | [_], _ => rfl
  | a :: b :: t, h => by
    rw [improvePairs, optimizeTwo_ok (h a (by simp)) (h b (by simp)),
      rm_bind_ok, improvePairs_eq t (fun e he => h e (by simp [he]))]
    rfl

/-- rounds of the local search -/
def impRun (m : Mat α) (shuf : Nat → List (Nat × Nat) → List (Nat × Nat)) (tries : Nat)
    (l : List (Nat × Nat)) : List (Nat × Nat) :=
  if l.length ≤ 1 then l else (List.range tries).foldl (fun l k => imp m (shuf k l)) l

/-- Whatever a round keeps, the local search keeps. -/
theorem impRun_keeps {m : Mat α} {shuf : Nat → List (Nat × Nat) → List (Nat × Nat)}
    {tries : Nat} {l : List (Nat × Nat)} (P : List (Nat × Nat) → Prop) (h0 : P l)
    (h1 : ∀ k r, P r → P (shuf k r)) (h2 : ∀ r, P r → P (imp m r)) : P (impRun m shuf tries l) := by
  unfold impRun
  split
  · exact h0
  · exact foldl_inv _ (fun _ r => P r) _ _ h0 (fun _ k _ r _ hr => h2 _ (h1 k r hr))

theorem improveMatching_eq {m : Mat α} {shuf : Nat → List (Nat × Nat) → List (Nat × Nat)}
    (hsh : ∀ k l, (shuf k l).Perm l) {tries : Nat} {l : List (Nat × Nat)} (hl : Valid m.dim l) :
    improveMatching m shuf tries l = .ok (impRun m shuf tries l) := by
  unfold improveMatching impRun
  split
  · rfl
  · have key : ∀ (ks : List Nat) (l : List (Nat × Nat)), Valid m.dim l →
        ks.foldlM (fun l k => improvePairs m (shuf k l)) l =
          .ok (ks.foldl (fun l k => imp m (shuf k l)) l) := by
      intro ks
      induction ks with
      | nil => intro l _; rfl
      | cons k ks ih =>
        intro l hl
        have hv : Valid m.dim (shuf k l) := fun e he => hl e ((hsh k l).mem_iff.mp he)
        rw [List.foldlM_cons, improvePairs_eq _ hv, rm_bind_ok, List.foldl_cons]
        apply ih
        rw [valid_iff] at hv ⊢
        exact fun v hv' => hv v (imp_mem m _ v hv')
    exact key _ _ hl

theorem impRun_mem {m : Mat α} {shuf : Nat → List (Nat × Nat) → List (Nat × Nat)}
    (hsh : ∀ k l, (shuf k l).Perm l) {tries : Nat} {l : List (Nat × Nat)} :
    (impRun m shuf tries l).length = l.length ∧
    ∀ v ∈ flattenEdges (impRun m shuf tries l), v ∈ flattenEdges l := by
  refine impRun_keeps (fun r => r.length = l.length ∧ ∀ v ∈ flattenEdges r, v ∈ flattenEdges l)
    ⟨rfl, fun v h => h⟩ ?_ ?_
  · intro k r ⟨h1, h2⟩
    refine ⟨by rw [(hsh k r).length_eq, h1], fun v hv => h2 v ?_⟩
    exact (flatten_perm (hsh k r)).mem_iff.mp hv
  · intro r ⟨h1, h2⟩
    exact ⟨by rw [length_imp, h1], fun v hv => h2 v (imp_mem m r v hv)⟩

theorem impRun_valid {m : Mat α} {shuf : Nat → List (Nat × Nat) → List (Nat × Nat)}
    (hsh : ∀ k l, (shuf k l).Perm l) {tries : Nat} {l : List (Nat × Nat)} (hl : Valid m.dim l) :
    Valid m.dim (impRun m shuf tries l) := by
  rw [valid_iff] at hl ⊢
  exact fun v hv => hl v ((impRun_mem hsh).2 v hv)

/-! ### chunks in any order -/

/-- the `k`-th chunk has been treated iff `k ∈ done` -/
theorem imp_get (m : Mat α) : ∀ (l : List (Nat × Nat)) (k : Nat),
    (∀ a b, l[2 * k]? = some a → l[2 * k + 1]? = some b →
      (imp m l)[2 * k]? = some (opt2 m a b).1 ∧ (imp m l)[2 * k + 1]? = some (opt2 m a b).2) ∧
    (l[2 * k + 1]? = none → (imp m l)[2 * k]? = l[2 * k]? ∧ (imp m l)[2 * k + 1]? = none)
  | [], k => by simp [imp]
  | [a], k => by
    refine ⟨fun x y h1 h2 => by simp at h2, fun _ => ⟨rfl, by simp [imp]⟩⟩
  | a :: b :: t, k => by
    cases k with
    | zero => simp [imp]
    | succ k =>
      have := imp_get m t k
      have e1 : 2 * (k + 1) = 2 * k + 1 + 1 := by omega
      have e2 : 2 * (k + 1) + 1 = 2 * k + 1 + 1 + 1 := by omega
      rw [imp, e2, e1]
      simpa using this

/-- treating the chunks in `order` -/
theorem improveChunks {m : Mat α} {l : List (Nat × Nat)} (hl : Valid m.dim l) {order : List Nat}
    (ho : order.Perm (List.range (l.length / 2))) :
    order.foldlM (improveChunk m) l = .ok (imp m l) := by
  have key : ∃ r, order.foldlM (improveChunk m) l = .ok r ∧ (r.length = l.length ∧
      ∀ k, (k ∈ order → r[2 * k]? = (imp m l)[2 * k]? ∧ r[2 * k + 1]? = (imp m l)[2 * k + 1]?) ∧
        (k ∉ order → r[2 * k]? = l[2 * k]? ∧ r[2 * k + 1]? = l[2 * k + 1]?)) := by
    refine foldlM_ok _ (fun done (r : List (Nat × Nat)) => r.length = l.length ∧
      ∀ k, (k ∈ done → r[2 * k]? = (imp m l)[2 * k]? ∧ r[2 * k + 1]? = (imp m l)[2 * k + 1]?) ∧
        (k ∉ done → r[2 * k]? = l[2 * k]? ∧ r[2 * k + 1]? = l[2 * k + 1]?)) _ _ ?_ ?_
    · exact ⟨rfl, by simp⟩
    · intro done k rest r hlist ⟨h1, h2⟩
      have hk : k < l.length / 2 := by
        have : k ∈ order := by rw [hlist]; simp
        rw [ho.mem_iff] at this
        simpa using this
      have hnd : order.Nodup := ho.nodup_iff.mpr List.nodup_range
      have hkd : k ∉ done := by
        rw [hlist, List.nodup_append] at hnd
        intro hd
        exact hnd.2.2 k hd k (by simp) rfl
      have b1 : 2 * k < l.length := by omega
      have b2 : 2 * k + 1 < l.length := by omega
      have g1 : l[2 * k]? = some l[2 * k] := List.getElem?_eq_getElem b1
      have g2 : l[2 * k + 1]? = some l[2 * k + 1] := List.getElem?_eq_getElem b2
      obtain ⟨r1, r2⟩ := (h2 k).2 hkd
      have hi := (imp_get m l k).1 _ _ g1 g2
      refine ⟨(r.set (2 * k) (opt2 m l[2 * k] l[2 * k + 1]).1).set (2 * k + 1)
        (opt2 m l[2 * k] l[2 * k + 1]).2, ?_, by simp [h1], ?_⟩
      · unfold improveChunk
        rw [idx_ok (r1.trans g1), idx_ok (r2.trans g2)]
        simp only [rm_bind_ok]
        rw [optimizeTwo_ok (hl _ (List.getElem_mem b1)) (hl _ (List.getElem_mem b2))]
        rfl
      · intro j
        by_cases hj : j = k
        · subst hj
          refine ⟨fun _ => ⟨?_, ?_⟩, fun hn => absurd (by simp) hn⟩
          · rw [List.getElem?_set_ne (by omega), List.getElem?_set_self (by omega), hi.1]
          · rw [List.getElem?_set_self (by simp; omega), hi.2]
        · rw [List.getElem?_set_ne (by omega), List.getElem?_set_ne (by omega),
            List.getElem?_set_ne (by omega), List.getElem?_set_ne (by omega)]
          have : j ∈ done ++ [k] ↔ j ∈ done := by simp [hj]
          rw [this]
          exact h2 j
  obtain ⟨r, k1, k2, k3⟩ := key
  rw [k1]
  congr 1
  apply List.ext_getElem?
  intro i
  have hcase : i = 2 * (i / 2) ∨ i = 2 * (i / 2) + 1 := by omega
  by_cases hk : i / 2 < l.length / 2
  · have hm : i / 2 ∈ order := by rw [ho.mem_iff]; simpa using hk
    obtain ⟨a, b⟩ := (k3 (i / 2)).1 hm
    rcases hcase with h | h
    · rw [h]; exact a
    · rw [h]; exact b
  · have hm : i / 2 ∉ order := by rw [ho.mem_iff]; simpa using hk
    obtain ⟨a, b⟩ := (k3 (i / 2)).2 hm
    have hnone : l[2 * (i / 2) + 1]? = none := by
      rw [List.getElem?_eq_none_iff]; omega
    obtain ⟨c, d⟩ := (imp_get m l (i / 2)).2 hnone
    rcases hcase with h | h
    · rw [h, a, c]
    · rw [h, b, d, hnone]

theorem parImproveMatching_eq {m : Mat α} {shuf : Nat → List (Nat × Nat) → List (Nat × Nat)}
    (hsh : ∀ k l, (shuf k l).Perm l) {order : Nat → Nat → List Nat}
    (ho : ∀ k n, (order k n).Perm (List.range n)) {tries : Nat} {l : List (Nat × Nat)}
    (hl : Valid m.dim l) : parImproveMatching m shuf order tries l = improveMatching m shuf tries l := by
  rw [improveMatching_eq hsh hl]
  unfold parImproveMatching
  have key : ∀ (ks : List Nat) (l : List (Nat × Nat)), Valid m.dim l →
      ks.foldlM (fun l k => (order k ((shuf k l).length / 2)).foldlM (improveChunk m) (shuf k l)) l =
        .ok (ks.foldl (fun l k => imp m (shuf k l)) l) := by
    intro ks
    induction ks with
    | nil => intro l _; rfl
    | cons k ks ih =>
      intro l hl
      have hv : Valid m.dim (shuf k l) := fun e he => hl e ((hsh k l).mem_iff.mp he)
      rw [List.foldlM_cons, improveChunks hv (ho _ _), rm_bind_ok, List.foldl_cons]
      apply ih
      rw [valid_iff] at hv ⊢
      exact fun v hv' => hv v (imp_mem m _ v hv')
  rw [key _ _ hl]
  unfold impRun
  split
  · rename_i hlen
    congr 1
    refine foldl_inv _ (fun _ r => r = l) _ _ rfl ?_
    intro _ k _ r _ hr
    subst hr
    have hp : shuf k r = r := by
      match r, hlen with
      | [], _ => exact List.perm_nil.mp (hsh k [])
      | [a], _ => exact List.perm_singleton.mp (hsh k [a])
    rw [hp]
    match r, hlen with
    | [], _ => rfl
    | [a], _ => rfl
  · rfl

/-! ### without the faulty branch -/

/-- the faulty branch of `optimize_two_matching` is never taken -/
def NoBug (m : Mat α) : Prop := ∀ a b c d, a < m.dim → b < m.dim → c < m.dim → d < m.dim →
  (m.get a d +ᶠ m.get b c <ᶠ m.get a c +ᶠ m.get b d) = true →
  (m.get a c +ᶠ m.get b d <ᶠ m.get a b +ᶠ m.get c d) = true → False

theorem opt2_perm {m : Mat α} (hm : NoBug m) {a b : Nat × Nat} (ha : a.1 < m.dim ∧ a.2 < m.dim)
    (hb : b.1 < m.dim ∧ b.2 < m.dim) :
    (flattenEdges [(opt2 m a b).1, (opt2 m a b).2]).Perm (flattenEdges [a, b]) := by
  unfold opt2
  simp only [flattenEdges, List.flatMap_cons, List.flatMap_nil, List.append_nil, List.cons_append,
    List.nil_append]
  split
  · rename_i h1
    split
    · rename_i h2
      exact (hm a.1 a.2 b.1 b.2 ha.1 ha.2 hb.1 hb.2 h2 h1).elim
    · exact List.Perm.cons _ (List.Perm.swap _ _ _)
  · split
    · simp only
      refine List.Perm.cons _ ?_
      exact (List.Perm.swap _ _ _).trans (List.Perm.cons _ (List.Perm.swap _ _ _))
    · exact List.Perm.refl _

theorem imp_perm {m : Mat α} (hm : NoBug m) : ∀ (l : List (Nat × Nat)), Valid m.dim l →
    (flattenEdges (imp m l)).Perm (flattenEdges l)
  | [], _ => .refl _
  | [_], _ => .refl _
  | a :: b :: t, h => by
    have e1 : flattenEdges (imp m (a :: b :: t)) =
        flattenEdges [(opt2 m a b).1, (opt2 m a b).2] ++ flattenEdges (imp m t) := rfl
    have e2 : flattenEdges (a :: b :: t) = flattenEdges [a, b] ++ flattenEdges t := rfl
    rw [e1, e2]
    exact (opt2_perm hm (h a (by simp)) (h b (by simp))).append
      (imp_perm hm t (fun e he => h e (by simp [he])))

theorem impRun_perm {m : Mat α} (hm : NoBug m) {shuf : Nat → List (Nat × Nat) → List (Nat × Nat)}
    (hsh : ∀ k l, (shuf k l).Perm l) {tries : Nat} {l : List (Nat × Nat)} (hl : Valid m.dim l) :
    (flattenEdges (impRun m shuf tries l)).Perm (flattenEdges l) := by
  refine impRun_keeps (fun r => (flattenEdges r).Perm (flattenEdges l)) (.refl _) ?_ ?_
  · intro k r h
    exact (flatten_perm (hsh k r)).trans h
  · intro r h
    refine (imp_perm hm r ?_).trans h
    rw [valid_iff] at hl ⊢
    exact fun v hv => hl v (h.mem_iff.mp hv)

end search

/-! ### exact costs -/

section exact
open XNum
variable {K : Type} [Field K] [LinearOrder K] [IsStrictOrderedRing K]

theorem edgeSum_cons (c : Nat → Nat → K) (e : Nat × Nat) (l : List (Nat × Nat)) :
    edgeSum c (e :: l) = c e.1 e.2 + edgeSum c l := by simp [edgeSum]

theorem edgeSum_perm (c : Nat → Nat → K) {l r : List (Nat × Nat)} (h : l.Perm r) :
    edgeSum c l = edgeSum c r := (h.map _).sum_eq

theorem opt2_le {m : Mat (XNum K)} {c : Nat → Nat → K} (hm : NoBug m)
    (hrep : ∀ i j, i < m.dim → j < m.dim → m.get i j = fin (c i j)) {a b : Nat × Nat}
    (ha : a.1 < m.dim ∧ a.2 < m.dim) (hb : b.1 < m.dim ∧ b.2 < m.dim) :
    edgeSum c [(opt2 m a b).1, (opt2 m a b).2] ≤ edgeSum c [a, b] := by
  unfold opt2
  simp only [edgeSum, List.map_cons, List.map_nil, List.sum_cons, List.sum_nil, add_zero]
  split
  · rename_i h1
    split
    · rename_i h2
      exact (hm a.1 a.2 b.1 b.2 ha.1 ha.2 hb.1 hb.2 h2 h1).elim
    · rw [hrep _ _ ha.1 ha.2, hrep _ _ hb.1 hb.2, hrep _ _ ha.1 hb.1, hrep _ _ ha.2 hb.2] at h1
      simp only [add_fin, lt_fin, decide_eq_true_eq] at h1
      exact le_of_lt h1
  · split
    · rename_i h2
      rw [hrep _ _ ha.1 ha.2, hrep _ _ hb.1 hb.2, hrep _ _ ha.1 hb.2, hrep _ _ ha.2 hb.1] at h2
      simp only [add_fin, lt_fin, decide_eq_true_eq] at h2
      exact le_of_lt h2
    · exact le_refl _

theorem imp_le {m : Mat (XNum K)} {c : Nat → Nat → K} (hm : NoBug m)
    (hrep : ∀ i j, i < m.dim → j < m.dim → m.get i j = fin (c i j)) :
    ∀ (l : List (Nat × Nat)), Valid m.dim l → edgeSum c (imp m l) ≤ edgeSum c l
  | [], _ => le_refl _
  | [_], _ => le_refl _
  | a :: b :: t, h => by
    have e1 : imp m (a :: b :: t) = [(opt2 m a b).1, (opt2 m a b).2] ++ imp m t := rfl
    have e2 : a :: b :: t = [a, b] ++ t := rfl
    rw [e1, e2, edgeSum_append, edgeSum_append]
    exact add_le_add (opt2_le hm hrep (h a (by simp)) (h b (by simp)))
      (imp_le hm hrep t (fun e he => h e (by simp [he])))

theorem impRun_le {m : Mat (XNum K)} {c : Nat → Nat → K} (hm : NoBug m)
    (hrep : ∀ i j, i < m.dim → j < m.dim → m.get i j = fin (c i j))
    {shuf : Nat → List (Nat × Nat) → List (Nat × Nat)}
    (hsh : ∀ k l, (shuf k l).Perm l) {tries : Nat} {l : List (Nat × Nat)} (hl : Valid m.dim l) :
    edgeSum c (impRun m shuf tries l) ≤ edgeSum c l := by
  have : Valid m.dim (impRun m shuf tries l) ∧ edgeSum c (impRun m shuf tries l) ≤ edgeSum c l := by
    refine impRun_keeps (fun r => Valid m.dim r ∧ edgeSum c r ≤ edgeSum c l) ⟨hl, le_refl _⟩ ?_ ?_
    · intro k r ⟨h1, h2⟩
      exact ⟨fun e he => h1 e ((hsh k r).mem_iff.mp he), by rw [edgeSum_perm c (hsh k r)]; exact h2⟩
    · intro r ⟨h1, h2⟩
      refine ⟨?_, (imp_le hm hrep r h1).trans h2⟩
      rw [valid_iff] at h1 ⊢
      exact fun v hv => h1 v (imp_mem m r v hv)
  exact this.2

theorem lt_asymm' (x y : XNum K) (h1 : (x <ᶠ y) = true) (h2 : (y <ᶠ x) = true) : False := by
  cases x <;> cases y <;> simp [FloatOps.lt, XNum.lt] at h1 h2
  exact lt_asymm h1 h2

theorem xadd_comm (x y : XNum K) : x +ᶠ y = y +ᶠ x := by
  cases x <;> cases y <;> simp [FloatOps.add, XNum.add, add_comm]

theorem noBug_of_noThree {m : Mat (XNum K)} {c : Nat → Nat → K} (hm : Rep m c) (hsym : Symm m.dim c)
    (h : NoThree m.dim c) : NoBug m := by
  have hs : ∀ i j, i < m.dim → j < m.dim → m.get i j = m.get j i := by
    intro i j hi hj
    by_cases e : i = j
    · rw [e]
    · rw [hm.off i j hi hj e, hm.off j i hj hi (Ne.symm e), hsym i j hi hj]
  intro a b x d ha hb hx hd h1 h2
  by_cases e1 : a = b
  · subst e1
    rw [xadd_comm] at h1
    exact lt_asymm' _ _ h1 h1
  by_cases e2 : a = x
  · subst e2
    rw [hs b a hb ha, xadd_comm (m.get a b)] at *
    exact lt_asymm' _ _ h1 h2
  by_cases e3 : a = d
  · subst e3
    rw [hs b a hb ha, hs x a hx ha, xadd_comm (m.get a b)] at h2
    exact lt_asymm' _ _ h2 h2
  by_cases e4 : b = x
  · subst e4
    exact lt_asymm' _ _ h2 h2
  by_cases e5 : b = d
  · subst e5
    rw [hs x b hx hb] at h2
    exact lt_asymm' _ _ h1 h2
  by_cases e6 : x = d
  · subst e6
    exact lt_asymm' _ _ h1 h1
  rw [hm.off _ _ ha hd e3, hm.off _ _ hb hx e4, hm.off _ _ ha hx e2, hm.off _ _ hb hd e5] at h1
  rw [hm.off _ _ ha hx e2, hm.off _ _ hb hd e5, hm.off _ _ ha hb e1, hm.off _ _ hx hd e6] at h2
  simp only [add_fin, lt_fin, decide_eq_true_eq] at h1 h2
  exact h a b x d ha hb hx hd (by simp [e1, e2, e3, e4, e5, e6]) ⟨h1, h2⟩

theorem matchingCost_exact {m : Mat (XNum K)} {c : Nat → Nat → K}
    (hrep : ∀ i j, i < m.dim → j < m.dim → m.get i j = fin (c i j)) {l : List (Nat × Nat)}
    (hl : Valid m.dim l) : matchingCost m l = .ok (fin (edgeSum c l)) := by
  unfold matchingCost
  rw [mapM_ok (g := fun e => fin (c e.1 e.2))]
  · simp only [rm_bind_ok, rm_pure]
    rw [sum_fin _ (by
      intro x hx
      obtain ⟨e, _, rfl⟩ := List.mem_map.mp hx
      exact ⟨_, rfl⟩)]
    congr 2
    simp [edgeSum, Function.comp_def, XNum.toK]
  · intro e he
    rw [entry_ok (hl e he).1 (hl e he).2, hrep _ _ (hl e he).1 (hl e he).2]

end exact

/-! ## degrees -/

section degrees

theorem sum_und {n : Nat} {L : List (Nat × Nat)} (hL : Valid n L) (i : Nat) :
    ∑ j ∈ Finset.range n, und L i j = (flattenEdges L).count i := by
  induction L with
  | nil => simp [und_nil, flattenEdges]
  | cons e L ih =>
    have he := hL e (by simp)
    simp only [fun j => und_cons e L i j, Finset.sum_add_distrib]
    rw [ih (fun f hf => hL f (by simp [hf])), show e = (e.1, e.2) from rfl,
      sum_und_single he.1 he.2, flatten_cons, List.count_cons, List.count_cons]
    have f1 : (if (e.1 == i) = true then 1 else 0) = if i = e.1 then 1 else 0 := by
      by_cases h : i = e.1
      · simp [h]
      · simp [h, Ne.symm h]
    have f2 : (if (e.2 == i) = true then 1 else 0) = if i = e.2 then 1 else 0 := by
      by_cases h : i = e.2
      · simp [h]
      · simp [h, Ne.symm h]
    rw [f1, f2]
    omega

theorem sum_count_range {n : Nat} (l : List Nat) (h : ∀ x ∈ l, x < n) :
    ∑ i ∈ Finset.range n, l.count i = l.length := by
  induction l with
  | nil => simp
  | cons a t ih =>
    simp only [List.count_cons, Finset.sum_add_distrib, List.length_cons]
    rw [ih (fun x hx => h x (by simp [hx]))]
    congr 1
    have ha := h a (by simp)
    simp [beq_iff_eq, ha]

theorem sum_mod_two {n : Nat} (f : Nat → Nat) :
    (∑ i ∈ Finset.range n, f i) % 2 = ((List.range n).filter fun i => f i % 2 = 1).length % 2 := by
  induction n with
  | zero => rfl
  | succ n ih =>
    rw [Finset.sum_range_succ, List.range_succ, List.filter_append, List.length_append]
    by_cases h : f n % 2 = 1
    · simp only [h, decide_true, List.filter_cons_of_pos, List.filter_nil, List.length_cons,
        List.length_nil]
      omega
    · have h0 : f n % 2 = 0 := by omega
      simp only [h0, List.filter_cons, List.filter_nil]
      simp
      omega

/-- the vertices of odd degree -/
def oddSet (n : Nat) (E : List (Nat × Nat)) : List Nat :=
  (List.range n).filter fun i => (flattenEdges E).count i % 2 = 1

theorem oddSet_even {n : Nat} {E : List (Nat × Nat)} (hE : Valid n E) : (oddSet n E).length % 2 = 0 := by
  unfold oddSet
  rw [← sum_mod_two (fun i => (flattenEdges E).count i), sum_count_range _ (valid_iff.mp hE),
    length_flatten]
  omega

theorem mem_oddSet {n : Nat} {E : List (Nat × Nat)} {i : Nat} :
    i ∈ oddSet n E ↔ i < n ∧ (flattenEdges E).count i % 2 = 1 := by
  simp [oddSet]

theorem oddVertices_eq {α : Type} [FloatOps α] {n : Nat} {E : List (Nat × Nat)} {mst : Graph α}
    (h : AdjOf n E mst) : oddVertices mst = oddSet n E := by
  unfold oddVertices oddSet
  have hz : mst.zipIdx = (List.range n).map fun i => (mst[i]?.getD [], i) := by
    apply List.ext_getElem?
    intro i
    rw [List.getElem?_zipIdx]
    by_cases hi : i < n
    · obtain ⟨es, e1, _⟩ := h.adj i hi
      simp [e1, hi]
    · rw [List.getElem?_eq_none (by rw [h.len]; omega)]
      simp; omega
  rw [hz, List.filterMap_map, ← List.filterMap_eq_filter]
  apply List.filterMap_congr
  intro i hi
  obtain ⟨es, e1, _, e3⟩ := h.adj i (by simpa using hi)
  simp [e1, e3, Option.guard]

end degrees

end Walky
