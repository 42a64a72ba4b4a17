import Verif.Model.OneTree
import Verif.Lemmas.Tree
import Verif.Lemmas.Par
import Verif.Lemmas.Eval

/-! # Helper lemmas: 1-trees -/

set_option linter.unusedSectionVars false
set_option linter.unusedSimpArgs false

namespace Walky

open FloatOps XNum Spec

variable {K : Type} [Field K] [LinearOrder K] [IsStrictOrderedRing K]

/-- invariant of the search for the two cheapest edges -/
structure TwoMin (v : Nat) (c : Nat → Nat → K) (done : List Nat)
    (s : Edge (XNum K) × Edge (XNum K)) : Prop where
  none1 : (∀ j ∈ done, j = v) → s.1.cost = XNum.inf
  none2 : (∀ j ∈ done, j ≠ v → j = s.1.dst) → s.2.cost = XNum.inf
  fst : (∃ j ∈ done, j ≠ v) → s.1.dst ∈ done ∧ s.1.dst ≠ v ∧ s.1.cost = fin (c v s.1.dst) ∧
    ∀ j ∈ done, j ≠ v → c v s.1.dst ≤ c v j
  snd : (∃ j ∈ done, j ≠ v ∧ j ≠ s.1.dst) → s.2.dst ∈ done ∧ s.2.dst ≠ v ∧ s.2.dst ≠ s.1.dst ∧
    s.2.cost = fin (c v s.2.dst) ∧ ∀ j ∈ done, j ≠ v → j ≠ s.1.dst → c v s.2.dst ≤ c v j

theorem twoMin_fold {m : Mat (XNum K)} {c : Nat → Nat → K} (hm : Rep m c) {v : Nat}
    (hv : v < m.dim) : TwoMin v c (List.range m.dim)
      ((List.range m.dim).foldl (twoMinStep v (m.get v)) (⟨v, XNum.inf⟩, ⟨v, XNum.inf⟩)) := by
  refine foldl_inv _ (TwoMin v c) _ _ ?_ ?_
  · exact ⟨fun _ => rfl, fun _ => rfl, by simp, by simp⟩
  · intro done i rest s hl h
    have hi : i < m.dim := by
      have : i ∈ List.range m.dim := by rw [hl]; simp
      simpa using this
    have hid : i ∉ done := by
      have hnd : (List.range m.dim).Nodup := List.nodup_range
      rw [hl, List.nodup_append] at hnd
      intro hd
      exact hnd.2.2 i hd i (by simp) rfl
    unfold twoMinStep
    by_cases hiv : i = v
    · rw [if_pos hiv]
      subst hiv
      refine ⟨?_, ?_, ?_, ?_⟩
      · intro ha
        exact h.none1 (fun j hj => ha j (by simp [hj]))
      · intro ha
        exact h.none2 (fun j hj => ha j (by simp [hj]))
      · rintro ⟨j, hj, hjv⟩
        have hj : j ∈ done := by simpa [hjv] using hj
        obtain ⟨a, b, d, e⟩ := h.fst ⟨j, hj, hjv⟩
        refine ⟨by simp [a], b, d, ?_⟩
        intro k hk hkv
        exact e k (by simpa [hkv] using hk) hkv
      · rintro ⟨j, hj, hjv, hjd⟩
        have hj : j ∈ done := by simpa [hjv] using hj
        obtain ⟨a, b, b', d, e⟩ := h.snd ⟨j, hj, hjv, hjd⟩
        refine ⟨by simp [a], b, b', d, ?_⟩
        intro k hk hkv
        exact e k (by simpa [hkv] using hk) hkv
    · rw [if_neg hiv]
      have hrow : m.get v i = fin (c v i) := hm.off v i hv hi (fun h => hiv h.symm)
      rw [hrow]
      by_cases h1 : ∃ j ∈ done, j ≠ v
      · obtain ⟨a1, a2, a3, a4⟩ := h.fst h1
        rw [a3]
        have hi1 : i ≠ s.1.dst := fun h => hid (h ▸ a1)
        by_cases hlt : c v i < c v s.1.dst
        · simp only [lt_fin, hlt, decide_true, if_true]
          refine ⟨?_, ?_, ?_, ?_⟩
          · intro ha; exact absurd (ha i (by simp)) hiv
          · intro ha
            exact absurd (ha _ (by simp [a1]) a2) hi1.symm
          · intro _
            refine ⟨by simp, hiv, rfl, ?_⟩
            intro k hk hkv
            rcases List.mem_append.mp hk with hk | hk
            · exact hlt.le.trans (a4 k hk hkv)
            · simp at hk; rw [hk]
          · intro _
            refine ⟨by simp [a1], a2, hi1.symm, a3, ?_⟩
            intro k hk hkv hki
            have hk : k ∈ done := by simpa [hki] using hk
            exact a4 k hk hkv
        · simp only [lt_fin, hlt, decide_false, Bool.false_eq_true, if_false]
          by_cases h2 : ∃ j ∈ done, j ≠ v ∧ j ≠ s.1.dst
          · obtain ⟨b1, b2, b3, b4, b5⟩ := h.snd h2
            rw [b4]
            by_cases hlt2 : c v i < c v s.2.dst
            · simp only [lt_fin, hlt2, decide_true, if_true]
              refine ⟨?_, ?_, ?_, ?_⟩
              · intro ha; exact absurd (ha i (by simp)) hiv
              · intro ha; exact absurd (ha i (by simp) hiv) hi1
              · intro _
                refine ⟨by simp [a1], a2, a3, ?_⟩
                intro k hk hkv
                rcases List.mem_append.mp hk with hk | hk
                · exact a4 k hk hkv
                · simp at hk; rw [hk]; exact not_lt.mp hlt
              · intro _
                refine ⟨by simp, hiv, hi1, rfl, ?_⟩
                intro k hk hkv hk1
                rcases List.mem_append.mp hk with hk | hk
                · exact hlt2.le.trans (b5 k hk hkv hk1)
                · simp at hk; rw [hk]
            · simp only [lt_fin, hlt2, decide_false, Bool.false_eq_true, if_false]
              refine ⟨?_, ?_, ?_, ?_⟩
              · intro ha; exact absurd (ha i (by simp)) hiv
              · intro ha; exact absurd (ha i (by simp) hiv) hi1
              · intro _
                refine ⟨by simp [a1], a2, a3, ?_⟩
                intro k hk hkv
                rcases List.mem_append.mp hk with hk | hk
                · exact a4 k hk hkv
                · simp at hk; rw [hk]; exact not_lt.mp hlt
              · intro _
                refine ⟨by simp [b1], b2, b3, b4, ?_⟩
                intro k hk hkv hk1
                rcases List.mem_append.mp hk with hk | hk
                · exact b5 k hk hkv hk1
                · simp at hk; rw [hk]; exact not_lt.mp hlt2
          · push Not at h2
            rw [h.none2 h2]
            simp only [lt_fin_inf, if_true]
            refine ⟨?_, ?_, ?_, ?_⟩
            · intro ha; exact absurd (ha i (by simp)) hiv
            · intro ha; exact absurd (ha i (by simp) hiv) hi1
            · intro _
              refine ⟨by simp [a1], a2, a3, ?_⟩
              intro k hk hkv
              rcases List.mem_append.mp hk with hk | hk
              · exact a4 k hk hkv
              · simp at hk; rw [hk]; exact not_lt.mp hlt
            · intro _
              refine ⟨by simp, hiv, hi1, rfl, ?_⟩
              intro k hk hkv hk1
              rcases List.mem_append.mp hk with hk | hk
              · exact absurd (h2 k hk hkv) hk1
              · simp at hk; rw [hk]
      · push Not at h1
        rw [h.none1 h1]
        simp only [lt_fin_inf, if_true]
        refine ⟨?_, ?_, ?_, ?_⟩
        · intro ha; exact absurd (ha i (by simp)) hiv
        · intro _; exact h.none1 h1
        · intro _
          refine ⟨by simp, hiv, rfl, ?_⟩
          intro k hk hkv
          rcases List.mem_append.mp hk with hk | hk
          · exact absurd (h1 k hk) hkv
          · simp at hk; rw [hk]
        · rintro ⟨k, hk, hkv, hki⟩
          have hk : k ∈ done := by simpa [hki] using hk
          exact absurd (h1 k hk) hkv

/-- adding an edge to a graph that holds `E` -/
theorem GraphOf.add {n : Nat} {c : Nat → Nat → K} {E : List (Nat × Nat)} {g : Graph (XNum K)}
    (h : GraphOf n c E g) {u v : Nat} (hu : u < n) (hv : v < n) (huv : u ≠ v) :
    ∃ g', g.addUndirectedEdge u v (fin (c u v)) = .ok g' ∧ GraphOf n c (E ++ [(u, v)]) g' := by
  unfold Graph.addUndirectedEdge Graph.pushEdge
  rw [h.len, if_pos ⟨hu, hv⟩, if_pos hu]
  simp only [rm_bind_ok]
  rw [if_pos (by simp [h.len, hv])]
  refine ⟨_, rfl, by simp [h.len], ?_⟩
  intro i hi
  rw [List.getElem?_modify, List.getElem?_modify, h.adj i hi, edgesAt_append]
  by_cases h1 : u = i
  · have h2 : v ≠ i := fun h => huv (h1.trans h.symm)
    simp [h1, h2, edgesAt]
  · by_cases h2 : v = i
    · simp [h1, h2, edgesAt]
    · simp [h1, h2, edgesAt]

theorem sum_range_ite (n a : Nat) (x : K) :
    ((List.range n).map fun i => if a = i then x else 0).sum = if a < n then x else 0 := by
  induction n with
  | zero => simp
  | succ n ih =>
    rw [List.range_succ, List.map_append, List.sum_append, ih]
    by_cases h1 : a < n
    · have : a ≠ n := by omega
      have h2 : a < n + 1 := by omega
      simp [h1, h2, this]
    · by_cases h2 : a = n
      · simp [h2]
      · have h3 : ¬ a < n + 1 := by omega
        simp [h1, h2, h3]

/-- weight of a graph that holds `E` -/
theorem GraphOf.directed {n : Nat} {c : Nat → Nat → K} {E : List (Nat × Nat)}
    {g : Graph (XNum K)} (h : GraphOf n c E g) (hE : ∀ e ∈ E, e.1 < n ∧ e.2 < n) :
    g.directedEdgeWeight = fin (2 * edgeSum c E) := by
  have hfin : FinG g := by
    intro v hv e he
    obtain ⟨i, hi⟩ := List.mem_iff_getElem?.mp hv
    have hin : i < n := by
      have := (List.getElem?_eq_some_iff.mp hi).1
      rwa [h.len] at this
    rw [h.adj i hin] at hi
    simp only [Option.some.injEq] at hi
    rw [← hi] at he
    obtain ⟨x, _, rfl⟩ := List.mem_map.mp he
    exact ⟨_, rfl⟩
  rw [directedEdgeWeight_fin g hfin]
  congr 1
  have hg : g = (List.range n).map fun i => (edgesAt c E i).map fun x => ⟨x.1, fin x.2⟩ := by
    apply List.ext_getElem?
    intro i
    by_cases hi : i < n
    · rw [h.adj i hi]; simp [hi]
    · rw [List.getElem?_eq_none (by rw [h.len]; omega), List.getElem?_eq_none (by simp; omega)]
  unfold wsum
  rw [hg, List.map_map]
  clear hg hfin h
  have key : ∀ E : List (Nat × Nat), (∀ e ∈ E, e.1 < n ∧ e.2 < n) →
      ((List.range n).map fun i => ((edgesAt c E i).map fun x => x.2).sum).sum = 2 * edgeSum c E := by
    intro E
    induction E with
    | nil => intro _; simp [edgesAt, edgeSum]
    | cons e E ih =>
      intro hE
      have h1 := hE e (by simp)
      have hsum : ∀ (a : Nat) (x : K), a < n →
          ((List.range n).map fun i => if a = i then x else 0).sum = x := by
        intro a x ha
        rw [sum_range_ite, if_pos ha]
      have hstep : ∀ i, ((edgesAt c (e :: E) i).map fun x => x.2).sum =
          (if e.1 = i then c e.1 e.2 else 0) + ((if e.2 = i then c e.1 e.2 else 0) +
            ((edgesAt c E i).map fun x => x.2).sum) := by
        intro i
        simp only [edgesAt, List.flatMap_cons, List.map_append, List.sum_append]
        split <;> split <;> simp [add_assoc]
      simp only [hstep, List.sum_map_add]
      rw [ih (fun f hf => hE f (by simp [hf])), hsum _ _ h1.1, hsum _ _ h1.2]
      simp only [edgeSum, List.map_cons, List.sum_cons]
      ring
  have := key E hE
  convert this using 3
  funext i
  simp [Function.comp_def, toK]

theorem GraphOf.undirected {n : Nat} {c : Nat → Nat → K} {E : List (Nat × Nat)}
    {g : Graph (XNum K)} (h : GraphOf n c E g) (hE : ∀ e ∈ E, e.1 < n ∧ e.2 < n) :
    g.undirectedEdgeWeight = fin (edgeSum c E) := by
  unfold Graph.undirectedEdgeWeight
  rw [h.directed hE]
  simp

theorem edgeSum_append (c : Nat → Nat → K) (E F : List (Nat × Nat)) :
    edgeSum c (E ++ F) = edgeSum c E + edgeSum c F := by simp [edgeSum]

end Walky

namespace Walky

open FloatOps XNum Spec

/-! ## Reductions with panics -/

/-- associativity in the panic monad -/
def KAssoc {β : Type} (f : β → β → RM β) : Prop :=
  ∀ a b c, (f a b >>= fun x => f x c) = (f b c >>= fun y => f a y)

/-- sequential reduction with a panicking operation -/
def reduceLM {β : Type} (f : β → β → RM β) : List β → RM (Option β)
  | [] => .ok none
  | x :: t => do
    let r ← t.foldlM f x
    return some r

/-- the only panic -/
def UErr {β : Type} (f : β → β → RM β) : Prop := ∀ a b e, f a b = .error e → e = .unwrap

theorem rm_bind_pure {β : Type} (x : RM β) : (x >>= fun z => Except.ok z) = x := by
  cases x <;> rfl

theorem foldlM_kassoc {β : Type} {f : β → β → RM β} (hf : KAssoc f) (t : List β) (x y : β) :
    (f x y >>= fun z => t.foldlM f z) = (t.foldlM f y >>= fun z => f x z) := by
  induction t generalizing y with
  | nil => simp [rm_bind_pure]
  | cons z t ih =>
    simp only [List.foldlM_cons]
    rw [← bind_assoc, hf x y z, bind_assoc, bind_assoc]
    congr 1
    funext b
    exact ih b

theorem reduceLM_cons {β : Type} {f : β → β → RM β} (hf : KAssoc f) (x : β) (t : List β) :
    reduceLM f (x :: t) = (reduceLM f t >>= fun r => combineM f (some x) r) := by
  cases t with
  | nil => rfl
  | cons y t =>
    simp only [reduceLM, List.foldlM_cons]
    rw [foldlM_kassoc hf, bind_assoc]
    simp [combineM]

theorem combineM_assoc {β : Type} {f : β → β → RM β} (hf : KAssoc f) (x y z : Option β) :
    (combineM f x y >>= fun a => combineM f a z) = (combineM f y z >>= fun b => combineM f x b) := by
  cases x with
  | none =>
    have : (fun b => combineM f none b) = (pure : Option β → RM (Option β)) := rfl
    rw [this, bind_pure]
    rfl
  | some a =>
    cases y with
    | none => cases z <;> rfl
    | some b =>
      cases z with
      | none =>
        simp only [combineM, bind_assoc]
        simp
      | some c =>
        simp only [combineM, bind_assoc]
        simp only [rm_pure, rm_bind_ok]
        rw [← bind_assoc, hf a b c, bind_assoc]

theorem reduceLM_err {β : Type} {f : β → β → RM β} (hf : UErr f) {l : List β} {e : Panic}
    (h : reduceLM f l = .error e) : e = .unwrap := by
  have key : ∀ (t : List β) (x : β) (e : Panic), t.foldlM f x = .error e → e = .unwrap := by
    intro t
    induction t with
    | nil => intro x e h; simp at h
    | cons y t ih =>
      intro x e h
      rw [List.foldlM_cons] at h
      cases hx : f x y with
      | ok v => rw [hx] at h; exact ih v e h
      | error e' => rw [hx] at h; simp at h; rw [← h]; exact hf _ _ _ hx
  cases l with
  | nil => simp [reduceLM] at h
  | cons x t =>
    simp only [reduceLM] at h
    cases hx : t.foldlM f x with
    | ok v => rw [hx] at h; simp at h
    | error e' => rw [hx] at h; simp at h; rw [← h]; exact key _ _ _ hx

theorem combineM_err {β : Type} {f : β → β → RM β} (hf : UErr f) {x y : Option β} {e : Panic}
    (h : combineM f x y = .error e) : e = .unwrap := by
  cases x with
  | none => simp [combineM] at h
  | some a =>
    cases y with
    | none => simp [combineM] at h
    | some b =>
      simp only [combineM] at h
      cases hx : f a b with
      | ok v => rw [hx] at h; simp at h
      | error e' => rw [hx] at h; simp at h; rw [← h]; exact hf _ _ _ hx

theorem reduceLM_append {β : Type} {f : β → β → RM β} (hf : KAssoc f) (he : UErr f) (l r : List β) :
    reduceLM f (l ++ r) = (do
      let a ← reduceLM f l
      let b ← reduceLM f r
      combineM f a b) := by
  induction l with
  | nil =>
    have : (fun b => combineM f none b) = (pure : Option β → RM (Option β)) := rfl
    have h0 : reduceLM f ([] : List β) = .ok none := rfl
    rw [h0, rm_bind_ok, this, bind_pure]
    rfl
  | cons x t ih =>
    rw [List.cons_append, reduceLM_cons hf, ih, reduceLM_cons hf]
    simp only [bind_assoc]
    congr 1
    funext a
    have := combineM_assoc hf (some x) a
    rw [show (combineM f (some x) a >>= fun a' => reduceLM f r >>= fun b => combineM f a' b) =
      (reduceLM f r >>= fun b => combineM f (some x) a >>= fun a' => combineM f a' b) from ?_]
    · congr 1
      funext b
      exact (this b).symm
    · cases h1 : combineM f (some x) a with
      | ok v => simp
      | error e =>
        cases h2 : reduceLM f r with
        | ok v => simp
        | error e' =>
          simp only [rm_bind_err]
          rw [combineM_err he h1, reduceLM_err he h2]

theorem RTree.reduceM_eq {β : Type} {f : β → β → RM β} (hf : KAssoc f) (he : UErr f)
    (t : RTree β) : t.reduceM f = reduceLM f t.flatten := by
  induction t with
  | empty => rfl
  | leaf x => rfl
  | node l r ihl ihr => simp only [RTree.reduceM, RTree.flatten, ihl, ihr, reduceLM_append hf he]

section
variable {α : Type} [FloatOps α]

theorem maxPartial_uerr : UErr (maxPartial : α → α → RM α) := by
  intro a b e h
  unfold maxPartial at h
  split at h
  · simpa using h.symm
  · simp at h

theorem maxPartial_kassoc (ho : StrictWeak (olt : α → α → Bool)) :
    KAssoc (maxPartial : α → α → RM α) := by
  have hlt : ∀ a b : α, isNaN a = false → isNaN b = false → FloatOps.lt a b = olt a b := by
    intro a b ha hb; simp [olt, ha, hb]
  intro a b c
  unfold maxPartial
  cases ha : isNaN a <;> cases hb : isNaN b <;> cases hc : isNaN c <;>
    simp only [Bool.or_true, Bool.or_false, Bool.or_self, Bool.false_eq_true, if_false, if_true,
      rm_bind_ok, rm_bind_err, ha, hb, hc]
  · simp only [hlt _ _ hb ha, hlt _ _ hc hb]
    cases h1 : olt b a <;> cases h2 : olt c b <;>
      simp only [Bool.false_eq_true, if_false, if_true, ha, hb, hc, Bool.or_self, hlt _ _ hc ha,
        hlt _ _ hc hb, hlt _ _ hb ha, h1, h2]
    · rw [ho.negtrans c b a h2 h1]; rfl
    · rw [ho.trans c b a h2 h1]; rfl
  · split <;> simp [ha, hb, hc]

theorem maxByL_eq (l : List α) : maxByL l = reduceLM maxPartial l := by
  cases l <;> rfl
end

/-! ## Maxima of finite numbers -/

variable {K : Type} [Field K] [LinearOrder K] [IsStrictOrderedRing K]

/-- `w` is the largest element of `l` -/
def IsMax (w : K) (l : List K) : Prop := w ∈ l ∧ ∀ x ∈ l, x ≤ w

theorem IsMax.unique {w w' : K} {l : List K} (h : IsMax w l) (h' : IsMax w' l) : w = w' :=
  _root_.le_antisymm (h'.2 _ h.1) (h.2 _ h'.1)

theorem maxByL_fin {l : List K} (h : l ≠ []) :
    ∃ w, maxByL (l.map fin) = .ok (some (fin w)) ∧ IsMax w l := by
  cases l with
  | nil => exact absurd rfl h
  | cons a t =>
    have key : ∀ (t done : List K) (b : K), IsMax b done →
        ∃ w, (t.map fin).foldlM maxPartial (fin b) = .ok (fin w) ∧ IsMax w (done ++ t) := by
      intro t
      induction t with
      | nil => intro done b hb; exact ⟨b, rfl, by simpa using hb⟩
      | cons x t ih =>
        intro done b hb
        rw [List.map_cons, List.foldlM_cons]
        have : maxPartial (fin b) (fin x) = .ok (fin (if x < b then b else x)) := by
          unfold maxPartial
          simp only [isNaN_fin, Bool.or_self, Bool.false_eq_true, if_false, lt_fin, decide_eq_true_eq]
          split <;> rfl
        rw [this, rm_bind_ok]
        obtain ⟨w, h1, h2⟩ := ih (done ++ [x]) (if x < b then b else x) (by
          split
          · rename_i hx
            refine ⟨by simp [hb.1], ?_⟩
            intro y hy
            rcases List.mem_append.mp hy with h | h
            · exact hb.2 y h
            · simp at h; rw [h]; exact hx.le
          · rename_i hx
            refine ⟨by simp, ?_⟩
            intro y hy
            rcases List.mem_append.mp hy with h | h
            · exact (hb.2 y h).trans (not_lt.mp hx)
            · simp at h; rw [h])
        exact ⟨w, h1, by simpa using h2⟩
    obtain ⟨w, h1, h2⟩ := key t [a] a ⟨by simp, by simp⟩
    refine ⟨w, ?_, by simpa using h2⟩
    simp [maxByL, h1]

theorem RTree.reduce_max {l : List K} (t : RTree (XNum K)) (hl : t.flatten.Perm (l.map fin))
    (h : l ≠ []) : ∃ w, t.reduce mpiMax = some (fin w) ∧ IsMax w l := by
  have key : ∀ (t : RTree (XNum K)) (l : List K), t.flatten = l.map fin →
      (l = [] ∧ t.reduce mpiMax = none) ∨ ∃ w, t.reduce mpiMax = some (fin w) ∧ IsMax w l := by
    intro t
    induction t with
    | empty =>
      intro l hl
      simp only [RTree.flatten] at hl
      left; exact ⟨by simpa using hl.symm, rfl⟩
    | leaf x =>
      intro l hl
      simp only [RTree.flatten] at hl
      right
      cases l with
      | nil => simp at hl
      | cons a t =>
        simp only [List.map_cons, List.cons.injEq] at hl
        have : t = [] := by simpa using hl.2.symm
        subst this
        exact ⟨a, by simp [RTree.reduce, hl.1], by simp [IsMax]⟩
    | node x y ihx ihy =>
      intro l hl
      simp only [RTree.flatten] at hl
      obtain ⟨l1, l2, rfl, h1, h2⟩ := List.map_eq_append_iff.mp hl.symm
      simp only [RTree.reduce]
      rcases ihx l1 h1.symm with ⟨e1, e2⟩ | ⟨w1, e1, e2⟩ <;>
        rcases ihy l2 h2.symm with ⟨d1, d2⟩ | ⟨w2, d1, d2⟩
      · left; exact ⟨by simp [e1, d1], by simp [e2, d2, combineO]⟩
      · right; exact ⟨w2, by simp [e2, d1, combineO], by simpa [e1] using d2⟩
      · right; exact ⟨w1, by simp [e1, d2], by simpa [d1] using e2⟩
      · right
        refine ⟨if w1 < w2 then w2 else w1, ?_, ?_⟩
        · simp only [e1, d1, combineO, mpiMax, lt_fin, decide_eq_true_eq]
          split <;> rfl
        · split
          · rename_i hw
            refine ⟨by simp [d2.1], ?_⟩
            intro z hz
            rcases List.mem_append.mp hz with h | h
            · exact (e2.2 z h).trans hw.le
            · exact d2.2 z h
          · rename_i hw
            refine ⟨by simp [e2.1], ?_⟩
            intro z hz
            rcases List.mem_append.mp hz with h | h
            · exact e2.2 z h
            · exact (d2.2 z h).trans (not_lt.mp hw)
  have hfin : ∃ l' : List K, t.flatten = l'.map fin ∧ l'.Perm l := by
    have hx : ∀ x ∈ t.flatten, ∃ a, x = fin a := by
      intro x hx
      obtain ⟨a, _, ha⟩ := List.mem_map.mp (hl.mem_iff.mp hx)
      exact ⟨a, ha.symm⟩
    refine ⟨t.flatten.map toK, ?_, ?_⟩
    · rw [List.map_map]
      conv_lhs => rw [← List.map_id t.flatten]
      apply List.map_congr_left
      intro x hx'
      obtain ⟨a, rfl⟩ := hx x hx'
      rfl
    · have := hl.map toK
      rw [List.map_map] at this
      have h0 : (toK ∘ fin : K → K) = id := rfl
      rwa [h0, List.map_id] at this
  obtain ⟨l', h1, h2⟩ := hfin
  rcases key t l' h1 with ⟨e, _⟩ | ⟨w, e1, e2⟩
  · subst e
    exact absurd (List.nil_perm.mp h2) h
  · exact ⟨w, e1, h2.mem_iff.mp e2.1, fun x hx => e2.2 x (h2.mem_iff.mpr hx)⟩

/-- `mapM` of computations that succeed -/
theorem mapM_ok {ι β : Type} {f : ι → RM β} {g : ι → β} {l : List ι} (h : ∀ i ∈ l, f i = .ok (g i)) :
    l.mapM f = .ok (l.map g) := by
  induction l with
  | nil => rfl
  | cons a t ih =>
    rw [List.mapM_cons, h a (by simp), ih (fun i hi => h i (by simp [hi]))]
    rfl

/-! ## The 1-tree -/

theorem oneTree_exact {m : Mat (XNum K)} {c : Nat → Nat → K} (hm : Rep m c) (hsym : Symm m.dim c)
    (hn : 3 ≤ m.dim) {v : Nat} (hv : v < m.dim) :
    ∃ g E a b, oneTree m v = .ok g ∧ IsSpanningTree (citiesExcept m.dim [v]) E ∧
      (∀ F, IsSpanningTree (citiesExcept m.dim [v]) F → edgeSum c E ≤ edgeSum c F) ∧
      (a < m.dim ∧ a ≠ v ∧ b < m.dim ∧ b ≠ v ∧ a ≠ b) ∧
      (∀ j < m.dim, j ≠ v → c v a ≤ c v j) ∧ (∀ j < m.dim, j ≠ v → j ≠ a → c v b ≤ c v j) ∧
      GraphOf m.dim c (E ++ [(v, a), (v, b)]) g := by
  have hex : ∀ u ∈ [v], u < m.dim := by simpa using hv
  have hne : ∃ j < m.dim, j ≠ v := by
    by_cases h : v = 0
    · exact ⟨1, by omega, by omega⟩
    · exact ⟨0, by omega, by omega⟩
  rcases primSeq_exact hm [v] hex with ⟨h1, _⟩ | ⟨start, P, h1, h2, h3, h4, h5⟩
  · obtain ⟨j, hj, hjv⟩ := hne
    exact absurd (h1 j hj) (by simpa using hjv)
  · have ht := twoMin_fold hm hv
    generalize hs : (List.range m.dim).foldl (twoMinStep v (m.get v))
      (⟨v, XNum.inf⟩, ⟨v, XNum.inf⟩) = s at ht
    obtain ⟨a1, a2, a3, a4⟩ := ht.fst (by
      obtain ⟨j, hj, hjv⟩ := hne
      exact ⟨j, by simpa using hj, hjv⟩)
    obtain ⟨b1, b2, b3, b4, b5⟩ := ht.snd (by
      have : ∃ j < m.dim, j ≠ v ∧ j ≠ s.1.dst := by
        by_cases h0 : v ≠ 0 ∧ s.1.dst ≠ 0
        · exact ⟨0, by omega, h0.1.symm, h0.2.symm⟩
        · by_cases h1 : v ≠ 1 ∧ s.1.dst ≠ 1
          · exact ⟨1, by omega, h1.1.symm, h1.2.symm⟩
          · exact ⟨2, by omega, by omega, by omega⟩
      obtain ⟨j, hj, h⟩ := this
      exact ⟨j, by simpa using hj, h⟩)
    have hG := graphOf_treeGraph c m.dim P (fun p hp => (h5 p hp).2.2)
    obtain ⟨g1, e1, G1⟩ := hG.add hv (by simpa using a1) a2.symm
    obtain ⟨g2, e2, G2⟩ := G1.add hv (by simpa using b1) b2.symm
    refine ⟨g2, P.map Prod.swap, s.1.dst, s.2.dst, ?_, h3.spanning h1 h2, ?_,
      ⟨by simpa using a1, a2, by simpa using b1, b2, b3.symm⟩, ?_, ?_, by simpa using G2⟩
    · unfold oneTree
      rw [if_pos hv, h4]
      simp only [rm_bind_ok, inf_def]
      rw [hs, a3, e1, rm_bind_ok, b4, e2]
    · intro F hF
      have hw : edgeSum c (P.map Prod.swap) = edgesCost c P := by
        rw [edgeSum_swap]; exact edgesCost_swap c hsym h5
      rw [hw]
      exact h3.min_spec h1 h2 hsym F (fun e he => ⟨(hF.ends e he).1, (hF.ends e he).2.1⟩) hF.conn
        (Or.inl hF.count)
    · intro j hj hjv
      exact a4 j (by simpa using hj) hjv
    · intro j hj hjv hja
      exact b5 j (by simpa using hj) hjv hja

/-- the consecutive pairs of a simple path form a spanning tree of its vertices -/
theorem spanning_pairs {t U : List Nat} (hp : t.Perm U) (hnd : t.Nodup) (hne : t ≠ []) :
    IsSpanningTree U (pairs t) := by
  refine ⟨?_, ?_, ?_⟩
  · intro e he
    obtain ⟨a, b⟩ := mem_pairs he
    exact ⟨hp.mem_iff.mp a, hp.mem_iff.mp b, pairs_ne hnd he⟩
  · intro a ha b hb
    exact conn_iff.mp (conn_pairs (hp.mem_iff.mpr hb) (hp.mem_iff.mpr ha))
  · rw [length_pairs, ← hp.length_eq]
    have : t.length ≠ 0 := by simpa using hne
    omega

theorem oneTreeWeight_exact {m : Mat (XNum K)} {c : Nat → Nat → K} (hm : Rep m c)
    (hsym : Symm m.dim c) (hn : 3 ≤ m.dim) {v : Nat} (hv : v < m.dim) :
    ∃ w, oneTreeWeight m v = .ok (fin w) ∧ (∀ q, IsTour m.dim q → w ≤ tourCost c q) ∧
      (Nonneg m.dim c → ∃ F, IsSpanningTree (List.range m.dim) F ∧ edgeSum c F ≤ w) := by
  obtain ⟨g, E, a, b, h1, h2, h3, ⟨ha, hav, hb, hbv, hab⟩, h4, h5, h6⟩ := oneTree_exact hm hsym hn hv
  have hE : ∀ e ∈ E ++ [(v, a), (v, b)], e.1 < m.dim ∧ e.2 < m.dim := by
    intro e he
    rcases List.mem_append.mp he with he | he
    · obtain ⟨k1, k2, _⟩ := h2.ends e he
      exact ⟨(mem_citiesExcept.mp k1).1, (mem_citiesExcept.mp k2).1⟩
    · simp only [List.mem_cons, List.not_mem_nil, or_false] at he
      rcases he with rfl | rfl
      · exact ⟨hv, ha⟩
      · exact ⟨hv, hb⟩
  refine ⟨edgeSum c (E ++ [(v, a), (v, b)]), ?_, ?_, ?_⟩
  · unfold oneTreeWeight
    rw [h1, rm_bind_ok, h6.undirected hE]
    rfl
  · intro q hq
    obtain ⟨l, r, hlr⟩ := List.append_of_mem (hq.mem.mpr hv)
    have hq' : IsTour m.dim (v :: (r ++ l)) := by
      refine List.Perm.trans ?_ hq
      rw [hlr]
      exact (List.perm_append_comm (l₁ := v :: r) (l₂ := l))
    have hcost : tourCost c q = tourCost c (v :: (r ++ l)) := by
      rw [hlr, tourCost_append_comm]; rfl
    rw [hcost]
    generalize ht : r ++ l = t at hq' hcost
    have hlen := hq'.length
    simp only [List.length_cons] at hlen
    have hnd := hq'.nodup
    rw [List.nodup_cons] at hnd
    have hperm : t.Perm (citiesExcept m.dim [v]) := by
      rw [List.perm_ext_iff_of_nodup hnd.2 (nodup_citiesExcept _ _)]
      intro j
      rw [mem_citiesExcept, ← hq'.mem (i := j)]
      constructor
      · intro hj; exact ⟨by simp [hj], by
          simp only [List.mem_singleton]
          rintro rfl
          exact hnd.1 hj⟩
      · rintro ⟨h7, h8⟩
        simpa using (List.mem_cons.mp h7).resolve_left (by simpa using h8)
    rcases t with _ | ⟨x, t⟩
    · simp at hlen; omega
    · have hne : (x :: t) ≠ [] := by simp
      obtain ⟨l', y, hy⟩ : ∃ l' y, x :: t = l' ++ [y] :=
        ⟨_, _, (List.dropLast_append_getLast hne).symm⟩
      have hxy : x ≠ y := by
        rintro rfl
        cases l' with
        | nil =>
          rw [hy] at hlen; simp at hlen; omega
        | cons z l' =>
          simp only [List.cons_append, List.cons.injEq] at hy
          have := hnd.2
          rw [List.nodup_cons] at this
          rw [hy.2] at this
          simp at this
      have hxm : x < m.dim ∧ x ≠ v := by
        have := mem_citiesExcept.mp (hperm.mem_iff.mp (by simp : x ∈ x :: t))
        simpa using this
      have hym : y < m.dim ∧ y ≠ v := by
        have := mem_citiesExcept.mp (hperm.mem_iff.mp (by rw [hy]; simp : y ∈ x :: t))
        simpa using this
      have hcost2 : tourCost c (v :: x :: t) = c v x + pathCost c (x :: t) + c v y := by
        rw [tourCost_cons]
        simp only [List.cons_append, pathCost_cons₂]
        have e1 : pathCost c (x :: (t ++ [v])) = pathCost c (l' ++ [y, v]) := by
          rw [← List.cons_append, hy]; simp
        rw [e1, pathCost_snoc, ← hy, hsym y v hym.1 hv, add_assoc]
      rw [hcost2, edgeSum_append]
      have hE1 := h3 _ (spanning_pairs hperm hnd.2 hne)
      have : edgeSum c (pairs (x :: t)) = pathCost c (x :: t) := edgesCost_pairs c _
      rw [this] at hE1
      have hab' : edgeSum c [(v, a), (v, b)] = c v a + c v b := by simp [edgeSum]
      rw [hab']
      have hxy' : c v a + c v b ≤ c v x + c v y := by
        by_cases hxa : x = a
        · subst hxa
          have := h5 y hym.1 hym.2 hxy.symm
          linarith
        · have k1 := h5 x hxm.1 hxm.2 hxa
          have k2 := h4 y hym.1 hym.2
          linarith
      linarith
  · intro hnn
    refine ⟨E ++ [(v, a)], ⟨?_, ?_, ?_⟩, ?_⟩
    · intro e he
      rcases List.mem_append.mp he with he | he
      · obtain ⟨k1, k2, k3⟩ := h2.ends e he
        exact ⟨by simpa using (mem_citiesExcept.mp k1).1, by simpa using (mem_citiesExcept.mp k2).1, k3⟩
      · simp at he; subst he
        exact ⟨by simpa using hv, by simpa using ha, hav.symm⟩
    · have hmono : ∀ x y, Relation.ReflTransGen (Joined E) x y →
          Relation.ReflTransGen (Joined (E ++ [(v, a)])) x y := by
        intro x y h
        refine Relation.ReflTransGen.mono ?_ _ _ h
        rintro x y (h | h)
        · exact Or.inl (by simp [h])
        · exact Or.inr (by simp [h])
      have h0 : ∀ x ∈ List.range m.dim, Relation.ReflTransGen (Joined (E ++ [(v, a)])) x a ∧
          Relation.ReflTransGen (Joined (E ++ [(v, a)])) a x := by
        intro x hx
        have ham : a ∈ citiesExcept m.dim [v] := mem_citiesExcept.mpr ⟨ha, by simpa using hav⟩
        by_cases hxv : x = v
        · subst hxv
          exact ⟨.single (Or.inl (by simp)), .single (Or.inr (by simp))⟩
        · have hxm : x ∈ citiesExcept m.dim [v] :=
            mem_citiesExcept.mpr ⟨by simpa using hx, by simpa using hxv⟩
          exact ⟨hmono _ _ (h2.conn x hxm a ham), hmono _ _ (h2.conn a ham x hxm)⟩
      intro x hx y hy
      exact (h0 x hx).1.trans (h0 y hy).2
    · have h8 := h2.count
      have h9 : (citiesExcept m.dim [v]).length + 1 = m.dim := by
        have := length_citiesExcept_start (n := m.dim) (ex := []) (start := v) hv (by simp)
        have e1 : (citiesExcept m.dim []).length = m.dim := by
          unfold citiesExcept
          rw [List.filter_eq_self.mpr (by simp)]; simp
        have e2 : remaining m.dim [] [v] = citiesExcept m.dim [v] := by
          unfold remaining citiesExcept
          apply List.filter_congr
          intro i _
          simp
        rw [e1, e2] at this
        exact this
      simp
      omega
    · rw [show E ++ [(v, a), (v, b)] = (E ++ [(v, a)]) ++ [(v, b)] by simp, edgeSum_append c (E ++ [(v, a)])]
      have := hnn v b hv hb hbv.symm
      have hb' : edgeSum c [(v, b)] = c v b := by simp [edgeSum]
      rw [hb']
      linarith

end Walky
