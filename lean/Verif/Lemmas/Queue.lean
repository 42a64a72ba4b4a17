import Verif.Lemmas.Tree

/-! # Helper lemmas: Prim with a priority queue -/

set_option linter.unusedSectionVars false

namespace Walky

open FloatOps XNum Spec

variable {K : Type} [Field K] [LinearOrder K] [IsStrictOrderedRing K]

/-- What the priority queue guarantees: `peek` is an entry of smallest cost, `None` if there is
none. -/
structure PeekOk (peek : Nat → List (Nat × XNum K) → Option (Nat × XNum K)) : Prop where
  some_of_ne : ∀ it l, l ≠ [] → ∃ x, peek it l = some x
  mem : ∀ it l x, peek it l = some x → x ∈ l
  min : ∀ it l x, peek it l = some x → ∀ y ∈ l, olt y.2 x.2 = false

/-- entries of the queue: the vertices in `L` with their cheapest edge to the tree `S` -/
structure QEnt (n : Nat) (ex : List Nat) (c : Nat → Nat → K) (S : List Nat)
    (q : List (Nat × XNum K)) : Prop where
  keys : (q.map Prod.fst).Nodup
  mem : ∀ j, j ∈ q.map Prod.fst ↔ j = n ∨ (j < n ∧ j ∉ ex ∧ j ∉ S)
  last : ∀ x, (n, x) ∈ q → x = XNum.inf
  val : ∀ j x, (j, x) ∈ q → j < n → ∃ u ∈ S, x = fin (c u j) ∧ ∀ i ∈ S, c u j ≤ c i j

/-- invariant of the queue implementation -/
structure QInv (n : Nat) (ex : List Nat) (c : Nat → Nat → K) (S : List Nat)
    (s : PQ (XNum K)) : Prop where
  ent : QEnt n ex c S s.queue
  clen : s.conn.length = n + 1
  conn : ∀ j, j < n → j ∉ ex → j ∉ S → ∃ w, s.conn[j]? = some w ∧ w < n
  ulen : s.used.length = n + 1
  used : ∀ j, j < n → s.used[j]? = some (decide (j ∈ ex ∨ j ∈ S))

theorem lookup_of_mem {β : Type} {q : List (Nat × β)} (hnd : (q.map Prod.fst).Nodup) {j : Nat}
    {x : β} (h : (j, x) ∈ q) : q.lookup j = some x := by
  induction q with
  | nil => simp at h
  | cons a t ih =>
    obtain ⟨k, y⟩ := a
    simp only [List.map_cons, List.nodup_cons] at hnd
    rcases List.mem_cons.mp h with h | h
    · cases h; simp [List.lookup]
    · have hk : j ≠ k := by
        intro hjk
        exact hnd.1 (List.mem_map.mpr ⟨(j, x), by assumption, hjk⟩)
      rw [List.lookup_cons]
      have : (j == k) = false := by simpa using hk
      rw [this]
      exact ih hnd.2 h

theorem map_set_fst {β : Type} (q : List (Nat × β)) (j : Nat) (y : β) :
    (q.map fun x => if x.1 = j then (j, y) else x).map Prod.fst = q.map Prod.fst := by
  rw [List.map_map]
  apply List.map_congr_left
  intro x _
  simp only [Function.comp]
  split
  · rename_i h; exact h.symm
  · rfl

theorem mem_map_set {β : Type} {q : List (Nat × β)} {j k : Nat} {x y : β}
    (h : (k, x) ∈ q.map fun x => if x.1 = j then (j, y) else x) :
    (k = j ∧ x = y) ∨ (k ≠ j ∧ (k, x) ∈ q) := by
  obtain ⟨⟨k', x'⟩, hm, he⟩ := List.mem_map.mp h
  simp only at he
  split at he
  · cases he; exact Or.inl ⟨rfl, rfl⟩
  · rename_i hk; cases he; exact Or.inr ⟨hk, hm⟩

/-- partial update: entries in `done` know about the new tree vertex `v` -/
structure UInv (n : Nat) (ex : List Nat) (c : Nat → Nat → K) (S : List Nat) (v : Nat)
    (done : List Nat) (s : PQ (XNum K)) : Prop where
  keys : (s.queue.map Prod.fst).Nodup
  mem : ∀ j, j ∈ s.queue.map Prod.fst ↔ j = n ∨ (j < n ∧ j ∉ ex ∧ j ∉ v :: S)
  last : ∀ x, (n, x) ∈ s.queue → x = XNum.inf
  val : ∀ j x, (j, x) ∈ s.queue → j < n →
    (j ∈ done → ∃ u ∈ v :: S, x = fin (c u j) ∧ ∀ i ∈ v :: S, c u j ≤ c i j) ∧
    (j ∉ done → (S = [] ∧ x = XNum.inf) ∨ ∃ u ∈ S, x = fin (c u j) ∧ ∀ i ∈ S, c u j ≤ c i j)
  clen : s.conn.length = n + 1
  conn : ∀ j, j < n → j ∉ ex → j ∉ v :: S →
    (j ∈ done ∨ S ≠ []) → ∃ w, s.conn[j]? = some w ∧ w < n
  ulen : s.used.length = n + 1
  used : ∀ j, j < n → s.used[j]? = some (decide (j ∈ ex ∨ j ∈ v :: S))

theorem UInv.relax {m : Mat (XNum K)} {ex : List Nat} {c : Nat → Nat → K} (hm : Rep m c)
    {S : List Nat} {v : Nat} (hv : v < m.dim) {done : List Nat} {s : PQ (XNum K)}
    (h : UInv m.dim ex c S v done s) {j : Nat} (hj : j < m.dim) (hjd : j ∉ done) :
    ∃ s', PQ.relax v (m.get v) s j = .ok s' ∧ UInv m.dim ex c S v (done ++ [j]) s' := by
  unfold PQ.relax
  rw [idx_ok (h.used j hj)]
  simp only [rm_bind_ok]
  by_cases hu : j ∈ ex ∨ j ∈ v :: S
  · have hnk : j ∉ s.queue.map Prod.fst := by
      rw [h.mem j]
      rintro (h1 | h1)
      · omega
      · rcases hu with h2 | h2
        · exact h1.2.1 h2
        · exact h1.2.2 h2
    simp only [hu, decide_true, if_true]
    refine ⟨s, rfl, h.keys, h.mem, h.last, ?_, h.clen, ?_, h.ulen, h.used⟩
    · intro k x hk hkn
      have hkj : k ≠ j := by
        rintro rfl
        exact hnk (List.mem_map.mpr ⟨_, hk, rfl⟩)
      obtain ⟨a, b⟩ := h.val k x hk hkn
      exact ⟨fun hd => a (by simpa [hkj] using hd), fun hd => b (by simpa [hkj] using hd)⟩
    · intro k hk1 hk2 hk3 hk4
      have hkj : k ≠ j := by
        rintro rfl
        rcases hu with h2 | h2
        · exact hk2 h2
        · exact hk3 h2
      exact h.conn k hk1 hk2 hk3 (by simpa [hkj] using hk4)
  · have hjk : j ∈ s.queue.map Prod.fst := by
      rw [h.mem j]; right
      push Not at hu
      exact ⟨hj, hu.1, hu.2⟩
    obtain ⟨⟨j', p⟩, hp, hjj⟩ := List.mem_map.mp hjk
    simp only at hjj
    subst hjj
    simp only [hu, decide_false, Bool.false_eq_true, if_false, lookup_of_mem h.keys hp]
    have hvj : v ≠ j' := by
      rintro rfl
      exact hu (Or.inr (by simp))
    have hrow : m.get v j' = fin (c v j') := hm.off v j' hv hj hvj
    rw [hrow]
    have hold := (h.val j' p hp hj).2 hjd
    -- the new priority
    have hq : ∃ q', (if olt (fin (c v j')) p = true then
        s.queue.map (fun x => if x.1 = j' then (j', fin (c v j')) else x) else s.queue) = q' ∧
        q'.map Prod.fst = s.queue.map Prod.fst ∧
        (∀ k x, (k, x) ∈ q' → k ≠ j' → (k, x) ∈ s.queue) ∧
        (∀ x, (j', x) ∈ q' → ∃ u ∈ v :: S, x = fin (c u j') ∧ ∀ i ∈ v :: S, c u j' ≤ c i j') := by
      refine ⟨_, rfl, ?_, ?_, ?_⟩
      · split
        · exact map_set_fst _ _ _
        · rfl
      · intro k x hk hkj
        split at hk
        · rcases mem_map_set hk with ⟨h1, _⟩ | ⟨_, h1⟩
          · exact absurd h1 hkj
          · exact h1
        · exact hk
      · intro x hx
        rcases hold with ⟨hS, rfl⟩ | ⟨u, hu1, rfl, hu3⟩
        · simp only [olt_fin_inf, if_true] at hx
          rcases mem_map_set hx with ⟨_, rfl⟩ | ⟨h1, _⟩
          · exact ⟨v, by simp, rfl, by intro i hi; simp [hS] at hi; rw [hi]⟩
          · exact absurd rfl h1
        · by_cases hlt : c v j' < c u j'
          · simp only [olt_fin, hlt, decide_true, if_true] at hx
            rcases mem_map_set hx with ⟨_, rfl⟩ | ⟨h1, _⟩
            · refine ⟨v, by simp, rfl, ?_⟩
              intro i hi
              rcases List.mem_cons.mp hi with h1 | h1
              · rw [h1]
              · exact hlt.le.trans (hu3 i h1)
            · exact absurd rfl h1
          · simp only [olt_fin, hlt, decide_false, Bool.false_eq_true, if_false] at hx
            have e1 := lookup_of_mem h.keys hx
            rw [lookup_of_mem h.keys hp] at e1
            cases e1
            refine ⟨u, by simp [hu1], rfl, ?_⟩
            intro i hi
            rcases List.mem_cons.mp hi with h1 | h1
            · rw [h1]; exact not_lt.mp hlt
            · exact hu3 i h1
    obtain ⟨q', hq', k1, k2, k3⟩ := hq
    rw [hq']
    have hle : FloatOps.le (fin (c v j')) (if olt (fin (c v j')) p = true then p
        else fin (c v j')) = true := by
      rcases hold with ⟨hS, rfl⟩ | ⟨u, hu1, rfl, hu3⟩
      · simp
      · by_cases hlt : c v j' < c u j'
        · simp [hlt, hlt.le]
        · simp [hlt]
    rw [if_pos hle, if_pos (by rw [h.clen]; omega)]
    refine ⟨_, rfl, ?_, ?_, ?_, ?_, ?_, ?_, h.ulen, h.used⟩
    · rw [k1]; exact h.keys
    · intro k; rw [k1]; exact h.mem k
    · intro x hx
      exact h.last x (k2 _ _ hx (by omega))
    · intro k x hk hkn
      by_cases hkj : k = j'
      · subst hkj
        exact ⟨fun _ => k3 x hk, fun h0 => absurd (by simp) h0⟩
      · obtain ⟨a, b⟩ := h.val k x (k2 _ _ hk hkj) hkn
        exact ⟨fun hd => a (by simpa [hkj] using hd), fun hd => b (by simpa [hkj] using hd)⟩
    · simp [h.clen]
    · intro k hk1 hk2 hk3 hk4
      by_cases hkj : k = j'
      · subst hkj
        refine ⟨v, ?_, hv⟩
        simp only
        rw [List.getElem?_set_self (by rw [h.clen]; omega)]
      · obtain ⟨w, hw, hw2⟩ := h.conn k hk1 hk2 hk3 (by simpa [hkj] using hk4)
        refine ⟨w, ?_, hw2⟩
        simp only
        rw [List.getElem?_set_ne (fun h => hkj h.symm)]
        exact hw

theorem UInv.update {m : Mat (XNum K)} {ex : List Nat} {c : Nat → Nat → K} (hm : Rep m c)
    {S : List Nat} {v : Nat} (hv : v < m.dim) {s : PQ (XNum K)}
    (h : UInv m.dim ex c S v [] s) :
    ∃ s', (List.range m.dim).foldlM (PQ.relax v (m.get v)) s = .ok s' ∧
      QInv m.dim ex c (v :: S) s' := by
  have key := foldlM_ok (PQ.relax v (m.get v)) (fun done s => UInv m.dim ex c S v done s)
    (List.range m.dim) s h (by
      intro done i rest b hl hb
      have hi : i ∈ List.range m.dim := by rw [hl]; simp
      have hnd : (List.range m.dim).Nodup := List.nodup_range
      rw [hl, List.nodup_append] at hnd
      refine hb.relax hm hv (by simpa using hi) ?_
      intro hd
      exact hnd.2.2 i hd i (by simp) rfl)
  obtain ⟨s', h1, h2⟩ := key
  refine ⟨s', h1, ⟨h2.keys, h2.mem, h2.last, ?_⟩, h2.clen, ?_, h2.ulen, h2.used⟩
  · intro j x hj hjn
    exact (h2.val j x hj hjn).1 (by simpa using hjn)
  · intro j a b d
    exact h2.conn j a b d (Or.inl (by simpa using a))

theorem QInv.mark {n : Nat} {ex : List Nat} {c : Nat → Nat → K} {S : List Nat}
    {s : PQ (XNum K)} (h : QInv n ex c S s) {v : Nat} (hv : v < n) :
    UInv n ex c S v [] { s with queue := s.queue.filter (fun x => x.1 ≠ v), used := s.used.set v true } := by
  have hsub : ∀ x, x ∈ s.queue.filter (fun x => x.1 ≠ v) → x ∈ s.queue ∧ x.1 ≠ v := by
    intro x hx
    simpa using hx
  refine ⟨?_, ?_, ?_, ?_, h.clen, ?_, by simp [h.ulen], ?_⟩
  · exact h.ent.keys.sublist (List.filter_sublist.map _)
  · intro j
    constructor
    · intro hj
      obtain ⟨x, hx, rfl⟩ := List.mem_map.mp hj
      obtain ⟨h1, h2⟩ := hsub x hx
      rcases (h.ent.mem x.1).mp (List.mem_map.mpr ⟨x, h1, rfl⟩) with h3 | h3
      · exact Or.inl h3
      · exact Or.inr ⟨h3.1, h3.2.1, by simp [h2, h3.2.2]⟩
    · intro hj
      have : j = n ∨ (j < n ∧ j ∉ ex ∧ j ∉ S) := by
        rcases hj with h1 | ⟨h1, h2, h3⟩
        · exact Or.inl h1
        · exact Or.inr ⟨h1, h2, fun h => h3 (by simp [h])⟩
      obtain ⟨x, hx, rfl⟩ := List.mem_map.mp ((h.ent.mem j).mpr this)
      refine List.mem_map.mpr ⟨x, ?_, rfl⟩
      simp only [List.mem_filter, hx, true_and, decide_eq_true_eq]
      rcases hj with h1 | ⟨h1, h2, h3⟩
      · omega
      · exact fun h => h3 (by simp [h])
  · intro x hx
    exact h.ent.last x (hsub _ hx).1
  · intro j x hj hjn
    refine ⟨fun h0 => by simp at h0, fun _ => Or.inr (h.ent.val j x (hsub _ hj).1 hjn)⟩
  · intro j a b d _
    exact h.conn j a b (fun h0 => d (by simp [h0]))
  · intro j hj
    by_cases hvj : v = j
    · subst hvj
      simp only
      rw [List.getElem?_set_self (by rw [h.ulen]; omega)]
      simp
    · have : j ≠ v := fun h => hvj h.symm
      simp only
      rw [List.getElem?_set_ne hvj, h.used j hj]
      simp [this]

/-- the loop of the queue variant is a run of Prim, and the weight of the graph counts its edges -/
theorem queueLoop {m : Mat (XNum K)} {ex : List Nat} {c : Nat → Nat → K} (hm : Rep m c)
    {peek : Nat → List (Nat × XNum K) → Option (Nat × XNum K)} (hpk : PeekOk peek)
    (start : Nat) :
    ∀ (k it : Nat) (S : List Nat) (s : PQ (XNum K)) (adj : Graph (XNum K)),
      QInv m.dim ex c S s → start ∈ S → adj.length = m.dim + 1 → adj[m.dim]? = some [] → FinG adj →
      (remaining m.dim ex S).length ≤ k →
      ∃ adj' P, primLoop (pqOps peek) m start k it s adj = .ok adj' ∧
        PrimRun c (fun j => j < m.dim ∧ j ∉ ex) S P ∧ adj'.length = m.dim + 1 ∧
        adj'[m.dim]? = some [] ∧ FinG adj' ∧
        wsum adj' = wsum adj + 2 * (P.map fun p => c p.2 p.1).sum := by
  intro k
  induction k with
  | zero =>
    intro it S s adj hI hsS hlen hlast hfin hk
    refine ⟨adj, [], rfl, ?_, hlen, hlast, hfin, by simp⟩
    apply PrimRun.nil
    intro j hj
    by_contra hjS
    have : j ∈ remaining m.dim ex S := mem_remaining.mpr ⟨hj.1, hj.2, hjS⟩
    have h0 : remaining m.dim ex S = [] := List.length_eq_zero_iff.mp (by omega)
    rw [h0] at this
    simp at this
  | succ k ih =>
    intro it S s adj hI hsS hlen hlast hfin hk
    have hne : s.queue ≠ [] := by
      intro h0
      have := (hI.ent.mem m.dim).mpr (Or.inl rfl)
      rw [h0] at this
      simp at this
    obtain ⟨⟨v, p⟩, hpe⟩ := hpk.some_of_ne it _ hne
    have hmem := hpk.mem _ _ _ hpe
    have hmin := hpk.min _ _ _ hpe
    unfold primLoop
    simp only [pqOps, hpe, Option.getD_some]
    have hent : ∀ j, j < m.dim → j ∉ ex → j ∉ S → ∃ u ∈ S, (j, fin (c u j)) ∈ s.queue ∧
        ∀ i ∈ S, c u j ≤ c i j := by
      intro j h1 h2 h3
      obtain ⟨⟨j', x⟩, hx, hj'⟩ := List.mem_map.mp ((hI.ent.mem j).mpr (Or.inr ⟨h1, h2, h3⟩))
      simp only at hj'
      subst hj'
      obtain ⟨u, hu, rfl, hu2⟩ := hI.ent.val _ _ hx h1
      exact ⟨u, hu, hx, hu2⟩
    rcases (hI.ent.mem v).mp (List.mem_map.mpr ⟨_, hmem, rfl⟩) with hvn | ⟨hvn, hvex, hvS⟩
    · subst hvn
      have hp := hI.ent.last p hmem
      subst hp
      obtain ⟨t, ht⟩ : ∃ t, s.conn[m.dim]? = some t :=
        ⟨_, List.getElem?_eq_getElem (by rw [hI.clen]; omega)⟩
      rw [idx_ok ht]
      simp only [rm_bind_ok, rm_pure, inf_def, eq_inf_inf, if_true]
      refine ⟨adj, [], rfl, ?_, hlen, hlast, hfin, by simp⟩
      apply PrimRun.nil
      intro j hj
      by_contra hjS
      obtain ⟨u, _, hu, _⟩ := hent j hj.1 hj.2 hjS
      have := hmin _ hu
      simp at this
    · obtain ⟨u, hu, rfl, hu2⟩ := hI.ent.val _ _ hmem hvn
      obtain ⟨w, hw, hwn⟩ := hI.conn v hvn hvex hvS
      rw [idx_ok hw]
      simp only [rm_bind_ok, rm_pure, inf_def, eq_fin_inf, Bool.false_eq_true, if_false]
      rw [if_pos (by rw [hI.ulen]; omega)]
      simp only [rm_bind_ok]
      have hvs : v ≠ start := fun h => hvS (h ▸ hsS)
      have hpush : primPush start adj v (⟨w, fin (c u v)⟩ : Edge (XNum K)) =
          .ok ((adj.modify v (· ++ [⟨w, fin (c u v)⟩])).modify w (· ++ [⟨v, fin (c u v)⟩])) := by
        unfold primPush Graph.pushEdge
        rw [if_pos hvs, if_pos (by omega)]
        simp only [rm_bind_ok]
        rw [if_pos (by simp; omega)]
      rw [hpush]
      simp only [rm_bind_ok, hvn, if_true]
      obtain ⟨s', hs', hI'⟩ := (hI.mark hvn).update hm hvn
      rw [hs']
      simp only [rm_bind_ok]
      obtain ⟨adj', P, e1, e2, e3, e4, e5, e6⟩ := ih (it + 1) (v :: S) s'
        ((adj.modify v (· ++ [⟨w, fin (c u v)⟩])).modify w (· ++ [⟨v, fin (c u v)⟩])) hI'
        (by simp [hsS]) (by simp [hlen]) (by
          rw [List.getElem?_modify, List.getElem?_modify, hlast]
          simp [Nat.ne_of_lt hvn, Nat.ne_of_lt hwn])
        ((hfin.modify _ rfl).modify _ rfl) (by
          have := remaining_length_cons hvn hvex hvS; omega)
      refine ⟨adj', (v, u) :: P, e1, PrimRun.cons hu ⟨hvn, hvex⟩ hvS ?_ e2, e3, e4, e5, ?_⟩
      · intro i j hi hj hjS
        obtain ⟨u', hu', hq', hu2'⟩ := hent j hj.1 hj.2 hjS
        have := hmin _ hq'
        simp only [olt_fin, decide_eq_false_iff_not, not_lt] at this
        exact this.trans (hu2' i hi)
      · rw [e6, wsum_modify _ _ _ (by simp; omega), wsum_modify _ _ _ (by omega)]
        simp only [toK, List.map_cons, List.sum_cons]
        ring

/-- state before the loop, the vertices `done` are already excluded -/
structure IInv (n start : Nat) (done : List Nat) (s : PQ (XNum K)) : Prop where
  keys : (s.queue.map Prod.fst).Nodup
  mem : ∀ j, j ∈ s.queue.map Prod.fst ↔ j ≤ n ∧ j ∉ done
  val : ∀ j x, (j, x) ∈ s.queue → x = if j = start then fin 0 else XNum.inf
  clen : s.conn.length = n + 1
  conn : s.conn[start]? = some start
  ulen : s.used.length = n + 1
  used : ∀ j, j < n → s.used[j]? = some (decide (j ∈ done))

theorem iinv_excluded {n start : Nat} {ex : List Nat} (hex : ∀ v ∈ ex, v < n)
    {peek : Nat → List (Nat × XNum K) → Option (Nat × XNum K)} {s : PQ (XNum K)}
    (h : IInv n start [] s) :
    ∃ s', ex.foldlM (fun d v => (pqOps peek).markUsed d v) s = .ok s' ∧ IInv n start ex s' := by
  refine foldlM_ok _ (fun done s => IInv n start done s) ex s h ?_
  intro done i rest s hl h
  have hi : i < n := hex i (by rw [hl]; simp)
  simp only [pqOps]
  rw [if_pos (by rw [h.ulen]; omega)]
  refine ⟨_, rfl, ?_, ?_, ?_, h.clen, h.conn, by simp [h.ulen], ?_⟩
  · exact h.keys.sublist (List.filter_sublist.map _)
  · intro j
    constructor
    · intro hj
      obtain ⟨x, hx, rfl⟩ := List.mem_map.mp hj
      have hx : x ∈ s.queue ∧ x.1 ≠ i := by simpa using hx
      obtain ⟨a, b⟩ := (h.mem x.1).mp (List.mem_map.mpr ⟨x, hx.1, rfl⟩)
      exact ⟨a, by simp [b, hx.2]⟩
    · rintro ⟨h1, h2⟩
      simp only [List.mem_append, List.mem_singleton, not_or] at h2
      obtain ⟨x, hx, rfl⟩ := List.mem_map.mp ((h.mem j).mpr ⟨h1, h2.1⟩)
      exact List.mem_map.mpr ⟨x, by simp [hx, h2.2], rfl⟩
  · intro j x hx
    have hx : (j, x) ∈ s.queue ∧ j ≠ i := by simpa using hx
    exact h.val j x hx.1
  · intro j hj
    simp only
    by_cases hij : i = j
    · subst hij
      rw [List.getElem?_set_self (by rw [h.ulen]; omega)]
      simp
    · have : j ≠ i := fun h => hij h.symm
      rw [List.getElem?_set_ne hij, h.used j hj]
      simp [this]

/-- the graph of the queue variant -/
theorem primQueue_exact {m : Mat (XNum K)} {c : Nat → Nat → K} (hm : Rep m c)
    {peek : Nat → List (Nat × XNum K) → Option (Nat × XNum K)} (hpk : PeekOk peek)
    (ex : List Nat) (hex : ∀ v ∈ ex, v < m.dim) :
    ((∀ i < m.dim, i ∈ ex) ∧ primQueue peek m ex = .ok []) ∨
    ∃ start P g, start < m.dim ∧ start ∉ ex ∧
      PrimRun c (fun j => j < m.dim ∧ j ∉ ex) [start] P ∧
      primQueue peek m ex = .ok g ∧ g.length = m.dim ∧
      g.undirectedEdgeWeight = fin (edgeSum c (P.map Prod.swap)) := by
  obtain ⟨s, hs, hs1, hs2⟩ := firstNotExcluded_ok ex
  unfold primQueue primGeneric
  simp only [hs, rm_bind_ok]
  by_cases hn : m.dim ≤ s
  · left
    exact ⟨fun i hi => hs2 i (by omega), by simp [hn]⟩
  · right
    have hsn : s < m.dim := by omega
    simp only [hn, if_false]
    have hset : ∃ s0, (pqOps peek).setCost ((pqOps peek).fromDefault ⟨m.dim, FloatOps.inf⟩ (m.dim + 1)) s
        ⟨s, FloatOps.zero⟩ = .ok s0 ∧ IInv m.dim s [] s0 := by
      simp only [pqOps, List.length_replicate]
      rw [if_pos (by omega)]
      refine ⟨_, rfl, ?_, ?_, ?_, by simp, ?_, by simp, ?_⟩
      · rw [map_set_fst]
        simp [Function.comp_def, List.nodup_range]
      · intro j
        rw [map_set_fst]
        simp [Function.comp_def, Nat.lt_succ_iff]
      · intro j x hx
        rcases mem_map_set hx with ⟨h1, h2⟩ | ⟨h1, h2⟩
        · rw [h2, h1]; simp
        · rw [if_neg h1]
          obtain ⟨i, _, hi⟩ := List.mem_map.mp h2
          cases hi; rfl
      · simp only
        rw [List.getElem?_set_self (by simp; omega)]
      · intro j hj
        simp only [List.getElem?_replicate]
        rw [if_pos (by omega)]
        simp
    obtain ⟨s0, h0, hI0⟩ := hset
    rw [h0]
    simp only [rm_bind_ok]
    obtain ⟨s1, h1, hI1⟩ := iinv_excluded (peek := peek) hex hI0
    rw [h1]
    simp only [rm_bind_ok]
    -- first iteration
    have hstart : (s, fin (0 : K)) ∈ s1.queue := by
      obtain ⟨⟨j, x⟩, hx, hj⟩ := List.mem_map.mp ((hI1.mem s).mpr ⟨by omega, hs1⟩)
      simp only at hj
      subst hj
      have := hI1.val _ _ hx
      rw [if_pos rfl] at this
      rw [← this]; exact hx
    obtain ⟨⟨v, p⟩, hpe⟩ := hpk.some_of_ne 0 s1.queue (by rintro h; rw [h] at hstart; simp at hstart)
    have hvs : v = s ∧ p = fin 0 := by
      have hv := hI1.val _ _ (hpk.mem _ _ _ hpe)
      have hmin := hpk.min _ _ _ hpe _ hstart
      by_cases hvs : v = s
      · rw [if_pos hvs] at hv; exact ⟨hvs, hv⟩
      · rw [if_neg hvs] at hv
        simp [hv] at hmin
    obtain ⟨rfl, rfl⟩ := hvs
    unfold primLoop
    have hfind : (pqOps peek).find 0 s1 = .ok (v, ⟨v, fin 0⟩) := by
      simp only [pqOps, hpe, Option.getD_some]
      rw [idx_ok hI1.conn]
      rfl
    rw [hfind]
    have hmark : (pqOps peek).markUsed s1 v = .ok
        { s1 with queue := s1.queue.filter (fun x => x.1 ≠ v), used := s1.used.set v true } := by
      simp only [pqOps]
      rw [if_pos (by rw [hI1.ulen]; omega)]
    simp only [rm_bind_ok, inf_def, eq_fin_inf, Bool.false_eq_true, if_false]
    rw [hmark]
    have hpush : ∀ adj : Graph (XNum K), primPush v adj v (⟨v, fin 0⟩ : Edge (XNum K)) = .ok adj := by
      intro adj; simp [primPush]
    simp only [rm_bind_ok, hpush, hsn, if_true]
    have hU : UInv m.dim ex c [] v [] 
        ({ s1 with queue := s1.queue.filter (fun x => x.1 ≠ v), used := s1.used.set v true } :
          PQ (XNum K)) := by
      have hsub : ∀ x, x ∈ s1.queue.filter (fun x => x.1 ≠ v) → x ∈ s1.queue ∧ x.1 ≠ v := by
        intro x hx; simpa using hx
      refine ⟨?_, ?_, ?_, ?_, hI1.clen, ?_, by simp [hI1.ulen], ?_⟩
      · exact hI1.keys.sublist (List.filter_sublist.map _)
      · intro j
        have hnex : m.dim ∉ ex := fun h => lt_irrefl _ (hex _ h)
        constructor
        · intro hj
          obtain ⟨x, hx, rfl⟩ := List.mem_map.mp hj
          obtain ⟨a, b⟩ := hsub x hx
          obtain ⟨a1, a2⟩ := (hI1.mem x.1).mp (List.mem_map.mpr ⟨x, a, rfl⟩)
          rcases Nat.lt_or_eq_of_le a1 with h | h
          · exact Or.inr ⟨h, a2, by simpa using b⟩
          · exact Or.inl h
        · intro hj
          have : j ≤ m.dim ∧ j ∉ ex ∧ j ≠ v := by
            rcases hj with h | ⟨h1, h2, h3⟩
            · rw [h]; exact ⟨le_rfl, hnex, by omega⟩
            · exact ⟨h1.le, h2, by simpa using h3⟩
          obtain ⟨x, hx, rfl⟩ := List.mem_map.mp ((hI1.mem j).mpr ⟨this.1, this.2.1⟩)
          exact List.mem_map.mpr ⟨x, by simp [hx, this.2.2], rfl⟩
      · intro x hx
        have := hI1.val _ _ (hsub _ hx).1
        rwa [if_neg (by omega)] at this
      · intro j x hx hj
        refine ⟨fun h => by simp at h, fun _ => Or.inl ⟨rfl, ?_⟩⟩
        have := hI1.val _ _ (hsub _ hx).1
        rwa [if_neg (hsub _ hx).2] at this
      · intro j _ _ _ h
        simp at h
      · intro j hj
        simp only
        by_cases hvj : v = j
        · subst hvj
          rw [List.getElem?_set_self (by rw [hI1.ulen]; omega)]
          simp
        · have : j ≠ v := fun h => hvj h.symm
          rw [List.getElem?_set_ne hvj, hI1.used j hj]
          simp [this]
    obtain ⟨s2, h2, hI2⟩ := hU.update hm hsn
    have hupd : (pqOps peek).update 0 { s1 with queue := s1.queue.filter (fun x => x.1 ≠ v), used := s1.used.set v true } v
        (m.get v) m.dim = .ok s2 := h2
    rw [hupd]
    simp only [rm_bind_ok]
    have hrem : (remaining m.dim ex [v]).length ≤ m.dim := by
      have := List.length_filter_le (fun j => decide (j ∉ ex ∧ j ∉ [v])) (List.range m.dim)
      simpa [remaining] using this
    have hfin0 : FinG (List.replicate (m.dim + 1) ([] : List (Edge (XNum K)))) :=
      finG_treeGraph (fun _ _ => 0) (m.dim + 1) []
    obtain ⟨adj', P, e1, e2, e3, e4, e5, e6⟩ := queueLoop hm hpk v m.dim (0 + 1) [v] s2
      (List.replicate (m.dim + 1) []) hI2 (by simp) (by simp) (by simp) hfin0 hrem
    refine ⟨v, P, adj'.dropLast, hsn, hs1, e2, by rw [e1]; rfl, by simp [e3], ?_⟩
    have hsplit : adj' = adj'.dropLast ++ [[]] := by
      have hne : adj' ≠ [] := by rintro rfl; simp at e3
      have hl : adj'.getLast hne = [] := by
        have := List.getLast?_eq_some_getLast hne
        rw [List.getLast?_eq_getElem?, e3] at this
        simp only [Nat.add_sub_cancel] at this
        rw [e4] at this
        simpa using this.symm
      conv_lhs => rw [← List.dropLast_append_getLast hne, hl]
    have hw : wsum adj' = wsum adj'.dropLast := by
      conv_lhs => rw [hsplit]
      simp [wsum]
    have hw0 : wsum (List.replicate (m.dim + 1) ([] : List (Edge (XNum K)))) = 0 := by
      simp [wsum]
    unfold Graph.undirectedEdgeWeight
    rw [directedEdgeWeight_fin _ (fun w hw => e5 w (List.mem_of_mem_dropLast hw)), ← hw, e6, hw0,
      edgeSum_swap]
    simp

end Walky
