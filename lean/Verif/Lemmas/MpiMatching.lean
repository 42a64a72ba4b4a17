import Verif.Lemmas.MpiProg
import Verif.Lemmas.Matching

/-! # Lemmas for the rank-by-rank MPI matching -/

namespace Walky

open FloatOps

variable {α R : Type} [FloatOps α]

/-! ## Lengths -/

theorem improvePairs_len {m : Mat α} : ∀ (l r : List (Nat × Nat)), improvePairs m l = .ok r →
    r.length = l.length
  | [], r, h => by rw [← Except.ok.inj h]
  | [_], r, h => by rw [← Except.ok.inj h]
  | a :: b :: t, r, h => by
    unfold improvePairs at h
    cases h1 : optimizeTwo m a b with
    | error => rw [h1] at h; cases h
    | ok x =>
      rw [h1] at h
      simp only [rm_bind_ok] at h
      cases h2 : improvePairs m t with
      | error => rw [h2] at h; cases h
      | ok t' =>
        rw [h2] at h
        rw [← Except.ok.inj h]
        simp [improvePairs_len t t' h2]

theorem improveMatching_len {m : Mat α} {shuf : Nat → List (Nat × Nat) → List (Nat × Nat)}
    (hs : ∀ k l, (shuf k l).Perm l) {tries : Nat} {l r : List (Nat × Nat)}
    (h : improveMatching m shuf tries l = .ok r) : r.length = l.length := by
  unfold improveMatching at h
  split at h
  · rw [← Except.ok.inj h]
  · generalize List.range tries = ks at h
    rename_i hl
    clear hl
    induction ks generalizing l with
    | nil => rw [← Except.ok.inj h]
    | cons k ks ih =>
      rw [List.foldlM_cons] at h
      cases hq : improvePairs m (shuf k l) with
      | error => rw [hq] at h; cases h
      | ok l' =>
        rw [hq] at h
        rw [ih h, improvePairs_len _ _ hq, (hs k l).length_eq]

/-! ## The matrix survives the broadcast -/

theorem flatMap_length {β : Type} (f : Nat → Nat → β) (d : Nat) : ∀ (js : List Nat),
    (js.flatMap fun j => (List.range d).map fun i => f i j).length = js.length * d
  | [] => by simp
  | j :: js => by
    rw [List.flatMap_cons, List.length_append, flatMap_length f d js]
    simp
    ring

theorem flatMap_get {β : Type} (f : Nat → Nat → β) (d : Nat) {i : Nat} (hi : i < d) :
    ∀ (js : List Nat) (k j : Nat), js[k]? = some j →
    (js.flatMap fun j => (List.range d).map fun i => f i j)[k * d + i]? = some (f i j)
  | [], k, j, h => by simp at h
  | a :: js, 0, j, h => by
    simp only [List.getElem?_cons_zero, Option.some.injEq] at h
    subst h
    rw [List.flatMap_cons, List.getElem?_append_left (by simp; omega)]
    simp [hi]
  | a :: js, k + 1, j, h => by
    simp only [List.getElem?_cons_succ] at h
    rw [List.flatMap_cons, List.getElem?_append_right (by simp; nlinarith)]
    have : (k + 1) * d + i - ((List.range d).map fun i => f i a).length = k * d + i := by
      simp only [List.length_map, List.length_range]
      rw [Nat.succ_mul]
      omega
    rw [this]
    exact flatMap_get f d hi js k j h

omit [FloatOps α] in
theorem matToVec_length (m : Mat α) : (matToVec m).length = m.dim * m.dim := by
  unfold matToVec
  rw [flatMap_length]
  simp

theorem entry_broadcast (m : Mat α) (i j : Nat) :
    (matOfVec m.dim (matToVec m)).entry i j = m.entry i j := by
  unfold Mat.entry
  have hd : (matOfVec m.dim (matToVec m)).dim = m.dim := rfl
  rw [hd]
  by_cases h : i < m.dim ∧ j < m.dim
  · rw [if_pos h, if_pos h]
    have : (matOfVec m.dim (matToVec m)).get i j = m.get i j := by
      show ((matToVec m)[j * m.dim + i]?).getD inf = _
      unfold matToVec
      rw [flatMap_get (fun i j => m.get i j) m.dim h.1 (List.range m.dim) j j (by simp [h.2])]
      rfl
    rw [this]
  · rw [if_neg h, if_neg h]

section
variable {m m' : Mat α} (h : ∀ i j, m'.entry i j = m.entry i j)
include h

theorem optimizeTwo_entry (a b : Nat × Nat) : optimizeTwo m' a b = optimizeTwo m a b := by
  unfold optimizeTwo
  simp only [h]

theorem improvePairs_entry : ∀ (l : List (Nat × Nat)), improvePairs m' l = improvePairs m l
  | [] => rfl
  | [_] => rfl
  | a :: b :: t => by
    unfold improvePairs
    rw [optimizeTwo_entry h, improvePairs_entry t]

theorem improveMatching_entry (shuf : Nat → List (Nat × Nat) → List (Nat × Nat)) (tries : Nat)
    (l : List (Nat × Nat)) : improveMatching m' shuf tries l = improveMatching m shuf tries l := by
  unfold improveMatching
  simp only [improvePairs_entry h]

theorem matchingCost_entry (l : List (Nat × Nat)) : matchingCost m' l = matchingCost m l := by
  unfold matchingCost
  simp only [h]

theorem improveProg_entry (size rank : Nat) (shuf : Nat → List (Nat × Nat) → List (Nat × Nat))
    (tries : Nat) (l : List (Nat × Nat)) :
    improveProg size rank shuf tries l m' = improveProg size rank shuf tries l m := by
  unfold improveProg
  simp only [improveMatching_entry h, matchingCost_entry h]

end

/-! ## Bootstrap -/

/-- All ranks are at a broadcast from the root, into buffers of the same length. -/
theorem reach_bcast {V : Type} {w : World V} (h0 : 0 < w.size) {s : Nat → Rank V R} {buf : Nat → List V}
    {next : Nat → List V → Prog V R} {L : Nat}
    (h : ∀ r < w.size, (s r).prog = .coll (.bcast 0) (buf r) (next r) ∧ (s r).inside = false ∧
      (s r).colls.length = L) (hb : ∀ r < w.size, (buf 0).length = (buf r).length) :
    ∃ t, w.Reach s t ∧ ∀ r < w.size, (t r).prog = next r (buf 0) ∧
      (t r).inside = false ∧ (t r).colls.length = L + 1 ∧ (t r).sent = (s r).sent ∧
      (t r).got = (s r).got := by
  obtain ⟨t, h1, h2⟩ := reach_coll h
  refine ⟨t, h1, fun r hr => ?_⟩
  obtain ⟨a1, a2⟩ := h2 r hr
  refine ⟨?_, a2⟩
  rw [a1]
  simp only [World.allResult, h0, hb r hr, and_self, if_true, Prog.ofRM]

/-- the bootstrap gives the values of the root to all ranks -/
theorem reach_bootstrap {w : World (Val α)} (h0 : 0 < w.size) {tr : Nat → Nat}
    {ls : Nat → List (Nat × Nat)} {ms : Nat → Mat α}
    {nx : Nat → Nat → List (Nat × Nat) → Mat α → Prog (Val α) R} {s : Nat → Rank (Val α) R} {L : Nat}
    (h : ∀ r < w.size, (s r).prog = bootstrapProg (decide (r = 0)) (tr r) (ls r) (ms r) (nx r) ∧
      (s r).inside = false ∧ (s r).colls.length = L) :
    ∃ t, w.Reach s t ∧ (ls 0 = [] → (t 0).prog = .fail .index) ∧
      (ls 0 ≠ [] → ∀ r < w.size, (t r).prog = nx r (tr 0) (ls 0) (matOfVec (ms 0).dim (matToVec (ms 0))) ∧
        (t r).inside = false ∧ (t r).colls.length = L + 5 ∧ (t r).sent = (s r).sent ∧
        (t r).got = (s r).got) := by
  obtain ⟨t1, r1, k1⟩ := reach_bcast h0 (s := s) (buf := fun r => [.nat (tr r)]) (L := L)
    (fun r hr => by
      refine ⟨?_, (h r hr).2⟩
      rw [(h r hr).1]
      rfl) (fun _ _ => rfl)
  obtain ⟨t2, r2, k2⟩ := reach_bcast h0 (s := t1) (buf := fun r => [.nat (ls r).length]) (L := L + 1)
    (fun r hr => by
      obtain ⟨a1, a2, a3, a4⟩ := k1 r hr
      refine ⟨?_, a2, a3⟩
      rw [a1]
      rfl) (fun _ _ => rfl)
  obtain ⟨t3, r3, k3⟩ := reach_bcast h0 (s := t2) (buf := fun r => [.nat (ms r).dim]) (L := L + 2)
    (fun r hr => by
      obtain ⟨a1, a2, a3, a4⟩ := k2 r hr
      refine ⟨?_, a2, a3⟩
      rw [a1]
      rfl) (fun _ _ => rfl)
  by_cases hl : ls 0 = []
  · refine ⟨t3, (r1.trans r2).trans r3, fun _ => ?_, fun h => (h hl).elim⟩
    rw [(k3 0 h0).1]
    simp [asNat, Prog.ofRM, hl]
  have e0 : ∀ r, (if decide (r = 0) then ls r else List.replicate (ls 0).length (0, 0)).isEmpty
      = false := by
    intro r
    by_cases h : r = 0
    · subst h
      simpa using hl
    · simpa [h] using hl
  have e1 : ∀ r, (if decide (r = 0) then ls r else List.replicate (ls 0).length (0, 0)).length =
      (ls 0).length := by
    intro r
    by_cases h : r = 0
    · subst h; simp
    · simp [h]
  have e2 : ∀ r, (if decide (r = 0) then matToVec (ms r) else
      List.replicate ((ms 0).dim * (ms 0).dim) zero).length = (ms 0).dim * (ms 0).dim := by
    intro r
    by_cases h : r = 0
    · subst h; simp [matToVec_length]
    · simp [h]
  obtain ⟨t4, r4, k4⟩ := reach_bcast h0 (s := t3)
    (buf := fun r => (flattenEdges (if decide (r = 0) then ls r else
      List.replicate (ls 0).length (0, 0))).map .nat)
    (next := fun r v => .ofRM (asNats v) fun ns =>
      .coll (.bcast 0) ((if decide (r = 0) then matToVec (ms r) else
        List.replicate ((ms 0).dim * (ms 0).dim) zero).map .num) fun v => .ofRM (asNums v) fun xs =>
      nx r (tr 0) (pairUp ns) (matOfVec (ms 0).dim xs)) (L := L + 3)
    (fun r hr => by
      obtain ⟨a1, a2, a3, a4⟩ := k3 r hr
      refine ⟨?_, a2, a3⟩
      rw [a1]
      simp only [asNat, Prog.ofRM, e0, if_false, Bool.false_eq_true]) (fun r hr => by
        rw [List.length_map, List.length_map, length_flatten, length_flatten, e1, e1])
  obtain ⟨t5, r5, k5⟩ := reach_bcast h0 (s := t4)
    (buf := fun r => (if decide (r = 0) then matToVec (ms r) else
      List.replicate ((ms 0).dim * (ms 0).dim) zero).map .num)
    (next := fun r v => .ofRM (asNums v) fun xs =>
      nx r (tr 0) (pairUp (flattenEdges (ls 0))) (matOfVec (ms 0).dim xs)) (L := L + 4)
    (fun r hr => by
      obtain ⟨a1, a2, a3, a4⟩ := k4 r hr
      refine ⟨?_, a2, a3⟩
      rw [a1]
      simp only [asNats_map, Prog.ofRM, decide_true, if_true]) (fun r hr => by
        rw [List.length_map, List.length_map, e2, e2])
  refine ⟨t5, (((r1.trans r2).trans r3).trans r4).trans r5, fun h => (hl h).elim, fun _ r hr => ?_⟩
  obtain ⟨a1, a2, a3, a4, a5⟩ := k5 r hr
  obtain ⟨-, -, -, b4, b5⟩ := k4 r hr
  obtain ⟨-, -, -, c4, c5⟩ := k3 r hr
  obtain ⟨-, -, -, d4, d5⟩ := k2 r hr
  obtain ⟨-, -, -, f4, f5⟩ := k1 r hr
  refine ⟨?_, a2, a3, by rw [a4, b4, c4, d4, f4], by rw [a5, b5, c5, d5, f5]⟩
  rw [a1]
  simp only [decide_true, if_true, asNums_map, Prog.ofRM, pairUp_flatten]

/-- the fold of the root on flat matchings is `mpiBest` -/
theorem fold_best (cost : Nat → α) (ms : Nat → List (Nat × Nat)) :
    ∀ (qs : List Nat) (b : α × List (Nat × Nat)),
    qs.foldl (fun b q => if cost q <ᶠ b.1 then (cost q, flattenEdges (ms q)) else b)
      (b.1, flattenEdges b.2) =
    ((mpiBest b (qs.map fun q => (cost q, ms q))).1,
      flattenEdges (mpiBest b (qs.map fun q => (cost q, ms q))).2)
  | [], b => rfl
  | q :: qs, b => by
    rw [List.foldl_cons, List.map_cons]
    have e : mpiBest b ((cost q, ms q) :: qs.map fun q => (cost q, ms q)) =
        mpiBest (if cost q <ᶠ b.1 then (cost q, ms q) else b) (qs.map fun q => (cost q, ms q)) := rfl
    rw [e, ← fold_best cost ms qs]
    congr 1
    by_cases h : (cost q <ᶠ b.1) = true
    · simp [h]
    · simp [h]

theorem matchingProg_eq (m : Mat α) (shufs : Nat → Nat → List (Nat × Nat) → List (Nat × Nat))
    (size tries : Nat) (l : List (Nat × Nat)) (r : Nat) :
    matchingProg m shufs size tries l r = bootstrapProg (decide (r = 0))
      (if r = 0 then tries else 0) (if r = 0 then l else []) (if r = 0 then m else Mat.fromDim 1)
      (if r = 0 then fun _ _ _ => improveProg size 0 (shufs 0) tries l m else fun tries l m =>
        improveProg size r (shufs r) tries l m) := by
  unfold matchingProg
  by_cases h : r = 0
  · simp [h]
  · simp [h]

end Walky
