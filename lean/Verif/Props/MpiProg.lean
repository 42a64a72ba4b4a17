import Verif.Lemmas.MpiMatching
import Verif.Lemmas.NearestNeighbour
import Verif.Lemmas.OneTree
import Verif.Props.NearestNeighbour
import Verif.Props.OneTree
import Verif.Props.Matching

/-! # Properties: MPI programs rank by rank (C70 – C72) -/

namespace Walky.Props

open FloatOps XNum

variable {V R : Type}

/-- Every execution comes to an end, no rank ever fails, and a job can only come to rest when rank `r`
has returned `res r`, for all ranks. -/
def AlwaysEnds (w : World V) (s0 : Nat → Rank V R) (res : Nat → R) : Prop :=
  ∃ N, ∀ k t, Steps w.Step k s0 t → k ≤ N ∧ (∀ r < w.size, ∀ e, (t r).prog ≠ .fail e) ∧
    ((∀ u, ¬ w.Step t u) → ∀ r < w.size, (t r).prog = .done (res r))

/-- No execution reaches a state in which all ranks have returned. -/
def NeverSucceeds (w : World V) (s0 : Nat → Rank V R) : Prop :=
  ∀ k t, Steps w.Step k s0 t → ¬ ∀ r < w.size, ∃ x, (t r).prog = .done x

theorem alwaysEnds_of_reach {w : World V} {s0 f : Nat → Rank V R} {res : Nat → R}
    (h : w.Reach s0 f) (hf : ∀ r < w.size, (f r).prog = .done (res r)) : AlwaysEnds w s0 res := by
  obtain ⟨N, hN⟩ := h
  have hstop : ∀ u, ¬ w.Step f u := no_step fun r hr => .inl ⟨_, hf r hr⟩
  refine ⟨N, fun k t hk => ?_⟩
  obtain ⟨h1, h2⟩ := steps_confluent step_diamond hN hstop hk
  refine ⟨h1, fun r hr e he => ?_, fun ht r hr => ?_⟩
  · have := fail_stays h2 he
    rw [hf r hr] at this
    cases this
  · cases hj : N - k with
    | zero =>
      rw [hj] at h2
      cases h2
      exact hf r hr
    | succ j =>
      rw [hj] at h2
      obtain ⟨u, hu, -⟩ := h2.head
      exact (ht u hu).elim

theorem neverSucceeds_of_reach {w : World V} {s0 f : Nat → Rank V R} (h : w.Reach s0 f) {r : Nat}
    (hr : r < w.size) {e : Panic} (hf : (f r).prog = .fail e) : NeverSucceeds w s0 := by
  obtain ⟨N, hN⟩ := h
  intro k t hk ht
  obtain ⟨-, h2⟩ := steps_confluent step_diamond hk (no_step fun r hr => .inl (ht r hr)) hN
  obtain ⟨x, hx⟩ := ht r hr
  rw [fail_stays h2 hf] at hx
  cases hx

/-- either all ranks get through a local computation or one fails -/
theorem locals_cases {β : Type} (f : Nat → RM β) {size : Nat} (h0 : 1 ≤ size) :
    (∃ g : Nat → β, ∀ r < size, f r = .ok (g r)) ∨ ∃ r < size, ∃ e, f r = .error e := by
  classical
  by_cases h : ∃ r < size, ∃ e, f r = .error e
  · exact .inr h
  · have h' : ∀ r < size, ∃ x, f r = .ok x := by
      intro r hr
      cases hf : f r with
      | ok x => exact ⟨x, rfl⟩
      | error e => exact (h ⟨r, hr, e, hf⟩).elim
    obtain ⟨b, -⟩ := h' 0 (by omega)
    refine .inl ⟨fun r => if hr : r < size then (h' r hr).choose else b, fun r hr => ?_⟩
    simp only [hr, dif_pos]
    exact (h' r hr).choose_spec

section
variable {α : Type} [FloatOps α]

/-! ## 1-tree bound -/

/-- the job that computes the 1-tree bound -/
def oneTreeWorld (shape : List α → RTree α) (sync : Nat → Nat → Bool) (size : Nat) : World (Val α) :=
  ⟨size, fun _ => combineMax shape, sync⟩

omit [FloatOps α] in
theorem mapM_asNum (l : List α) : (l.map fun x => [Val.num x]).mapM asNum = .ok l := by
  induction l with
  | nil => rfl
  | cons a t ih =>
    rw [List.map_cons, List.mapM_cons, ih]
    rfl

/-- **C70** The MPI program for the 1-tree bound, rank by rank: for every interleaving and every way
in which MPI synchronises the ranks, the job comes to an end without failure, the root has the value of
`oneTreeLbMpi` and the other ranks infinity; if `oneTreeLbMpi` describes a panic, the job does not
succeed. In every arithmetic. -/
theorem C70_one_tree_job (shape : List α → RTree α) (sync : Nat → Nat → Bool) (m : Mat α)
    {size : Nat} (hs : 1 ≤ size) :
    (∀ x, oneTreeLbMpi shape size m = .ok x →
      AlwaysEnds (oneTreeWorld shape sync size) (startJob (oneTreeProg m size))
        fun r => if r = 0 then x else inf) ∧
    ∀ e, oneTreeLbMpi shape size m = .error e →
      NeverSucceeds (oneTreeWorld shape sync size) (startJob (oneTreeProg m size)) := by
  rcases locals_cases (oneTreeLocal m size) hs with ⟨v, hv⟩ | ⟨r, hr, e, he⟩
  · have hj : oneTreeLbMpi shape size m =
        unwrapO ((shape ((List.range size).map v)).reduce mpiMax) := by
      unfold oneTreeLbMpi
      rw [mapM_ok (g := v) fun i hi => hv i (by simpa using hi)]
      rfl
    obtain ⟨t, h1, h2⟩ := reach_coll (w := oneTreeWorld shape sync size)
      (s := startJob (oneTreeProg m size)) (c := .reduce 0) (buf := fun r => [.num (v r)])
      (next := fun r y => if r = 0 then .ofRM (asNum y) .done else .done inf) (L := 0) (by
        intro r hr
        refine ⟨?_, rfl, rfl⟩
        show oneTreeProg m size r = _
        unfold oneTreeProg
        rw [hv r hr]
        rfl)
    have hc : (oneTreeWorld shape sync size).combine 0
        ((List.range size).map fun r => [Val.num (v r)]) =
        (oneTreeLbMpi shape size m).map fun x => [Val.num x] := by
      show combineMax shape _ = _
      unfold combineMax
      have e : ((List.range size).map fun r => [Val.num (v r)]) =
        ((List.range size).map v).map fun x => [Val.num x] := by simp
      rw [e, mapM_asNum, rm_bind_ok, hj]
      cases unwrapO ((shape ((List.range size).map v)).reduce mpiMax) <;> rfl
    have h0 := (h2 0 hs).1
    simp only [World.allResult, if_true] at h0
    erw [hc] at h0
    constructor
    · intro x hx
      refine alwaysEnds_of_reach h1 fun r hr => ?_
      by_cases h : r = 0
      · subst h
        rw [h0, hx]
        rfl
      · rw [(h2 r hr).1]
        simp [World.allResult, h, Prog.ofRM]
    · intro e he
      rw [he] at h0
      exact neverSucceeds_of_reach h1 hs h0
  · have hj : ∃ e, oneTreeLbMpi shape size m = .error e := by
      obtain ⟨e', h'⟩ := mapM_err (List.mem_range.mpr hr) he
      refine ⟨e', ?_⟩
      unfold oneTreeLbMpi
      rw [h']
      rfl
    constructor
    · intro x hx
      obtain ⟨e', h'⟩ := hj
      rw [hx] at h'
      cases h'
    · intro _ _
      refine neverSucceeds_of_reach (.refl _) hr (e := e) ?_
      show oneTreeProg m size r = _
      unfold oneTreeProg
      rw [he]
      rfl

/-! ## Nearest neighbour -/

/-- the job that computes the nearest neighbour tour -/
def nnWorld (shape : Nat → List (α × Nat) → RTree (α × Nat)) (sync : Nat → Nat → Bool) (size : Nat) :
    World (Val α) := ⟨size, combineCostRank shape, sync⟩

omit [FloatOps α] in
theorem mapM_asCostRank (l : List (α × Nat)) :
    (l.map fun x => [Val.num x.1, Val.nat x.2]).mapM asCostRank = .ok l := by
  induction l with
  | nil => rfl
  | cons a t ih =>
    rw [List.map_cons, List.mapM_cons, ih]
    rfl

theorem nnLoop_length {m : Mat α} : ∀ {fuel : Nat} {s t : NNState α}, s.path.length ≤ m.dim →
    nnLoop m fuel s = .ok t → t.path.length = m.dim := by
  intro fuel
  induction fuel with
  | zero =>
    intro s t hs h
    unfold nnLoop at h
    split at h
    · cases h
    · cases h; omega
  | succ fuel ih =>
    intro s t hs h
    unfold nnLoop at h
    split at h
    · simp only at h
      cases hf : (List.range m.dim).foldlM (nnScanStep m s.visited s.current) (none, inf) with
      | error e => rw [hf] at h; cases h
      | ok x =>
        rw [hf, rm_bind_ok] at h
        obtain ⟨o, d⟩ := x
        cases o with
        | none => cases h
        | some y =>
          simp only at h
          split at h
          · exact ih (by simp; omega) h
          · cases h
    · cases h; omega

theorem singleNN_length {m : Mat α} {i : Nat} {s : Solution α} (h : singleNN m i = .ok s) :
    s.2.length = m.dim := by
  unfold singleNN at h
  split at h
  · rename_i hi
    cases hl : nnLoop m m.dim ⟨[i], (List.replicate m.dim false).set i true, i, zero⟩ with
    | error e => rw [hl] at h; cases h
    | ok t =>
      rw [hl, rm_bind_ok] at h
      have := nnLoop_length (by simp; omega) hl
      cases he : m.entry t.current i with
      | error e => rw [he] at h; cases h
      | ok d =>
        rw [he, rm_bind_ok] at h
        cases h
        exact this
  · cases h

theorem mapM_mem {β γ : Type} {f : β → RM γ} : ∀ {l : List β} {r : List γ}, l.mapM f = .ok r →
    ∀ y ∈ r, ∃ x ∈ l, f x = .ok y
  | [], r, h => by
    rw [List.mapM_nil] at h
    rw [← Except.ok.inj h]
    simp
  | a :: t, r, h => by
    rw [List.mapM_cons] at h
    cases ha : f a with
    | error e => rw [ha] at h; cases h
    | ok b =>
      rw [ha, rm_bind_ok] at h
      cases ht : t.mapM f with
      | error e => rw [ht] at h; cases h
      | ok bs =>
        rw [ht, rm_bind_ok] at h
        rw [← Except.ok.inj h]
        intro y hy
        rcases List.mem_cons.mp hy with rfl | hy
        · exact ⟨a, by simp, ha⟩
        · obtain ⟨x, h1, h2⟩ := mapM_mem ht y hy
          exact ⟨x, by simp [h1], h2⟩

theorem nnLocal_length {m : Mat α} {size r : Nat} {s : Solution α} (h : nnLocal m size r = .ok s) :
    s.2.length = m.dim := by
  unfold nnLocal at h
  cases hm : (nnChunk m.dim size r).mapM (singleNN m) with
  | error e => rw [hm] at h; cases h
  | ok sols =>
    rw [hm, rm_bind_ok] at h
    cases hb : minByFirst solLt sols with
    | none => rw [hb] at h; cases h
    | some b =>
      rw [hb] at h
      have h := Except.ok.inj h
      subst h
      obtain ⟨i, -, hi⟩ := mapM_mem hm _ (minByFirst_mem hb)
      exact singleNN_length hi

/-- **C71** The MPI program for nearest neighbour, rank by rank: for every interleaving and every way in
which MPI synchronises the ranks, the job comes to an end without failure and every rank has its result
of `nnMpi`; if the local search of a rank panics, the job does not succeed. In every arithmetic. -/
theorem C71_nearest_neighbour_job (shape : Nat → List (α × Nat) → RTree (α × Nat))
    (sync : Nat → Nat → Bool) (m : Mat α) {size : Nat} (hs : 1 ≤ size) :
    (∀ rs, nnMpi shape size m = .ok rs → ∃ res, rs = (List.range size).map res ∧
      AlwaysEnds (nnWorld shape sync size) (startJob (nnProg m size)) res) ∧
    ∀ r < size, ∀ e, nnLocal m size r = .error e →
      NeverSucceeds (nnWorld shape sync size) (startJob (nnProg m size)) := by
  constructor
  · intro rs hrs
    rcases locals_cases (nnLocal m size) hs with ⟨v, hv⟩ | ⟨r, hr, e, he⟩
    · unfold nnMpi at hrs
      rw [mapM_ok (g := v) fun i hi => hv i (by simpa using hi), rm_bind_ok] at hrs
      simp only at hrs
      have hzip : (((List.range size).map v).map Prod.fst).zip (List.range size) =
          (List.range size).map fun r => ((v r).1, r) := by
        rw [List.map_map]
        conv_lhs => rw [← List.map_id (List.range size), List.map_map, List.zip_map']
        simp
      rw [hzip] at hrs
      rcases locals_cases (fun r => unwrapO ((shape r ((List.range size).map fun r =>
          ((v r).1, r))).reduce costRankOp)) hs with ⟨win, hwin⟩ | ⟨r, hr, e, he⟩
      · rw [mapM_ok (g := win) fun i hi => hwin i (by simpa using hi), rm_bind_ok] at hrs
        obtain ⟨k, rfl⟩ : ∃ k, size = k + 1 := ⟨size - 1, by omega⟩
        have hr : (List.range (k + 1)).map win =
            win 0 :: ((List.range k).map (· + 1)).map win := by
          rw [List.range_succ_eq_map]; simp
        rw [hr] at hrs
        simp only at hrs
        rw [← hr] at hrs
        split at hrs
        · rename_i hall
          have hsame : ∀ r < k + 1, (win r).2 = (win 0).2 := by
            intro r hr
            have := List.all_eq_true.mp hall (win r) (List.mem_map_of_mem (List.mem_range.mpr hr))
            simpa using this
          cases hi : idx ((List.range (k + 1)).map v) (win 0).2 with
          | error e => rw [hi] at hrs; cases hrs
          | ok b =>
            rw [hi, rm_bind_ok] at hrs
            have hw : (win 0).2 < k + 1 ∧ b = v (win 0).2 := by
              unfold idx at hi
              cases hg : ((List.range (k + 1)).map v)[(win 0).2]? with
              | none => rw [hg] at hi; cases hi
              | some c =>
                rw [hg] at hi
                cases hi
                obtain ⟨h1, h2⟩ := List.getElem?_eq_some_iff.mp hg
                rw [List.getElem_map, List.getElem_range] at h2
                exact ⟨by simpa using h1, h2.symm⟩
            refine ⟨fun r => ((win r).1, (v (win 0).2).2), ?_, ?_⟩
            · rw [← Except.ok.inj hrs, hw.2, List.map_map]
              rfl
            obtain ⟨t, h1, h2⟩ := reach_coll (w := nnWorld shape sync (k + 1))
              (s := startJob (nnProg m (k + 1))) (c := .allReduce)
              (buf := fun r => [.num (v r).1, .nat r])
              (next := fun r y => .ofRM (asCostRank y) fun win =>
                .coll (.bcast win.2) ((v r).2.map .nat) fun p =>
                  .ofRM (asNats p) fun path => .done (win.1, path)) (L := 0) (by
                intro r hr
                refine ⟨?_, rfl, rfl⟩
                show nnProg m (k + 1) r = _
                unfold nnProg
                rw [hv r hr]
                rfl)
            have hc : ∀ r < k + 1, (nnWorld shape sync (k + 1)).allResult .allReduce
                (fun r => [.num (v r).1, .nat r]) r = .ok [.num (win r).1, .nat (win r).2] := by
              intro r hr
              show combineCostRank shape r _ = _
              unfold combineCostRank
              have e : ((List.range (k + 1)).map fun r => [Val.num (v r).1, Val.nat r]) =
                ((List.range (k + 1)).map fun r => ((v r).1, r)).map
                  fun x => [Val.num x.1, Val.nat x.2] := by simp
              erw [e, mapM_asCostRank, rm_bind_ok, hwin r hr]
              rfl
            obtain ⟨t', h1', h2'⟩ := reach_coll (w := nnWorld shape sync (k + 1)) (s := t)
              (c := .bcast (win 0).2) (buf := fun r => (v r).2.map .nat)
              (next := fun r p => .ofRM (asNats p) fun path => .done ((win r).1, path)) (L := 1) (by
                intro r hr
                obtain ⟨a1, a2, a3, -⟩ := h2 r hr
                refine ⟨?_, a2, a3⟩
                rw [a1, hc r hr, ← hsame r hr]
                rfl)
            refine alwaysEnds_of_reach (h1.trans h1') fun r hr => ?_
            rw [(h2' r hr).1]
            have hl : ((v (win 0).2).2.map (Val.nat : Nat → Val α)).length =
                ((v r).2.map (Val.nat : Nat → Val α)).length := by
              rw [List.length_map, List.length_map, nnLocal_length (hv _ hw.1),
                nnLocal_length (hv r hr)]
            have hsz : (win 0).2 < (nnWorld shape sync (k + 1)).size := hw.1
            simp only [World.allResult, hsz, hl, and_self, if_true, Prog.ofRM, asNats_map]
        · cases hrs
      · obtain ⟨e', h'⟩ := mapM_err (f := fun r => unwrapO ((shape r ((List.range size).map fun r =>
          ((v r).1, r))).reduce costRankOp)) (List.mem_range.mpr hr) he
        rw [h'] at hrs
        cases hrs
    · obtain ⟨e', h'⟩ := mapM_err (List.mem_range.mpr hr) he
      unfold nnMpi at hrs
      rw [h'] at hrs
      cases hrs
  · intro r hr e he
    refine neverSucceeds_of_reach (.refl _) hr (e := e) ?_
    show nnProg m size r = _
    unfold nnProg
    rw [he]
    rfl

/-! ## Matching -/

/-- the job of the MPI matching; no reductions occur -/
def matchingWorld (sync : Nat → Nat → Bool) (size : Nat) : World (Val α) :=
  ⟨size, fun _ _ => .error .explicit, sync⟩

/-- the joint description in terms of the local searches -/
theorem mpiImproveMatching_locals {m : Mat α}
    {shufs : Nat → Nat → List (Nat × Nat) → List (Nat × Nat)} {size tries : Nat}
    (hs : 1 ≤ size) {l : List (Nat × Nat)} (hne : l ≠ [])
    {ms : Nat → List (Nat × Nat)} {cost : Nat → α}
    (h1 : ∀ r < size, improveMatching m (shufs r) tries l = .ok (ms r))
    (h2 : ∀ r < size, matchingCost m (ms r) = .ok (cost r)) (h3 : ∀ r < size, ms r ≠ []) :
    mpiImproveMatching m shufs size tries l = .ok ((List.range size).map fun _ =>
      (mpiBest (cost 0, ms 0) ((List.range' 1 (size - 1)).map fun q => (cost q, ms q))).2) := by
  unfold mpiImproveMatching
  rw [if_neg (by simpa using hne)]
  rw [mapM_ok (g := fun r => (cost r, ms r))]
  · obtain ⟨k, rfl⟩ : ∃ k, size = k + 1 := ⟨size - 1, by omega⟩
    have e : (List.range (k + 1)).map (fun r => (cost r, ms r)) =
        (cost 0, ms 0) :: (List.range' 1 k).map fun r => (cost r, ms r) := by
      rw [List.range_eq_range', List.range'_succ]
      rfl
    simp only [rm_bind_ok, e, pairUp_flatten]
    rfl
  · intro r hr
    have hr : r < size := by simpa using hr
    rw [h1 r hr, rm_bind_ok, h2 r hr, rm_bind_ok, if_neg]
    · rfl
    · simp [h3 r hr]

/-- **C72** The MPI matching, rank by rank, with the bootstrap: for every interleaving and every way
in which MPI synchronises the ranks, buffered or not, the job comes to an end without failure and every
rank has the matching of `mpiImproveMatching`, although only the root knows the graph at the start; if
`mpiImproveMatching` describes a panic, the job does not succeed. In every arithmetic. -/
theorem C72_matching_job (sync : Nat → Nat → Bool) (m : Mat α)
    {shufs : Nat → Nat → List (Nat × Nat) → List (Nat × Nat)} (hsh : ∀ r k l, (shufs r k l).Perm l)
    {size : Nat} (hs : 1 ≤ size) (tries : Nat) (l : List (Nat × Nat)) :
    (∀ rs, mpiImproveMatching m shufs size tries l = .ok rs →
      ∃ res, rs = (List.range size).map res ∧
      AlwaysEnds (matchingWorld sync size) (startJob (matchingProg m shufs size tries l)) res) ∧
    ∀ e, mpiImproveMatching m shufs size tries l = .error e →
      NeverSucceeds (matchingWorld sync size) (startJob (matchingProg m shufs size tries l)) := by
  obtain ⟨t, h1, h2, h3⟩ := reach_bootstrap (w := matchingWorld sync size)
    (s := startJob (matchingProg m shufs size tries l)) hs (L := 0)
    (fun r hr => ⟨matchingProg_eq m shufs size tries l r, rfl, rfl⟩)
  simp only [if_true] at h2 h3
  by_cases hl : l = []
  · subst hl
    refine ⟨fun rs hrs => ?_, fun _ _ => neverSucceeds_of_reach h1 (r := 0) hs (h2 rfl)⟩
    cases hrs
  have h4 : ∀ r < size, (t r).prog = improveProg size r (shufs r) tries l m ∧
      (t r).inside = false ∧ (t r).colls.length = 5 ∧ (t r).sent = [] ∧ (t r).got = [] := by
    intro r hr
    obtain ⟨a1, a2, a3, a4, a5⟩ := h3 hl r hr
    refine ⟨?_, a2, a3, a4, a5⟩
    rw [a1]
    by_cases h : r = 0
    · subst h; simp
    · simp only [h, if_false]
      exact improveProg_entry (entry_broadcast m) _ _ _ _ _
  clear h2 h3
  rcases locals_cases (fun r => do
      let l' ← improveMatching m (shufs r) tries l
      let c ← matchingCost m l'
      return (l', c)) hs with ⟨v, hv⟩ | ⟨r, hr, e, he⟩
  · have hv' : ∀ r < size, improveMatching m (shufs r) tries l = .ok (v r).1 ∧
        matchingCost m (v r).1 = .ok (v r).2 := by
      intro r hr
      have := hv r hr
      cases hi : improveMatching m (shufs r) tries l with
      | error e => simp only [hi] at this; cases this
      | ok l' =>
        simp only [hi, rm_bind_ok] at this
        cases hc : matchingCost m l' with
        | error e => rw [hc] at this; cases this
        | ok c =>
          rw [hc] at this
          have := Except.ok.inj this
          rw [← this]
          exact ⟨rfl, hc⟩
    have hlen : ∀ r < size, (v r).1.length = l.length := fun r hr =>
      improveMatching_len (hsh r) (hv' r hr).1
    have hne : ∀ r < size, (v r).1 ≠ [] := by
      intro r hr h
      have := hlen r hr
      rw [h] at this
      exact hl (List.length_eq_zero_iff.mp this.symm)
    have hj := mpiImproveMatching_locals hs hl (fun r hr => (hv' r hr).1) (fun r hr => (hv' r hr).2) hne
    have hprog : ∀ r < size, (t r).prog =
        if r = 0 then gatherProg 1 ((v r).2, flattenEdges (v r).1) spreadProg (size - 1) else
          .send 0 0 [.num (v r).2] (.send 0 1 ((flattenEdges (v r).1).map .nat)
            (spreadProg ((v r).2, flattenEdges (v r).1))) := by
      intro r hr
      rw [(h4 r hr).1]
      unfold improveProg
      rw [(hv' r hr).1]
      simp only [Prog.ofRM]
      rw [(hv' r hr).2]
      simp [hne r hr]
    obtain ⟨t1, g1, g2, g3, g4, -, g6⟩ := reach_gather (w := matchingWorld sync size)
      (next := spreadProg) (cost := fun q => (v q).2) (ns := fun q => flattenEdges (v q).1)
      (after := fun q => spreadProg ((v q).2, flattenEdges (v q).1)) (size - 1) 1
      ((v 0).2, flattenEdges (v 0).1) t (le_refl 1) (by show 1 + (size - 1) = size; omega)
      (by rw [hprog 0 hs]; rfl) (h4 0 hs).2.1
      (fun q _ tag => by unfold Rank.gotFrom; rw [(h4 0 hs).2.2.2.2]; rfl)
      (fun q hq hq' => by
        refine ⟨?_, (h4 q hq').2.1, (h4 q hq').2.2.2.1⟩
        rw [hprog q hq', if_neg (by omega)])
    have hb := fold_best (fun q => (v q).2) (fun q => (v q).1) (List.range' 1 (size - 1))
      ((v 0).2, (v 0).1)
    simp only at hb
    rw [hb] at g2
    -- the matching the root broadcasts is one of the local ones
    set best := mpiBest ((v 0).2, (v 0).1)
      ((List.range' 1 (size - 1)).map fun q => ((v q).2, (v q).1)) with hbest
    have hbl : best.2.length = l.length := by
      have := mpiBest_mem ((List.range' 1 (size - 1)).map fun q => ((v q).2, (v q).1))
        ((v 0).2, (v 0).1)
      rcases List.mem_cons.mp this with h | h
      · rw [← hbest] at h
        rw [h]
        exact hlen 0 hs
      · obtain ⟨q, hq, h⟩ := List.mem_map.mp h
        rw [← hbest] at h
        rw [← h]
        have := List.mem_range'_1.mp hq
        exact hlen q (by omega)
    let bs : Nat → α × List Nat := fun r =>
      if r = 0 then (best.1, flattenEdges best.2) else ((v r).2, flattenEdges (v r).1)
    have g7 : ∀ r < size, (t1 r).prog = spreadProg (bs r) ∧ (t1 r).inside = false ∧
        (t1 r).colls.length = 5 := by
      intro r hr
      by_cases h : r = 0
      · subst h
        exact ⟨g2, g3, by rw [g6]; exact (h4 0 hr).2.2.1⟩
      · obtain ⟨a1, a2⟩ := g4 r (by omega) hr
        refine ⟨?_, a2, by rw [g6]; exact (h4 r hr).2.2.1⟩
        rw [a1]
        simp [bs, h]
    obtain ⟨t2, u1, u2⟩ := reach_bcast (w := matchingWorld sync size) hs (s := t1) (L := 5)
      (buf := fun r => [.num (bs r).1]) (fun r hr => ⟨(g7 r hr).1, (g7 r hr).2⟩) (fun _ _ => rfl)
    obtain ⟨t3, u3, u4⟩ := reach_bcast (w := matchingWorld sync size) hs (s := t2) (L := 6)
      (buf := fun r => (bs r).2.map .nat)
      (next := fun r v => .ofRM (asNats v) fun ns => .done (pairUp ns)) (fun r hr => by
        obtain ⟨a1, a2, a3, -⟩ := u2 r hr
        exact ⟨a1, a2, a3⟩) (fun r hr => by
        have : ∀ q < size, (bs q).2.length = 2 * l.length := by
          intro q hq
          by_cases h : q = 0
          · simp [bs, h, length_flatten, hbl]
          · simp [bs, h, length_flatten, hlen q hq]
        rw [List.length_map, List.length_map, this 0 hs, this r hr])
    constructor
    · intro rs hrs
      refine ⟨fun _ => best.2, ?_, ?_⟩
      · rw [hj] at hrs
        exact (Except.ok.inj hrs).symm
      · refine alwaysEnds_of_reach (((h1.trans g1).trans u1).trans u3) fun r hr => ?_
        rw [(u4 r hr).1]
        simp [bs, asNats_map, Prog.ofRM, pairUp_flatten]
    · intro e he
      rw [hj] at he
      cases he
  · constructor
    · intro rs hrs
      have : ∃ e, (List.range size).mapM (fun k => do
          let l' ← improveMatching m (shufs k) tries l
          let cost ← matchingCost m l'
          if k ≠ 0 ∧ l'.isEmpty then .error .index
          else return (cost, l')) = .error e := by
        refine mapM_err (List.mem_range.mpr hr) (e := e) ?_
        cases hi : improveMatching m (shufs r) tries l with
        | error e' => simp only [hi] at he; cases he; rfl
        | ok l' =>
          simp only [hi, rm_bind_ok] at he
          cases hc : matchingCost m l' with
          | error e' => rw [hc] at he; cases he; rw [rm_bind_ok, hc]; rfl
          | ok c => rw [hc] at he; cases he
      obtain ⟨e', h'⟩ := this
      unfold mpiImproveMatching at hrs
      rw [if_neg (by simpa using hl), h'] at hrs
      cases hrs
    · intro _ _
      refine neverSucceeds_of_reach h1 (r := r) hr (e := e) ?_
      rw [(h4 r hr).1]
      unfold improveProg
      cases hi : improveMatching m (shufs r) tries l with
      | error e' => simp only [hi] at he; cases he; rfl
      | ok l' =>
        simp only [hi, rm_bind_ok] at he
        cases hc : matchingCost m l' with
        | error e' => rw [hc] at he; cases he; simp only [Prog.ofRM, hc]
        | ok c => rw [hc] at he; cases he

end

/-! ## Consequences in exact arithmetic -/

section
variable {K : Type} [Field K] [LinearOrder K] [IsStrictOrderedRing K]

/-- **C70, value** With at most as many ranks as cities, every execution of the job for the 1-tree
bound ends with the sequential value on the root. -/
theorem C70_sequential_value {m : Mat (XNum K)} {c : Nat → Nat → K} (hm : Rep m c)
    (hsym : Spec.Symm m.dim c) (hn : 3 ≤ m.dim) {size : Nat} (h1 : 1 ≤ size) (h2 : size ≤ m.dim)
    (shape : List (XNum K) → RTree (XNum K)) (hshape : ∀ l, (shape l).flatten.Perm l)
    (sync : Nat → Nat → Bool) :
    ∃ x, oneTreeLbSeq m = .ok x ∧ AlwaysEnds (oneTreeWorld shape sync size)
      (startJob (oneTreeProg m size)) fun r => if r = 0 then x else .inf := by
  obtain ⟨_, w, -, hseq, -⟩ := oneTreeLbSeq_exact hm hsym hn
  exact ⟨.fin w, hseq, (C70_one_tree_job shape sync m h1).1 _
    ((C35_mpi_partial hm hsym hn h1 h2 shape hshape).trans hseq)⟩

/-- **C70, too many ranks** With more ranks than cities, no execution succeeds. -/
theorem C70_too_many_ranks {α : Type} [FloatOps α] (shape : List α → RTree α)
    (sync : Nat → Nat → Bool) (m : Mat α) {size : Nat} (h : m.dim < size) :
    NeverSucceeds (oneTreeWorld shape sync size) (startJob (oneTreeProg m size)) := by
  obtain ⟨e, he⟩ := C35_mpi_too_many_ranks shape m h
  exact (C70_one_tree_job shape sync m (by omega)).2 e he

/-- **C71, value** With at most as many ranks as cities, every execution of the nearest neighbour job
ends, and all ranks have the same tour, truthfully priced, at the cost of the sequential version. -/
theorem C71_sequential_value {m : Mat (XNum K)} {c : Nat → Nat → K} (hm : Rep m c) {size : Nat}
    (h1 : 1 ≤ size) (h2 : size ≤ m.dim)
    (shape : Nat → List (XNum K × Nat) → RTree (XNum K × Nat))
    (hshape : ∀ r l, (shape r l).flatten.Perm l) (sync : Nat → Nat → Bool) :
    ∃ w p, AlwaysEnds (nnWorld shape sync size) (startJob (nnProg m size)) (fun _ => (.fin w, p)) ∧
      Spec.IsTour m.dim p ∧ w = Spec.tourCost c p ∧
      ∃ p', nearestNeighbourSeq (List.range m.dim) m = .ok (.fin w, p') := by
  obtain ⟨w, p, k1, k2, k3, k4⟩ := C40_mpi_partial hm h1 h2 shape hshape
  refine ⟨w, p, ?_, k2, k3, k4 _ (.refl _)⟩
  obtain ⟨res, e, N, hN⟩ := (C71_nearest_neighbour_job shape sync m h1).1 _ k1
  refine ⟨N, fun k t hk => ⟨(hN k t hk).1, (hN k t hk).2.1, fun hu r hr => ?_⟩⟩
  rw [(hN k t hk).2.2 hu r hr]
  have : res r ∈ List.replicate size (XNum.fin w, p) := by
    rw [e]
    exact List.mem_map_of_mem (List.mem_range.mpr hr)
  rw [(List.mem_replicate.mp this).2]

/-- **C71, too many ranks** With more ranks than cities, no execution succeeds. -/
theorem C71_too_many_ranks {α : Type} [FloatOps α]
    (shape : Nat → List (α × Nat) → RTree (α × Nat)) (sync : Nat → Nat → Bool) (m : Mat α)
    {size : Nat} (h : m.dim < size) :
    NeverSucceeds (nnWorld shape sync size) (startJob (nnProg m size)) := by
  refine (C71_nearest_neighbour_job shape sync m (by omega)).2 0 (by omega) .unwrap ?_
  have h0 : m.dim / size = 0 := Nat.div_eq_of_lt h
  have : nnChunk m.dim size 0 = [] := by
    unfold nnChunk
    rw [h0]
    simp only [List.range'_eq_nil_iff]
    rw [if_neg (by rintro ⟨a, b⟩; rw [show size = 1 by omega] at b; exact b (Nat.mod_one _))]
  unfold nnLocal
  rw [this]
  rfl

/-- **C72, value** Every execution of the matching job on a non-empty matching ends, and all ranks
have the same matching; it is the result of the local search of one of the ranks, and no rank found a
cheaper one. -/
theorem C72_best_matching {m : Mat (XNum K)} {c : Nat → Nat → K}
    (hm : ∀ i j, i < m.dim → j < m.dim → m.get i j = fin (c i j))
    {shufs : Nat → Nat → List (Nat × Nat) → List (Nat × Nat)} (hsh : ∀ r k l, (shufs r k l).Perm l)
    {size : Nat} (hsize : 1 ≤ size) (tries : Nat) {l : List (Nat × Nat)}
    (hl : ∀ e ∈ l, e.1 < m.dim ∧ e.2 < m.dim) (hne : l ≠ []) (sync : Nat → Nat → Bool) :
    ∃ best, AlwaysEnds (matchingWorld sync size) (startJob (matchingProg m shufs size tries l))
        (fun _ => best) ∧
      (∃ r < size, improveMatching m (shufs r) tries l = .ok best) ∧
      ∀ r < size, ∃ l', improveMatching m (shufs r) tries l = .ok l' ∧
        Spec.edgeSum c best ≤ Spec.edgeSum c l' := by
  obtain ⟨best, k1, k2, k3⟩ := C51_mpi_matching_partial hm hsh hsize tries hl hne
  refine ⟨best, ?_, k2, k3⟩
  obtain ⟨res, e, N, hN⟩ := (C72_matching_job sync m hsh hsize tries l).1 _ k1
  refine ⟨N, fun k t hk => ⟨(hN k t hk).1, (hN k t hk).2.1, fun hu r hr => ?_⟩⟩
  rw [(hN k t hk).2.2 hu r hr]
  have : res r ∈ List.replicate size best := by
    rw [e]
    exact List.mem_map_of_mem (List.mem_range.mpr hr)
  rw [(List.mem_replicate.mp this).2]

end

/-! ## A concrete case -/

/-- contributions combined one after the other -/
def chain {β : Type} (l : List β) : RTree β := l.foldr (fun x t => .node (.leaf x) t) .empty

theorem chain_flatten {β : Type} (l : List β) : (chain l).flatten = l := by
  induction l with
  | nil => rfl
  | cons a t ih =>
    show ([a] ++ (chain t).flatten) = _
    rw [ih]
    rfl

/-- three ranks and four cities, all operations synchronous: the job for the 1-tree bound always ends -/
example : ∃ x, oneTreeLbSeq Ex.m4 = .ok x ∧ AlwaysEnds (oneTreeWorld chain (fun _ _ => true) 3)
    (startJob (oneTreeProg Ex.m4 3)) fun r => if r = 0 then x else .inf :=
  C70_sequential_value Ex.rep4 Ex.symm4 (by decide) (by decide) (by decide) chain
    (fun l => by rw [chain_flatten]) _

/-- the same for nearest neighbour, where only every other operation is synchronous -/
example : ∃ w p, AlwaysEnds (nnWorld (fun _ => chain) (fun _ k => k % 2 = 0) 3)
    (startJob (nnProg Ex.m4 3)) (fun _ => (.fin w, p)) ∧ Spec.IsTour 4 p := by
  obtain ⟨w, p, h1, h2, -⟩ := C71_sequential_value Ex.rep4 (size := 3) (by decide) (by decide)
    (fun _ => chain) (fun _ l => by rw [chain_flatten]) (fun _ k => k % 2 = 0)
  exact ⟨w, p, h1, h2⟩

/-- three ranks; rank 0 finds a matching of cost 17, rank 1 one of cost 11, which all ranks have at the
end of every execution -/
example : AlwaysEnds (matchingWorld (fun _ _ => true) 3)
    (startJob (matchingProg (Mat.ofFun 6 fun i j => (((i : ℚ) - j) * (i - j)))
      (fun r _ l => l.rotate r) 3 1 [(2, 5), (0, 3), (1, 4)]))
    (fun _ => [(0, 1), (3, 4), (2, 5)]) := by
  obtain ⟨res, e, N, hN⟩ := (C72_matching_job (fun _ _ => true)
    (Mat.ofFun 6 fun i j => (((i : ℚ) - j) * (i - j))) (shufs := fun r _ l => l.rotate r)
    (fun _ _ _ => List.rotate_perm _ _) (size := 3) (by decide) 1 [(2, 5), (0, 3), (1, 4)]).1
    (List.replicate 3 [(0, 1), (3, 4), (2, 5)]) (by decide +kernel)
  refine ⟨N, fun k t hk => ⟨(hN k t hk).1, (hN k t hk).2.1, fun hu r hr => ?_⟩⟩
  rw [(hN k t hk).2.2 hu r hr]
  have : res r ∈ List.replicate 3 [(0, 1), (3, 4), (2, 5)] := by
    rw [e]
    exact List.mem_map_of_mem (List.mem_range.mpr hr)
  rw [(List.mem_replicate.mp this).2]

end Walky.Props
