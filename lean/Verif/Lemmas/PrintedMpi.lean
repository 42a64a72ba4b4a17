import Verif.Model.CliMpi
import Verif.Lemmas.Printed

/-! # Lemmas: every number that a rank of an MPI job prints is the result of an operation -/

namespace Walky

open FloatOps

variable {α : Type} [FloatOps α] {P : α → Prop}

theorem searchMpi_closed (h : Closed P) {m : Mat α} {global : α} {pre : List Nat} {r : Solution α}
    (hr : searchMpi m global pre = .ok r) : P r.1 := by
  obtain ⟨_, -, hr⟩ := bind_ok hr
  obtain ⟨r', h1, h2⟩ := bind_ok hr
  rw [← Except.ok.inj h2]
  exact dfs_closed h (s := ((inf, []), ())) h.inf h1

omit [FloatOps α] in
theorem wrapUp_cost {winner : α × Nat} {bufs : List (List Nat)} {r : Solution α}
    (h : wrapUp winner bufs = .ok r) : r.1 = winner.1 := by
  obtain ⟨b, -, h⟩ := bind_ok h
  split at h
  · rw [← Except.ok.inj h]
  · cases h

/-! ## Static solver -/

/-- the numbers that a worker knows or has sent -/
def SWorker.Closed (P : α → Prop) (w : SWorker α) : Prop := P w.sol.1 ∧ ∀ x ∈ w.up, P x.1

theorem workerRound_closed (h : Closed P) (hneg : P negOne) {m : Mat α} {rank : Nat} {w w' : SWorker α}
    (hw : w.Closed P) (hr : workerRound m rank w = .ok w') : w'.Closed P := by
  have hup : ∀ {x : α × Nat}, P x.1 → ∀ y ∈ w.up ++ [x], P y.1 := by
    intro x hx y hy
    rcases List.mem_append.mp hy with hy | hy
    · exact hw.2 y hy
    · rw [List.mem_singleton.mp hy]; exact hx
  obtain ⟨⟨digits, next⟩, -, hr⟩ := bind_ok hr
  simp only at hr
  split at hr
  · rw [← Except.ok.inj hr]; exact ⟨hw.1, hup hneg⟩
  · split at hr
    · rw [← Except.ok.inj hr]; exact ⟨hw.1, hup hneg⟩
    · split at hr
      · obtain ⟨r, h1, hr⟩ := bind_ok hr
        rw [← Except.ok.inj hr]
        have : P (if r.1 <ᶠ w.sol.1 then r else w.sol).1 := by
          split
          · exact searchMpi_closed h h1
          · exact hw.1
        exact ⟨this, hup this⟩
      · rw [← Except.ok.inj hr]; exact hw

omit [FloatOps α] in
theorem up_closed {l : List (SWorker α)} {i : Nat} {w : SWorker α} {msg : α × Nat} {rest : List (α × Nat)}
    (hl : ∀ u ∈ l, u.Closed P) (hw : w.Closed P) (hm : w.up = msg :: rest) :
    ∀ u ∈ l.set i { w with up := rest }, u.Closed P := by
  intro u hu
  rcases List.mem_or_eq_of_mem_set hu with hu | rfl
  · exact hl u hu
  · exact ⟨hw.1, fun x hx => hw.2 x (by rw [hm]; simp [hx])⟩

theorem staticSteps_closed (h : Closed P) (hneg : P negOne) {m : Mat α} {n : Nat} {s s' : SSys α}
    (hs : P s.winner.1 ∧ ∀ w ∈ s.workers, w.Closed P) (hst : Steps (SStep m) n s s') :
    P s'.winner.1 ∧ ∀ w ∈ s'.workers, w.Closed P := by
  induction hst with
  | refl => exact hs
  | tail _ hst ih =>
    obtain ⟨i1, i2⟩ := ih hs
    cases hst with
    | round i w w' h1 _ h3 =>
      refine ⟨i1, fun u hu => ?_⟩
      rcases List.mem_or_eq_of_mem_set hu with hu | rfl
      · exact i2 u hu
      · exact workerRound_closed h hneg (i2 w (List.mem_of_getElem? h1)) h3
    | recv i w g rest h1 _ _ =>
      refine ⟨i1, fun u hu => ?_⟩
      rcases List.mem_or_eq_of_mem_set hu with hu | rfl
      · exact i2 u hu
      · exact i2 w (List.mem_of_getElem? h1)
    | root i w msg rest _ h2 h3 =>
      have hw := i2 w (List.mem_of_getElem? h2)
      have hmsg : P msg.1 := hw.2 msg (by rw [h3]; simp)
      have i2' := up_closed (i := i) i2 hw h3
      unfold SSys.handle
      split
      · refine ⟨?_, fun u hu => ?_⟩
        · simp only
          split
          · exact hmsg
          · exact i1
        · simp only at hu
          obtain ⟨k, hk⟩ := List.getElem?_of_mem hu
          rw [List.getElem?_modify] at hk
          cases hv : (List.set _ i { w with up := rest })[k]? with
          | none => rw [hv] at hk; cases hk
          | some v =>
            rw [hv] at hk
            have hv' := i2' v (List.mem_of_getElem? hv)
            simp only [Option.map_eq_map, Option.map_some, Option.some.injEq] at hk
            rw [← hk]
            split
            · exact hv'
            · exact hv'
      · exact ⟨i1, i2'⟩

theorem staticResult_closed (h : Closed P) (hneg : P negOne) {m : Mat α} {k n : Nat} {r : Solution α}
    (hr : StaticResult m k n (.ok r)) : P r.1 := by
  obtain ⟨s0, n, s, h1, h2, -, h4⟩ := hr
  rw [wrapUp_cost h4.symm]
  refine (staticSteps_closed h hneg ?_ h2).1
  obtain ⟨ws, k1, k2⟩ := bind_ok h1
  rw [← Except.ok.inj k2]
  refine ⟨h.inf, mapM_all (P := fun w : SWorker α => w.Closed P) (fun x y hy => ?_) _ _ k1⟩
  obtain ⟨⟨lo, hi⟩, -, hy⟩ := bind_ok hy
  rw [← Except.ok.inj hy]
  exact ⟨h.inf, fun x hx => by cases hx⟩

/-! ## Dynamic solver -/

/-- the numbers that a worker knows or has sent -/
def DWorker.Closed (P : α → Prop) (w : DWorker α) : Prop := P w.sol.1 ∧ ∀ x ∈ w.up, P x.1

theorem dynWorker_closed (h : Closed P) {m : Mat α} {rank : Nat} {w w' : DWorker α} {msg : α × List Nat}
    (hw : w.Closed P) (hr : dynWorker m rank w msg = .ok w') : w'.Closed P := by
  unfold dynWorker at hr
  split at hr
  · rw [← Except.ok.inj hr]; exact hw
  · obtain ⟨r, h1, hr⟩ := bind_ok hr
    rw [← Except.ok.inj hr]
    have : P (if r.1 <ᶠ w.sol.1 then r else w.sol).1 := by
      split
      · exact searchMpi_closed h h1
      · exact hw.1
    refine ⟨this, fun x hx => ?_⟩
    rcases List.mem_append.mp hx with hx | hx
    · exact hw.2 x hx
    · rw [List.mem_singleton.mp hx]; exact this

omit [FloatOps α] in
theorem modify_closed {l : List (DWorker α)} {i : Nat} {d : List (α × List Nat)} (hl : ∀ w ∈ l, w.Closed P) :
    ∀ w ∈ l.modify i fun w => { w with down := w.down ++ d }, w.Closed P := by
  intro u hu
  obtain ⟨k, hk⟩ := List.getElem?_of_mem hu
  rw [List.getElem?_modify] at hk
  cases hv : l[k]? with
  | none => rw [hv] at hk; cases hk
  | some v =>
    rw [hv] at hk
    have hv' := hl v (List.mem_of_getElem? hv)
    simp only [Option.map_eq_map, Option.map_some, Option.some.injEq] at hk
    rw [← hk]
    split
    · exact hv'
    · exact hv'

theorem dynamicHandle_closed {s s' : DSys α} {n : Nat} {msg : α × Nat} (hmsg : P msg.1)
    (hs : P s.winner.1 ∧ ∀ w ∈ s.workers, w.Closed P) (hr : s.handle n msg = .ok s') :
    P s'.winner.1 ∧ ∀ w ∈ s'.workers, w.Closed P := by
  unfold DSys.handle at hr
  have hw : P (if (zero ≤ᶠ msg.1) && (msg.1 <ᶠ s.winner.1) then msg else s.winner).1 := by
    split
    · exact hmsg
    · exact hs.1
  simp only at hr
  split at hr
  · obtain ⟨next, -, hr⟩ := bind_ok hr
    rw [← Except.ok.inj hr]
    exact ⟨hw, modify_closed hs.2⟩
  · rw [← Except.ok.inj hr]
    exact ⟨hw, modify_closed hs.2⟩

theorem dynamicSteps_closed (h : Closed P) {m : Mat α} {n : Nat} {s s' : DSys α}
    (hs : P s.winner.1 ∧ ∀ w ∈ s.workers, w.Closed P) (hst : Steps (DStep m) n s s') :
    P s'.winner.1 ∧ ∀ w ∈ s'.workers, w.Closed P := by
  induction hst with
  | refl => exact hs
  | tail _ hst ih =>
    obtain ⟨i1, i2⟩ := ih hs
    cases hst with
    | recv i w w' msg rest h1 _ _ h4 =>
      refine ⟨i1, fun u hu => ?_⟩
      rcases List.mem_or_eq_of_mem_set hu with hu | rfl
      · exact i2 u hu
      · exact dynWorker_closed h (w := { w with down := rest }) (i2 w (List.mem_of_getElem? h1)) h4
    | root _ i w msg rest _ h2 h3 h4 =>
      have hw := i2 w (List.mem_of_getElem? h2)
      refine dynamicHandle_closed (P := P) (msg := msg) ?_ ?_ h4
      · exact hw.2 msg (by rw [h3]; simp)
      refine ⟨i1, fun u hu => ?_⟩
      rcases List.mem_or_eq_of_mem_set hu with hu | rfl
      · exact i2 u hu
      · exact ⟨hw.1, fun x hx => hw.2 x (by rw [h3]; simp [hx])⟩

theorem dynamicResult_closed (h : Closed P) {m : Mat α} {n : Nat} {r : Solution α}
    (hr : DynamicResult m n (.ok r)) : P r.1 := by
  obtain ⟨n, s, h2, -, h4⟩ := hr
  rw [wrapUp_cost h4.symm]
  refine (dynamicSteps_closed h ⟨h.inf, fun w hw => ?_⟩ h2).1
  obtain ⟨i, -, rfl⟩ := List.mem_map.mp hw
  exact ⟨h.inf, fun x hx => by rw [List.mem_singleton.mp hx]; exact h.inf⟩

/-! ## Approximations and bounds -/

theorem nnLocal_closed (h : Closed P) {m : Mat α} {size rank : Nat} {r : Solution α}
    (hr : nnLocal m size rank = .ok r) : P r.1 := by
  obtain ⟨sols, h1, hr⟩ := bind_ok hr
  exact mapM_all (P := fun s : Solution α => P s.1) (fun x y hy => singleNN_closed h hy) _ _ h1 r
    (minByFirst_mem (unwrapO_ok hr))

theorem costRankOp_mem (a b : α × Nat) : costRankOp a b = a ∨ costRankOp a b = b := by
  unfold costRankOp
  cases a.1 <ᶠ b.1
  · dsimp only
    rw [if_neg Bool.false_ne_true]
    split
    · exact .inl rfl
    · exact .inr rfl
  · dsimp only
    rw [if_pos rfl]
    split <;> exact .inl rfl

theorem nnMpi_closed (h : Closed P) {shape : Nat → List (α × Nat) → RTree (α × Nat)}
    (hshape : ∀ r l, (shape r l).flatten.Perm l) {size : Nat} {m : Mat α} {rs : List (Solution α)}
    (hr : nnMpi shape size m = .ok rs) : ∀ r ∈ rs, P r.1 := by
  obtain ⟨ls, h1, hr⟩ := bind_ok hr
  obtain ⟨ws, h2, hr⟩ := bind_ok hr
  have hls : ∀ s ∈ ls, P s.1 := mapM_all (P := fun s : Solution α => P s.1) (fun x y hy => nnLocal_closed h hy) _ _ h1
  have hws : ∀ w ∈ ws, P w.1 := mapM_all (P := fun w : α × Nat => P w.1) (fun r w hw => by
    have hmem := RTree.reduce_mem _ costRankOp_mem _ (unwrapO_ok hw)
    have hmem := (hshape r _).mem_iff.mp hmem
    obtain ⟨s, hs, e⟩ := List.mem_map.mp (List.of_mem_zip hmem).1
    rw [← e]
    exact hls s hs) _ _ h2
  split at hr
  · rw [← Except.ok.inj hr]; intro r hr; cases hr
  · split at hr
    · obtain ⟨win, -, hr⟩ := bind_ok hr
      rw [← Except.ok.inj hr]
      intro r hr
      obtain ⟨w, hw, rfl⟩ := List.mem_map.mp hr
      exact hws w hw
    · cases hr

theorem oneTreeLbMpi_closed (h : Closed P) {shape : List α → RTree α} (hshape : ∀ l, (shape l).flatten.Perm l)
    {size : Nat} {m : Mat α} {r : α} (hr : oneTreeLbMpi shape size m = .ok r) : P r := by
  obtain ⟨ls, h1, hr⟩ := bind_ok hr
  have hmem := RTree.reduce_mem _ (fun a b => by unfold mpiMax; split <;> simp) _ (unwrapO_ok hr)
  refine mapM_all (P := P) (fun rank y hy => ?_) _ _ h1 r ((hshape _).mem_iff.mp hmem)
  obtain ⟨ws, k1, hy⟩ := bind_ok hy
  obtain ⟨o, k2, hy⟩ := bind_ok hy
  rw [unwrapO_ok hy] at k2
  exact maxByL_mem k2 (mapM_all (fun x y hy => oneTreeWeight_closed h hy) _ _ k1)

/-- the numbers that a rank prints -/
def Out.Closed (P : α → Prop) (o : Out α) : Prop := ∀ l ∈ o.lines, ∀ x, l.number = some x → P x

omit [FloatOps α] in
theorem Out.closed_nil {e : RM Unit} : Out.Closed P (⟨[], e⟩ : Out α) := fun l hl => by cases hl

theorem mpiMst_closed (h : Closed P) {env : MpiEnv α} {m : Mat α} {rank : Nat} {queue : Bool} :
    (mpiMst env m rank queue).Closed P := by
  unfold mpiMst
  cases (if queue then primQueue (env.peek rank) m [] else primSeq m []) with
  | error e => exact Out.closed_nil
  | ok t =>
    intro l hl x hx
    obtain rfl := List.mem_singleton.mp hl
    rw [← Option.some.inj hx]
    exact h.half _

theorem boundAfter_closed (h : Closed P) {env : MpiEnv α} {m : Mat α} {rank : Nat}
    {lb : Option LowerBoundAlgorithm} : (mpiBoundAfter env m rank lb).Closed P := by
  unfold mpiBoundAfter
  split
  · exact Out.closed_nil
  · exact Out.closed_nil
  · exact mpiMst_closed h
  · exact mpiMst_closed h

omit [FloatOps α] in
theorem andThen_closed {a b : Out α} (ha : a.Closed P) (hb : b.Closed P) : (a.andThen b).Closed P := by
  unfold Out.andThen
  split
  · intro l hl
    rcases List.mem_append.mp hl with hl | hl
    · exact ha l hl
    · exact hb l hl
  · exact ha

omit [FloatOps α] in
theorem all_closed {env : MpiEnv α} {o : Out α} (ho : o.Closed P) : ∀ u ∈ env.all o, u.Closed P := by
  intro u hu
  rw [List.eq_of_mem_replicate hu]
  exact ho

omit [FloatOps α] in
theorem rootAnd_closed {env : MpiEnv α} {a b : Out α} (ha : a.Closed P) (hb : b.Closed P) :
    ∀ u ∈ env.rootAnd a b, u.Closed P := by
  intro u hu
  obtain ⟨r, -, rfl⟩ := List.mem_map.mp hu
  split
  · exact ha
  · exact hb

/-- every number that a rank prints is the result of an operation -/
theorem mpiRuns_closed (h : Closed P) (hneg : P negOne) {env : MpiEnv α}
    (h1 : ∀ l, (env.oneTreeShape l).flatten.Perm l) (h2 : ∀ r l, (env.nnShape r l).flatten.Perm l) {g : Graph α}
    {cmd : MpiCommand} {outs : List (Out α)} (hr : MpiRuns env g cmd outs) : ∀ o ∈ outs, o.Closed P := by
  have two : ∀ {r : Solution α} {f : α → Line α} {k : List Nat → Line α} {e : RM Unit}, P r.1 →
      (∀ x, (f x).number = some x) → (∀ p, (k p).number = none) →
      Out.Closed P (⟨[f r.1, k r.2], e⟩ : Out α) := by
    intro r f k e hP hf hk l hl x hx
    rcases List.mem_cons.mp hl with rfl | hl
    · rw [hf] at hx; rw [← Option.some.inj hx]; exact hP
    · rw [List.mem_singleton] at hl; subst hl; rw [hk] at hx; cases hx
  unfold MpiRuns at hr
  split at hr
  · rw [hr]; exact all_closed Out.closed_nil
  · next m hm =>
    cases cmd with
    | exact a =>
      simp only [MpiExactRun] at hr
      split at hr
      · obtain ⟨r, k1, rfl⟩ := hr
        cases r with
        | error e => exact all_closed Out.closed_nil
        | ok r => exact all_closed (two (staticResult_closed h hneg k1) (fun _ => rfl) (fun _ => rfl))
      · obtain ⟨r, k1, rfl⟩ := hr
        cases r with
        | error e => exact all_closed Out.closed_nil
        | ok r => exact all_closed (two (dynamicResult_closed h k1) (fun _ => rfl) (fun _ => rfl))
      · rw [hr]; exact all_closed Out.closed_nil
    | approx a lb =>
      simp only at hr
      rw [hr]
      cases a with
      | christofides =>
        unfold mpiApprox
        simp only
        split
        · next r k1 =>
          refine rootAnd_closed (andThen_closed (fun l hl x hx => ?_) (boundAfter_closed h)) Out.closed_nil
          obtain rfl := List.mem_singleton.mp hl
          rw [← Option.some.inj hx]
          exact christofidesGeneric_closed h k1
        · exact all_closed Out.closed_nil
      | nearestNeighbour =>
        unfold mpiApprox
        simp only
        split
        · next rs k1 =>
          intro o ho
          obtain ⟨x, hx, rfl⟩ := List.mem_map.mp ho
          refine andThen_closed (two (r := x.1) (nnMpi_closed h h2 k1 _ ?_) (fun _ => rfl) (fun _ => rfl))
            (boundAfter_closed h)
          exact List.fst_mem_of_mem_zipIdx hx
        · exact all_closed Out.closed_nil
    | lowerBound a =>
      simp only at hr
      rw [hr]
      cases a with
      | oneTree =>
        unfold mpiLowerBound
        simp only
        split
        · next w k1 =>
          refine rootAnd_closed (fun l hl x hx => ?_) Out.closed_nil
          obtain rfl := List.mem_singleton.mp hl
          rw [← Option.some.inj hx]
          exact oneTreeLbMpi_closed h h1 k1
        · exact all_closed Out.closed_nil
      | mst =>
        intro o ho
        obtain ⟨r, -, rfl⟩ := List.mem_map.mp ho
        exact mpiMst_closed h
      | mstQueue =>
        intro o ho
        obtain ⟨r, -, rfl⟩ := List.mem_map.mp ho
        exact mpiMst_closed h

end Walky
