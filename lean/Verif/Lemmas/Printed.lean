import Verif.Model.Cli
import Verif.Lemmas.FixedCli
import Verif.Lemmas.FixedPar

/-! # Lemmas: every number in the output is the result of an operation -/

namespace Walky

open FloatOps

variable {α : Type} [FloatOps α] {P : α → Prop}

/-- `P` holds for the constants and for the results of the operations -/
structure Closed (P : α → Prop) : Prop where
  zero : P zero
  inf : P inf
  add : ∀ x y, P (x +ᶠ y)
  half : ∀ x, P (half x)

/-- the number in a line -/
def Line.number : Line α → Option α
  | .bestCost x => some x
  | .bestPermutation _ => none
  | .christofidesWeight x => some x
  | .nnWeight x => some x
  | .nnTour _ => none
  | .oneTreeBound x => some x
  | .mstBound x => some x

theorem sum_closed (h : Closed P) (l : List α) : P (FloatOps.sum l) := by
  unfold FloatOps.sum
  have : ∀ (l : List α) a, P a → P (l.foldl add a) := by
    intro l
    induction l with
    | nil => exact fun a ha => ha
    | cons x t ih => exact fun a _ => ih _ (h.add _ _)
  exact this l _ h.zero

theorem bind_ok {β γ : Type} {x : RM β} {f : β → RM γ} {r : γ} (h : (x >>= f) = .ok r) :
    ∃ y, x = .ok y ∧ f y = .ok r := by
  cases x with
  | error e => cases h
  | ok y => exact ⟨y, rfl, h⟩

theorem map_ok {β γ : Type} {x : RM β} {f : β → γ} {r : γ} (h : f <$> x = .ok r) : ∃ y, x = .ok y ∧ r = f y := by
  cases x with
  | error e => cases h
  | ok y => exact ⟨y, rfl, (Except.ok.inj h).symm⟩

theorem unwrapO_ok {β : Type} {o : Option β} {r : β} (h : unwrapO o = .ok r) : o = some r := by
  cases o with
  | none => cases h
  | some x => rw [Except.ok.inj h]

theorem evaluateCircle_closed (h : Closed P) {m : Mat α} {p : List Nat} {x : α}
    (hx : m.evaluateCircle p = .ok x) : P x := by
  unfold Mat.evaluateCircle at hx
  split at hx
  · rw [← Except.ok.inj hx]; exact h.zero
  · obtain ⟨_, -, hx⟩ := bind_ok hx
    obtain ⟨_, -, hx⟩ := bind_ok hx
    obtain ⟨_, -, hx⟩ := bind_ok hx
    obtain ⟨_, -, hx⟩ := bind_ok hx
    rw [← Except.ok.inj hx]; exact h.add _ _

theorem permLoop_closed (h : Closed P) {m : Mat α} {step : List Nat → RM (Bool × List Nat)} {fuel : Nat}
    {cur : List Nat} {best r : Solution α} (hb : P best.1) (hr : permLoop m step fuel cur best = .ok r) : P r.1 := by
  induction fuel generalizing cur best with
  | zero => cases hr
  | succ fuel ih =>
    rw [permLoop] at hr
    obtain ⟨⟨more, cur'⟩, -, hr⟩ := bind_ok hr
    simp only at hr
    split at hr
    · obtain ⟨cost, hc, hr⟩ := bind_ok hr
      split at hr
      · exact ih (evaluateCircle_closed h hc) hr
      · exact ih hb hr
    · rw [← Except.ok.inj hr]; exact hb

theorem dfs_closed (h : Closed P) {σ : Type} {m : Mat α} {test : PruneTest σ α} {fuel : Nat} {pre : List Nat}
    {cost : α} {s r : Solution α × σ} (hs : P s.1.1) (hr : dfs m test fuel pre cost s = .ok r) : P r.1.1 := by
  induction fuel generalizing pre cost s r with
  | zero => cases hr
  | succ fuel ih =>
    rw [dfs] at hr
    split at hr
    · obtain ⟨_, -, hr⟩ := bind_ok hr
      obtain ⟨_, -, hr⟩ := bind_ok hr
      obtain ⟨_, -, hr⟩ := bind_ok hr
      simp only at hr
      split at hr
      · rw [← Except.ok.inj hr]; exact h.add _ _
      · rw [← Except.ok.inj hr]; exact hs
    · obtain ⟨r', hf, hr⟩ := bind_ok hr
      rw [← Except.ok.inj hr]
      refine foldlM_inv' (P := fun st : α × Solution α × σ => P st.2.1.1) ?_ hs hf
      rintro ⟨cur, s⟩ hst i - s' hs'
      simp only at hs'
      split at hs'
      · rw [← Except.ok.inj hs']; exact hst
      · split at hs'
        · obtain ⟨s2, h2, hs'⟩ := bind_ok hs'
          rw [← Except.ok.inj hs']
          exact ih hst h2
        · obtain ⟨_, -, hs'⟩ := bind_ok hs'
          obtain ⟨_, -, hs'⟩ := bind_ok hs'
          obtain ⟨_, -, hs'⟩ := bind_ok hs'
          obtain ⟨⟨go, aux⟩, -, hs'⟩ := bind_ok hs'
          simp only at hs'
          split at hs'
          · obtain ⟨s2, h2, hs'⟩ := bind_ok hs'
            rw [← Except.ok.inj hs']
            exact ih (s := (s.1, aux)) hst h2
          · obtain ⟨s2, h2, hs'⟩ := bind_ok hs'
            rw [← Except.ok.inj hs']
            rw [← Except.ok.inj h2]; exact hst

theorem solveDfs_closed (h : Closed P) {σ : Type} {m : Mat α} {test : PruneTest σ α} {aux : σ} {r : Solution α}
    (hr : solveDfs m test aux = .ok r) : P r.1 := by
  obtain ⟨r', h1, h2⟩ := bind_ok hr
  rw [← Except.ok.inj h2]
  exact dfs_closed h (s := ((inf, []), aux)) h.inf h1

theorem searchPrefix_closed (h : Closed P) {m : Mat α} {pre : List Nat} {r : Solution α}
    (hr : searchPrefix m pre = .ok r) : P r.1 := by
  obtain ⟨_, -, hr⟩ := bind_ok hr
  obtain ⟨r', h1, h2⟩ := bind_ok hr
  rw [← Except.ok.inj h2]
  exact dfs_closed h (s := ((inf, []), ())) h.inf h1

/-- numbers that a thread still has to report, and the best one -/
def TSys.Closed (P : α → Prop) (s : TSys α) : Prop :=
  P s.best.1 ∧ ∀ t ∈ s.threads, ∀ r, t.pending = some r → P r.1

theorem threadStep_closed (h : Closed P) {m : Mat α} {t t' : TState α} {b b' : Solution α} (hb : P b.1)
    (ht : ∀ r, t.pending = some r → P r.1) (hs : threadStep m t b = .ok (t', b')) :
    P b'.1 ∧ ∀ r, t'.pending = some r → P r.1 := by
  unfold threadStep at hs
  split at hs
  · next r hr =>
    have := Except.ok.inj hs
    obtain ⟨rfl, rfl⟩ := Prod.mk.inj this
    refine ⟨?_, fun r h => by cases h⟩
    split
    · exact ht r hr
    · exact hb
  · next hp =>
    obtain ⟨⟨digits, next⟩, -, hs⟩ := bind_ok hs
    simp only at hs
    split at hs
    · obtain ⟨rfl, rfl⟩ := Prod.mk.inj (Except.ok.inj hs)
      exact ⟨hb, fun r h => by simp only [hp] at h; cases h⟩
    · split at hs
      · obtain ⟨rfl, rfl⟩ := Prod.mk.inj (Except.ok.inj hs)
        exact ⟨hb, fun r h => by simp only [hp] at h; cases h⟩
      · split at hs
        · obtain ⟨r, h1, hs⟩ := bind_ok hs
          obtain ⟨rfl, rfl⟩ := Prod.mk.inj (Except.ok.inj hs)
          refine ⟨hb, fun r' h' => ?_⟩
          rw [← Option.some.inj h']
          exact searchPrefix_closed h h1
        · obtain ⟨rfl, rfl⟩ := Prod.mk.inj (Except.ok.inj hs)
          exact ⟨hb, fun r h => by simp only [hp] at h; cases h⟩

theorem steps_closed (h : Closed P) {m : Mat α} {n : Nat} {s s' : TSys α} (hs : TSys.Closed P s)
    (hst : Steps (TSys.step m) n s s') : TSys.Closed P s' := by
  induction hst with
  | refl => exact hs
  | tail _ hst ih =>
    replace ih := ih hs
    obtain ⟨i, t, t', b, h1, -, h2, rfl⟩ := hst
    obtain ⟨k1, k2⟩ := threadStep_closed h ih.1 (ih.2 t (List.mem_of_getElem? h1)) h2
    refine ⟨k1, fun u hu => ?_⟩
    rcases List.mem_or_eq_of_mem_set hu with hu | rfl
    · exact ih.2 u hu
    · exact k2

theorem threadedResult_closed (h : Closed P) {m : Mat α} {k n : Nat} {r : Solution α}
    (hr : ThreadedResult m k n r) : P r.1 := by
  unfold ThreadedResult at hr
  split at hr
  · exact solveDfs_closed h hr
  · obtain ⟨s0, n, s, h1, h2, -, rfl⟩ := hr
    refine (steps_closed h ?_ h2).1
    obtain ⟨ts, k1, k2⟩ := bind_ok h1
    rw [← Except.ok.inj k2]
    refine ⟨h.inf, fun t ht r hr => ?_⟩
    have := mapM_all (P := fun t : TState α => t.pending = none) (fun x y hy => by
      obtain ⟨⟨lo, hi⟩, -, hy⟩ := bind_ok hy
      rw [← Except.ok.inj hy]) _ _ k1 t ht
    rw [this] at hr
    cases hr

theorem singleNN_closed (h : Closed P) {m : Mat α} {i : Nat} {r : Solution α} (hr : singleNN m i = .ok r) :
    P r.1 := by
  unfold singleNN at hr
  split at hr
  · obtain ⟨_, -, hr⟩ := bind_ok hr
    obtain ⟨_, -, hr⟩ := bind_ok hr
    rw [← Except.ok.inj hr]; exact h.add _ _
  · cases hr

theorem nNNSeq_closed (h : Closed P) {xs : List Nat} {m : Mat α} {n : Nat} {r : Solution α}
    (hr : nNNSeq xs m n = .ok r) : P r.1 := by
  unfold nNNSeq at hr
  split at hr
  · cases hr
  · split at hr
    · cases hr
    · obtain ⟨sols, h1, hr⟩ := bind_ok hr
      exact mapM_all (P := fun s : Solution α => P s.1) (fun x y hy => singleNN_closed h hy) _ _ h1 r
        (minByFirst_mem (unwrapO_ok hr))

theorem nNNPar_closed (h : Closed P) {shape : List (Solution α) → RTree (Solution α)}
    (hshape : ∀ l, (shape l).flatten = l) {xs : List Nat} {m : Mat α} {n : Nat} {r : Solution α}
    (hr : nNNPar shape xs m n = .ok r) : P r.1 := by
  unfold nNNPar at hr
  split at hr
  · cases hr
  · split at hr
    · cases hr
    · obtain ⟨sols, h1, hr⟩ := bind_ok hr
      have hmem := RTree.reduce_mem _ (fun a b => by by_cases h : solLt b a <;> simp [h]) _ (unwrapO_ok hr)
      rw [hshape] at hmem
      exact mapM_all (P := fun s : Solution α => P s.1) (fun x y hy => singleNN_closed h hy) _ _ h1 r hmem

theorem christofidesTail_closed (h : Closed P) {dbg : Bool} {m : Mat α} {g : MGraph α} {r : Solution α}
    (hr : christofidesTail dbg m g = .ok r) : P r.1 := by
  unfold christofidesTail at hr
  obtain ⟨_, -, hr⟩ := bind_ok hr
  obtain ⟨_, -, hr⟩ := bind_ok hr
  obtain ⟨_, -, hr⟩ := bind_ok hr
  split at hr
  · cases hr
  · rw [← Except.ok.inj hr]; exact sum_closed h _

theorem christofidesGeneric_closed (h : Closed P) {dbg : Bool} {m : Mat α}
    {matcher : Graph α → Mat α → RM (List (Nat × Nat))} {r : Solution α}
    (hr : christofidesGeneric dbg m matcher = .ok r) : P r.1 := by
  unfold christofidesGeneric at hr
  split at hr
  · cases hr
  · obtain ⟨_, -, hr⟩ := bind_ok hr
    obtain ⟨_, -, hr⟩ := bind_ok hr
    obtain ⟨_, -, hr⟩ := bind_ok hr
    exact christofidesTail_closed h hr

theorem christofidesPar_closed (h : Closed P) {dbg : Bool} {m : Mat α} {rng : MatchRng} {s : ParSched α}
    {r : Solution α} (hr : ChristofidesPar dbg m rng s (.ok r)) : P r.1 := by
  unfold ChristofidesPar ChristofidesGenericPar at hr
  split at hr
  · cases hr
  · split at hr
    · cases hr
    · split at hr
      · cases hr
      · split at hr
        · cases hr
        · obtain ⟨g, -, hr⟩ := hr
          exact christofidesTail_closed h hr.symm

theorem maxPartial_mem {x y r : α} (h : maxPartial x y = .ok r) : r = x ∨ r = y := by
  unfold maxPartial at h
  split at h
  · cases h
  · rw [← Except.ok.inj h]
    split
    · exact Or.inl rfl
    · exact Or.inr rfl

theorem maxByL_mem {l : List α} {r : α} (h : maxByL l = .ok (some r)) (hl : ∀ x ∈ l, P x) : P r := by
  cases l with
  | nil => cases h
  | cons x t =>
    obtain ⟨r', h1, h2⟩ := bind_ok h
    rw [← Option.some.inj (Except.ok.inj h2)]
    refine foldlM_inv' (P := P) ?_ (hl x (by simp)) h1
    intro s hs y hy s' hs'
    rcases maxPartial_mem hs' with rfl | rfl
    · exact hs
    · exact hl _ (by simp [hy])

theorem reduceM_mem {t : RTree α} (ht : ∀ x ∈ t.flatten, P x) {r : α}
    (h : t.reduceM maxPartial = .ok (some r)) : P r := by
  induction t generalizing r with
  | empty => cases h
  | leaf x => rw [← Option.some.inj (Except.ok.inj h)]; exact ht x (by simp [RTree.flatten])
  | node a b iha ihb =>
    obtain ⟨x, hx, h⟩ := bind_ok h
    obtain ⟨y, hy, h⟩ := bind_ok h
    have ha : ∀ x ∈ a.flatten, P x := fun x hx => ht x (by simp [RTree.flatten, hx])
    have hb : ∀ x ∈ b.flatten, P x := fun x hx => ht x (by simp [RTree.flatten, hx])
    cases x with
    | none => cases Except.ok.inj h; exact ihb hb hy
    | some x =>
      cases y with
      | none => cases Except.ok.inj h; exact iha ha hx
      | some y =>
        obtain ⟨z, hz, h⟩ := bind_ok h
        cases Except.ok.inj h
        rcases maxPartial_mem hz with rfl | rfl
        · exact iha ha hx
        · exact ihb hb hy

theorem oneTreeWeight_closed (h : Closed P) {m : Mat α} {i : Nat} {r : α} (hr : oneTreeWeight m i = .ok r) :
    P r := by
  obtain ⟨_, -, hr⟩ := bind_ok hr
  rw [← Except.ok.inj hr]; exact h.half _

theorem lowerBoundRun_closed (h : Closed P) {env : Env α} (hshape : ∀ l, (env.oneTreeShape l).flatten = l)
    {g : Graph α} {a : LowerBoundAlgorithm} {p : Parallelism} {lines : List (Line α)}
    (hr : lowerBoundRun env g a p = .ok lines) : ∀ l ∈ lines, ∀ x, l.number = some x → P x := by
  unfold lowerBoundRun at hr
  obtain ⟨g', -, hr⟩ := bind_ok hr
  obtain ⟨m, -, hr⟩ := bind_ok hr
  intro l hl x hx
  cases a with
  | oneTree =>
    cases p with
    | singleThreaded =>
      obtain ⟨w, hw, hr⟩ := bind_ok hr
      rw [← Except.ok.inj hr, List.mem_singleton] at hl
      subst hl
      rw [← Option.some.inj hx]
      obtain ⟨ws, h1, hw⟩ := bind_ok hw
      obtain ⟨o, h2, hw⟩ := bind_ok hw
      rw [unwrapO_ok hw] at h2
      exact maxByL_mem h2 (mapM_all (fun x y hy => oneTreeWeight_closed h hy) _ _ h1)
    | multiThreaded =>
      obtain ⟨w, hw, hr⟩ := bind_ok hr
      rw [← Except.ok.inj hr, List.mem_singleton] at hl
      subst hl
      rw [← Option.some.inj hx]
      obtain ⟨ws, h1, hw⟩ := bind_ok hw
      obtain ⟨o, h2, hw⟩ := bind_ok hw
      rw [unwrapO_ok hw] at h2
      exact reduceM_mem (by rw [hshape]; exact mapM_all (fun x y hy => oneTreeWeight_closed h hy) _ _ h1) h2
  | mst =>
    cases p <;>
    · obtain ⟨w, hw, hr⟩ := bind_ok hr
      rw [← Except.ok.inj hr, List.mem_singleton] at hl
      subst hl
      rw [← Option.some.inj hx]
      exact h.half _
  | mstQueue =>
    simp only at hr
    obtain ⟨w, hw, hr⟩ := bind_ok hr
    rw [← Except.ok.inj hr, List.mem_singleton] at hl
    subst hl
    rw [← Option.some.inj hx]
    exact h.half _

theorem withBound_closed (h : Closed P) {env : Env α} (hshape : ∀ l, (env.oneTreeShape l).flatten = l)
    {g : Graph α} {lb : Option LowerBoundAlgorithm} {p : Parallelism} {out : RM (List (Line α))}
    (ho : ∀ lines, out = .ok lines → ∀ l ∈ lines, ∀ x, l.number = some x → P x) {lines : List (Line α)}
    (hr : withBound env g p lb out = .ok lines) : ∀ l ∈ lines, ∀ x, l.number = some x → P x := by
  obtain ⟨ls, h1, hr⟩ := bind_ok hr
  cases lb with
  | none => rw [← Except.ok.inj hr]; exact ho _ h1
  | some a =>
    obtain ⟨ls', h2, hr⟩ := bind_ok hr
    rw [← Except.ok.inj hr]
    intro l hl
    rcases List.mem_append.mp hl with hl | hl
    · exact ho _ h1 l hl
    · exact lowerBoundRun_closed h hshape h2 l hl

/-- every number in the output is the result of an operation -/
theorem runs_closed (h : Closed P) {env : Env α} (h1 : ∀ l, (env.oneTreeShape l).flatten = l)
    (h2 : ∀ l, (env.nnShape l).flatten = l) {g : Graph α} {cmd : Command} {lines : List (Line α)}
    (hr : Runs env g cmd (.ok lines)) : ∀ l ∈ lines, ∀ x, l.number = some x → P x := by
  have two : ∀ {r : Solution α} {f : α → Line α} {k : List Nat → Line α}, P r.1 → (∀ x, (f x).number = some x) →
      (∀ p, (k p).number = none) → ∀ l ∈ [f r.1, k r.2], ∀ x, l.number = some x → P x := by
    intro r f k hP hf hk l hl x hx
    rcases List.mem_cons.mp hl with rfl | hl
    · rw [hf] at hx; rw [← Option.some.inj hx]; exact hP
    · rw [List.mem_singleton] at hl; subst hl; rw [hk] at hx; cases hx
  cases cmd with
  | exact a p =>
    simp only [Runs, ExactRun] at hr
    split at hr
    · cases hr
    · next m hm =>
      cases p with
      | singleThreaded =>
        obtain ⟨r, k1, k2⟩ := map_ok hr.symm
        rw [k2]
        refine two (r := r) ?_ (fun _ => rfl) (fun _ => rfl)
        cases a with
        | v0 => exact permLoop_closed h h.inf k1
        | v1 => exact permLoop_closed h h.inf k1
        | _ => exact solveDfs_closed h k1
      | multiThreaded =>
        obtain ⟨r, k1, k2⟩ := hr
        rw [Except.ok.inj k2]
        exact two (r := r) (threadedResult_closed h k1) (fun _ => rfl) (fun _ => rfl)
  | approx a p lb =>
    simp only [Runs, ApproxRun] at hr
    split at hr
    · cases hr
    · next m hm =>
      obtain ⟨res, hr⟩ := hr
      cases a with
      | christofides =>
        obtain ⟨k1, k2⟩ := hr
        refine withBound_closed h h1 (fun ls hls => ?_) k2.symm
        obtain ⟨r, k3, k4⟩ := map_ok hls
        have hP : P r.1 := by
          cases p with
          | singleThreaded => exact christofidesGeneric_closed h (k1.symm.trans k3)
          | multiThreaded =>
            simp only [k3] at k1
            exact christofidesPar_closed h k1
        rw [k4]
        intro l hl x hx
        rw [List.mem_singleton] at hl
        subst hl
        rw [← Option.some.inj hx]
        exact hP
      | nearestNeighbour =>
        obtain ⟨k1, k2⟩ := hr
        refine withBound_closed h h1 (fun ls hls => ?_) k2.symm
        obtain ⟨r, k3, k4⟩ := map_ok hls
        rw [k4]
        refine two (r := r) ?_ (fun _ => rfl) (fun _ => rfl)
        cases p with
        | singleThreaded => exact nNNSeq_closed h (k1.symm.trans k3)
        | multiThreaded => exact nNNPar_closed h h2 (k1.symm.trans k3)
  | lowerBound a p => exact lowerBoundRun_closed h h1 hr.symm

end Walky
