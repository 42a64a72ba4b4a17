import Verif.Lemmas.FixedDfs
import Verif.Lemmas.Digits
import Verif.Model.Mpi

/-! # Lemmas: the parallel exact solvers in rounded arithmetic -/

set_option linter.unusedSectionVars false

namespace Walky

open XNum

variable {K : Type} [Field K] [LinearOrder K] [IsStrictOrderedRing K]
variable {R : Rounding K} {T : AddSubgroup K} {N M : K} {m : Mat (XNum K)}

theorem steps_same {σ : Type} {A B : σ → σ → Prop} {I : σ → Prop}
    (h : ∀ s s', I s → (A s s' ↔ B s s') ∧ (B s s' → I s')) {n : Nat} {s0 s : σ} (h0 : I s0) :
    Steps A n s0 s ↔ Steps B n s0 s := by
  have key : ∀ n s0 s, I s0 → Steps B n s0 s → I s := by
    intro n s0 s h0 hs
    induction hs with
    | refl => exact h0
    | tail _ h2 ih => exact (h _ _ (ih h0)).2 h2
  constructor
  · intro hs
    induction hs with
    | refl => exact .refl _
    | tail _ h2 ih => exact .tail (ih h0) ((h _ _ (key _ _ _ h0 (ih h0))).1.mp h2)
  · intro hs
    induction hs with
    | refl => exact .refl _
    | tail h1 h2 ih => exact .tail (ih h0) ((h _ _ (key _ _ _ h0 h1)).1.mpr h2)

theorem incRev_length (b : Nat) : ∀ (ds : List Nat) (c : Nat) (l : List Nat) (f : Bool),
    incRev b c ds = .ok (l, f) → l.length = ds.length
  | [], c, l, f, h => by
    rw [← (Prod.mk.inj (Except.ok.inj h)).1]
  | d :: ds, c, l, f, h => by
    unfold incRev at h
    split at h
    · cases h
    · simp only at h
      split at h
      · rw [← (Prod.mk.inj (Except.ok.inj h)).1]
        simp
      · cases hr : incRev b ((d + c) / b) ds with
        | error => rw [hr] at h; cases h
        | ok r =>
          rw [hr] at h
          rw [← (Prod.mk.inj (Except.ok.inj h)).1]
          simp [incRev_length b ds _ r.1 r.2 hr]

theorem getNextValue_length {b : Nat} {ds l : List Nat} {o : Option (List Nat)}
    (h : getNextValue ds b = .ok (l, o)) : l.length = ds.length ∧ ∀ v, o = some v → v.length = ds.length := by
  unfold getNextValue at h
  cases hr : incRev b 1 ds.reverse with
  | error => rw [hr] at h; cases h
  | ok r =>
    rw [hr] at h
    have hl := incRev_length b _ _ r.1 r.2 hr
    rw [List.length_reverse] at hl
    obtain ⟨h1, h2⟩ := Prod.mk.inj (Except.ok.inj h)
    refine ⟨by rw [← h1]; simpa using hl, fun v hv => ?_⟩
    rw [hv] at h2
    split at h2
    · rw [← Option.some.inj h2]
      simpa using hl
    · cases h2

theorem convertLoop_length (b : Nat) : ∀ (k r : Nat) (ds l : List Nat),
    convertLoop b k r ds = .ok l → l.length = ds.length + k
  | 0, r, ds, l, h => by rw [← Except.ok.inj h]; rfl
  | k + 1, r, ds, l, h => by
    unfold convertLoop at h
    split at h
    · cases h
    · rw [convertLoop_length b k _ _ l h]
      simp
      omega

theorem convert_length {v b k : Nat} {l : List Nat} (h : convertToBAryDigits v b k = .ok l) :
    l.length = k := by
  unfold convertToBAryDigits at h
  cases hc : convertLoop b k v [] with
  | error => rw [hc] at h; cases h
  | ok d =>
    rw [hc] at h
    rw [← Except.ok.inj h, List.length_reverse, convertLoop_length b k v [] d hc]
    simp

theorem splitChunks_length {k b n i : Nat} {lo hi : List Nat} (h : splitChunks k b n i = .ok (lo, hi)) :
    lo.length = k := by
  unfold splitChunks at h
  simp only at h
  split at h
  · split at h
    · cases h
    · cases ha : convertToBAryDigits (i * (b ^ k / n)) b k with
      | error => rw [ha] at h; cases h
      | ok a =>
        rw [ha] at h
        simp only [rm_bind_ok] at h
        cases hb : convertToBAryDigits (i * (b ^ k / n) + b ^ k / n - 1) b k with
        | error => rw [hb] at h; cases h
        | ok c =>
          rw [hb] at h
          rw [← (Prod.mk.inj (Except.ok.inj h)).1]
          exact convert_length ha
  · cases h

/-! ## Threads -/

theorem searchPrefix_same (hR : R.ExactOn T N) (hM : 0 ≤ M) (hm : FixedMat T M m) {L : Nat}
    (hN : (3 * m.dim + L + 3) * M ≤ N) {pre : List Nat} (hp : pre.length = L) :
    @searchPrefix _ R.ops m pre = searchPrefix m pre := by
  have h0 : 0 ≤ (m.dim : K) * M := mul_nonneg (Nat.cast_nonneg _) hM
  have h1 : 0 ≤ (L : K) * M := mul_nonneg (Nat.cast_nonneg _) hM
  unfold searchPrefix
  obtain ⟨h2, h3⟩ := evaluatePath_same hR hm hM (p := pre) (by rw [hp]; linarith)
  rw [h2]
  cases h : m.evaluatePath pre with
  | error => rfl
  | ok cost =>
    simp only [rm_bind_ok]
    have hc := h3 cost h
    rw [hp] at hc
    have := (dfs_same hR hM hm (I := fun _ => True) (B := (m.dim + L + 1) * M)
      (test' := @test5 _ R.ops m) (test := test5 m) (by linarith)
      (fun _ _ _ _ _ hc => ⟨test5_same hR hM hm (mul_nonneg (by positivity) hM) (by linarith) _ _ _ _
        hc, fun _ _ _ => trivial⟩) (m.dim + 1) pre cost ((.inf, []), ()) (L * M) hc
      (by push_cast; linarith) trivial).1
    have this : @dfs _ R.ops Unit m (@test5 _ R.ops m) (m.dim + 1) pre cost
      ((@FloatOps.inf _ R.ops, []), ()) = dfs m (test5 m) (m.dim + 1) pre cost
      ((FloatOps.inf, []), ()) := this
    rw [this]

theorem searchMpi_same (hR : R.ExactOn T N) (hM : 0 ≤ M) (hm : FixedMat T M m) {L : Nat}
    (hN : (3 * m.dim + L + 3) * M ≤ N) {pre : List Nat} (hp : pre.length = L) (g : XNum K) :
    @searchMpi _ R.ops m g pre = searchMpi m g pre := by
  have h0 : 0 ≤ (m.dim : K) * M := mul_nonneg (Nat.cast_nonneg _) hM
  have h1 : 0 ≤ (L : K) * M := mul_nonneg (Nat.cast_nonneg _) hM
  unfold searchMpi
  obtain ⟨h2, h3⟩ := evaluatePath_same hR hm hM (p := pre) (by rw [hp]; linarith)
  rw [h2]
  cases h : m.evaluatePath pre with
  | error => rfl
  | ok cost =>
    simp only [rm_bind_ok]
    have hc := h3 cost h
    rw [hp] at hc
    have := (dfs_same hR hM hm (I := fun _ => True) (B := (m.dim + L + 1) * M)
      (test' := @testMpi _ R.ops m g) (test := testMpi m g) (by linarith)
      (fun _ _ _ _ _ hc => ⟨testMpi_same hR hM hm (mul_nonneg (by positivity) hM) (by linarith) g _ _
        _ _ hc, fun _ _ _ => trivial⟩) (m.dim + 1) pre cost ((.inf, []), ()) (L * M) hc
      (by push_cast; linarith) trivial).1
    have this : @dfs _ R.ops Unit m (@testMpi _ R.ops m g) (m.dim + 1) pre cost
      ((@FloatOps.inf _ R.ops, []), ()) = dfs m (testMpi m g) (m.dim + 1) pre cost
      ((FloatOps.inf, []), ()) := this
    rw [this]

theorem threadStep_same (hR : R.ExactOn T N) (hM : 0 ≤ M) (hm : FixedMat T M m) {L : Nat}
    (hN : (3 * m.dim + L + 3) * M ≤ N) {t : TState (XNum K)} (ht : t.digits.length = L)
    (best : Solution (XNum K)) :
    @threadStep _ R.ops m t best = threadStep m t best ∧
    ∀ t' b, threadStep m t best = .ok (t', b) → t'.digits.length = L := by
  unfold threadStep
  cases hp : t.pending with
  | some r =>
    refine ⟨rfl, fun t' b h => ?_⟩
    rw [← (Prod.mk.inj (Except.ok.inj h)).1]
    exact ht
  | none =>
    simp only
    cases hg : getNextValue t.digits m.dim with
    | error => exact ⟨rfl, fun t' b h => by cases h⟩
    | ok r =>
      obtain ⟨ds, next⟩ := r
      obtain ⟨h1, h2⟩ := getNextValue_length hg
      rw [ht] at h1 h2
      simp only [rm_bind_ok, rm_pure]
      cases next with
      | none =>
        refine ⟨rfl, fun t' b h => ?_⟩
        rw [← (Prod.mk.inj (Except.ok.inj h)).1]
        exact h1
      | some v =>
        simp only
        rw [searchPrefix_same hR hM hm hN (h2 v rfl)]
        refine ⟨rfl, fun t' b h => ?_⟩
        split at h
        · rw [← (Prod.mk.inj (Except.ok.inj h)).1]
          exact h1
        · split at h
          · cases hs : searchPrefix m v with
            | error => rw [hs] at h; cases h
            | ok r =>
              rw [hs] at h
              rw [← (Prod.mk.inj (Except.ok.inj h)).1]
              exact h1
          · rw [← (Prod.mk.inj (Except.ok.inj h)).1]
            exact h1

theorem mapM_all {β γ : Type} {f : β → RM γ} {P : γ → Prop} (h : ∀ x y, f x = .ok y → P y) :
    ∀ (l : List β) (r : List γ), l.mapM f = .ok r → ∀ y ∈ r, P y
  | [], r, hr => by
    rw [List.mapM_nil] at hr
    rw [← Except.ok.inj hr]
    simp
  | a :: t, r, hr => by
    rw [List.mapM_cons] at hr
    cases ha : f a with
    | error => rw [ha] at hr; cases hr
    | ok b =>
      rw [ha] at hr
      simp only [rm_bind_ok] at hr
      cases ht : t.mapM f with
      | error => rw [ht] at hr; cases hr
      | ok r' =>
        rw [ht] at hr
        rw [← Except.ok.inj hr]
        intro y hy
        rcases List.mem_cons.mp hy with h1 | h1
        · rw [h1]; exact h a b ha
        · exact mapM_all h t r' ht y h1

theorem threadedResult_same (hR : R.ExactOn T N) (hM : 0 ≤ M) (hm : FixedMat T M m) {L : Nat}
    (hN : (3 * m.dim + L + 3) * M ≤ N) (nT : Nat) (r : Solution (XNum K)) :
    @ThreadedResult _ R.ops m L nT r ↔ ThreadedResult m L nT r := by
  have h1 : 0 ≤ (L : K) * M := mul_nonneg (Nat.cast_nonneg _) hM
  unfold ThreadedResult
  rw [fifthImprovedSolver_same hR hM hm (by linarith)]
  split
  · rfl
  · refine exists_congr fun s0 => exists_congr fun n => exists_congr fun s => ?_
    refine and_congr_right fun hs0 => ?_
    have h0 : ∀ t ∈ s0.threads, t.digits.length = L := by
      unfold initThreads at hs0
      cases hts : (List.range nT).mapM (fun i => do
          let (lo, hi) ← splitChunks L m.dim nT i
          return ({ digits := lo, maxDigits := hi, pending := none, done := false } :
            TState (XNum K))) with
      | error => rw [hts] at hs0; cases hs0
      | ok ts =>
        rw [hts] at hs0
        rw [← Except.ok.inj hs0]
        refine mapM_all ?_ _ _ hts
        intro i t ht
        cases hc : splitChunks L m.dim nT i with
        | error => rw [hc] at ht; cases ht
        | ok x =>
          rw [hc] at ht
          rw [← Except.ok.inj ht]
          exact splitChunks_length (hi := x.2) hc
    refine and_congr (steps_same (I := fun s => ∀ t ∈ s.threads, t.digits.length = L) ?_ h0) Iff.rfl
    intro s s' hI
    have hst : ∀ i, @TSys.stepOf _ R.ops m i s s' ↔ TSys.stepOf m i s s' := by
      intro i
      unfold TSys.stepOf
      refine exists_congr fun t => exists_congr fun t' => exists_congr fun b => ?_
      refine and_congr_right fun ht => ?_
      rw [(threadStep_same hR hM hm hN (hI t (List.mem_of_getElem? ht)) s.best).1]
    refine ⟨exists_congr hst, ?_⟩
    rintro ⟨i, t, t', b, h2, -, h3, rfl⟩ u hu
    rcases List.mem_or_eq_of_mem_set hu with h4 | h4
    · exact hI u h4
    · rw [h4]
      exact (threadStep_same hR hM hm hN (hI t (List.mem_of_getElem? h2)) s.best).2 t' b h3

/-! ## Static MPI -/

theorem workerRound_same (hR : R.ExactOn T N) (hM : 0 ≤ M) (hm : FixedMat T M m) {L : Nat}
    (hN : (3 * m.dim + L + 3) * M ≤ N) {w : SWorker (XNum K)} (ht : w.digits.length = L)
    (rank : Nat) :
    @workerRound _ R.ops m rank w = workerRound m rank w ∧
    ∀ w', workerRound m rank w = .ok w' → w'.digits.length = L := by
  unfold workerRound
  cases hg : getNextValue w.digits m.dim with
  | error => exact ⟨rfl, fun w' h => by cases h⟩
  | ok r =>
    obtain ⟨ds, next⟩ := r
    obtain ⟨h1, h2⟩ := getNextValue_length hg
    rw [ht] at h1 h2
    simp only [rm_bind_ok, rm_pure]
    cases next with
    | none =>
      refine ⟨rfl, fun w' h => ?_⟩
      rw [← Except.ok.inj h]
      exact h1
    | some v =>
      simp only
      rw [searchMpi_same hR hM hm hN (h2 v rfl)]
      refine ⟨rfl, fun w' h => ?_⟩
      split at h
      · rw [← Except.ok.inj h]
        exact h1
      · split at h
        · cases hs : searchMpi m w.global v with
          | error => rw [hs] at h; cases h
          | ok r =>
            rw [hs] at h
            rw [← Except.ok.inj h]
            exact h1
        · rw [← Except.ok.inj h]
          exact h1

theorem mem_modify_imp {β : Type} {l : List β} {i : Nat} {f : β → β} {P : β → Prop}
    (h : ∀ x ∈ l, P x) (hf : ∀ x, P x → P (f x)) : ∀ x ∈ l.modify i f, P x := by
  intro x hx
  rw [List.mem_iff_getElem?] at hx
  obtain ⟨j, hj⟩ := hx
  rw [List.getElem?_modify] at hj
  cases hg : l[j]? with
  | none => simp [hg] at hj
  | some w =>
    have hw := h w (List.mem_of_getElem? hg)
    simp only [hg, Option.map_eq_map, Option.map_some, Option.some.injEq] at hj
    split at hj
    · rw [← hj]; exact hf w hw
    · rw [← hj]; exact hw

theorem mem_set_imp {β : Type} {l : List β} {i : Nat} {a : β} {P : β → Prop}
    (h : ∀ x ∈ l, P x) (ha : P a) : ∀ x ∈ l.set i a, P x := by
  intro x hx
  rcases List.mem_or_eq_of_mem_set hx with h1 | h1
  · exact h x h1
  · rw [h1]; exact ha

theorem sstep_same (hR : R.ExactOn T N) (hM : 0 ≤ M) (hm : FixedMat T M m) {L : Nat}
    (hN : (3 * m.dim + L + 3) * M ≤ N) (s s' : SSys (XNum K))
    (hI : ∀ w ∈ s.workers, w.digits.length = L) :
    (@SStep _ R.ops m s s' ↔ SStep m s s') ∧ (SStep m s s' → ∀ w ∈ s'.workers, w.digits.length = L) := by
  refine ⟨⟨fun h => ?_, fun h => ?_⟩, fun h => ?_⟩
  · cases h with
    | round i w w' h1 h2 h3 =>
      rw [(workerRound_same hR hM hm hN (hI w (List.mem_of_getElem? h1)) _).1] at h3
      exact .round s i w w' h1 h2 h3
    | recv i w g rest h1 h2 h3 => exact .recv s i w g rest h1 h2 h3
    | root i w msg rest h1 h2 h3 => exact .root s i w msg rest h1 h2 h3
  · cases h with
    | round i w w' h1 h2 h3 =>
      rw [← (workerRound_same hR hM hm hN (hI w (List.mem_of_getElem? h1)) _).1] at h3
      exact @SStep.round _ R.ops m s i w w' h1 h2 h3
    | recv i w g rest h1 h2 h3 => exact @SStep.recv _ R.ops m s i w g rest h1 h2 h3
    | root i w msg rest h1 h2 h3 => exact @SStep.root _ R.ops m s i w msg rest h1 h2 h3
  · cases h with
    | round i w w' h1 h2 h3 =>
      exact mem_set_imp hI
        ((workerRound_same hR hM hm hN (hI w (List.mem_of_getElem? h1)) _).2 w' h3)
    | recv i w g rest h1 h2 h3 =>
      exact mem_set_imp (P := fun w : SWorker (XNum K) => w.digits.length = L) hI
        (hI w (List.mem_of_getElem? h1))
    | root i w msg rest h1 h2 h3 =>
      have h4 := mem_set_imp (i := i) (a := { w with up := rest })
        (P := fun w : SWorker (XNum K) => w.digits.length = L) hI (hI w (List.mem_of_getElem? h2))
      unfold SSys.handle
      split
      · exact mem_modify_imp h4 (fun x hx => hx)
      · exact h4

theorem staticResult_same (hR : R.ExactOn T N) (hM : 0 ≤ M) (hm : FixedMat T M m) {L : Nat}
    (hN : (3 * m.dim + L + 3) * M ≤ N) (nW : Nat) (r : RM (Solution (XNum K))) :
    @StaticResult _ R.ops m L nW r ↔ StaticResult m L nW r := by
  unfold StaticResult
  refine exists_congr fun s0 => exists_congr fun n => exists_congr fun s => ?_
  refine and_congr_right fun hs0 => ?_
  have h0 : ∀ w ∈ s0.workers, w.digits.length = L := by
    unfold initStatic at hs0
    generalize hts : @List.mapM RM _ _ _ _ (List.range nW) = ts' at hs0
    cases ts' with
    | error => cases hs0
    | ok ts =>
      rw [← Except.ok.inj hs0]
      refine mapM_all ?_ _ _ hts
      intro i t ht
      cases hc : splitChunks L m.dim nW i with
      | error => rw [hc] at ht; cases ht
      | ok x =>
        rw [hc] at ht
        rw [← Except.ok.inj ht]
        exact splitChunks_length (hi := x.2) hc
  exact and_congr (steps_same (I := fun s => ∀ w ∈ s.workers, w.digits.length = L)
    (fun s s' hI => sstep_same hR hM hm hN s s' hI) h0) Iff.rfl

/-! ## Dynamic MPI -/

/-- all prefixes in the system have three digits -/
structure DLen (s : DSys (XNum K)) : Prop where
  down : ∀ w ∈ s.workers, ∀ msg ∈ w.down, msg.2.length = 3
  current : ∀ p, s.current = some p → p.length = 3

theorem nextPrefix_length {n : Nat} : ∀ (fuel : Nat) (p v : List Nat),
    nextPrefix n fuel p = .ok (some v) → v.length = p.length
  | 0, p, v, h => by cases h
  | fuel + 1, p, v, h => by
    unfold nextPrefix at h
    cases hg : getNextValue p n with
    | error => rw [hg] at h; cases h
    | ok r =>
      obtain ⟨ds, next⟩ := r
      rw [hg] at h
      obtain ⟨-, h2⟩ := getNextValue_length hg
      simp only [rm_bind_ok, rm_pure] at h
      cases next with
      | none => cases h
      | some u =>
        simp only at h
        split at h
        · rw [← Option.some.inj (Except.ok.inj h)]
          exact h2 u rfl
        · rw [nextPrefix_length fuel u v h]
          exact h2 u rfl

theorem dynWorker_same (hR : R.ExactOn T N) (hM : 0 ≤ M) (hm : FixedMat T M m)
    (hN : (3 * m.dim + 6) * M ≤ N) (rank : Nat) (w : DWorker (XNum K)) (msg : XNum K × List Nat)
    (hmsg : msg.2.length = 3) :
    @dynWorker _ R.ops m rank w msg = dynWorker m rank w msg := by
  unfold dynWorker
  rw [searchMpi_same hR hM hm (L := 3) (by push_cast; linarith) hmsg]
  rfl

theorem dynWorker_down {rank : Nat} {w w' : DWorker (XNum K)} {msg : XNum K × List Nat}
    (h : dynWorker m rank w msg = .ok w') : w'.down = w.down := by
  unfold dynWorker at h
  split at h
  · rw [← Except.ok.inj h]
  · cases hs : searchMpi m msg.1 msg.2 with
    | error => rw [hs] at h; cases h
    | ok r =>
      rw [hs] at h
      rw [← Except.ok.inj h]

theorem dhandle_len {s s' : DSys (XNum K)} {n : Nat} {msg : XNum K × Nat} (hI : DLen s)
    (h : s.handle n msg = .ok s') : DLen s' := by
  unfold DSys.handle at h
  simp only at h
  cases hc : s.current with
  | none =>
    rw [hc] at h
    rw [← Except.ok.inj h]
    refine ⟨?_, fun p hp => by simp at hp⟩
    refine mem_modify_imp (P := fun w : DWorker (XNum K) => ∀ msg ∈ w.down, msg.2.length = 3) hI.down ?_
    intro w hw msg hmsg
    rcases List.mem_append.mp hmsg with h1 | h1
    · exact hw msg h1
    · rw [List.mem_singleton.mp h1]
      rfl
  | some p =>
    rw [hc] at h
    simp only at h
    cases hn : nextPrefix n (n ^ 3 + 1) p with
    | error => rw [hn] at h; cases h
    | ok next =>
      rw [hn] at h
      rw [← Except.ok.inj h]
      have hp := hI.current p hc
      refine ⟨?_, fun v hv => ?_⟩
      · refine mem_modify_imp (P := fun w : DWorker (XNum K) => ∀ msg ∈ w.down, msg.2.length = 3) hI.down ?_
        intro w hw msg hmsg
        rcases List.mem_append.mp hmsg with h1 | h1
        · exact hw msg h1
        · rw [List.mem_singleton.mp h1]
          exact hp
      · have hv : next = some v := hv
        rw [hv] at hn
        rw [nextPrefix_length _ _ _ hn, hp]

theorem dstep_same (hR : R.ExactOn T N) (hM : 0 ≤ M) (hm : FixedMat T M m)
    (hN : (3 * m.dim + 6) * M ≤ N) (s s' : DSys (XNum K)) (hI : DLen s) :
    (@DStep _ R.ops m s s' ↔ DStep m s s') ∧ (DStep m s s' → DLen s') := by
  refine ⟨⟨fun h => ?_, fun h => ?_⟩, fun h => ?_⟩
  · cases h with
    | recv i w w' msg rest h1 h2 h3 h4 =>
      have h5 := hI.down w (List.mem_of_getElem? h1) msg (by rw [h3]; simp)
      rw [dynWorker_same hR hM hm hN _ _ _ h5] at h4
      exact .recv s i w w' msg rest h1 h2 h3 h4
    | root _ i w msg rest h1 h2 h3 h4 => exact .root s s' i w msg rest h1 h2 h3 h4
  · cases h with
    | recv i w w' msg rest h1 h2 h3 h4 =>
      have h5 := hI.down w (List.mem_of_getElem? h1) msg (by rw [h3]; simp)
      rw [← dynWorker_same hR hM hm hN _ _ _ h5] at h4
      exact @DStep.recv _ R.ops m s i w w' msg rest h1 h2 h3 h4
    | root _ i w msg rest h1 h2 h3 h4 => exact @DStep.root _ R.ops m s s' i w msg rest h1 h2 h3 h4
  · cases h with
    | recv i w w' msg rest h1 h2 h3 h4 =>
      have h5 := hI.down w (List.mem_of_getElem? h1)
      refine ⟨?_, hI.current⟩
      refine mem_set_imp (P := fun w : DWorker (XNum K) => ∀ msg ∈ w.down, msg.2.length = 3) hI.down ?_
      rw [dynWorker_down h4]
      intro x hx
      exact h5 x (by rw [h3]; exact List.mem_cons_of_mem _ hx)
    | root _ i w msg rest h1 h2 h3 h4 =>
      refine dhandle_len (s := { s with workers := s.workers.set i { w with up := rest } })
        ⟨?_, hI.current⟩ h4
      exact mem_set_imp (P := fun w : DWorker (XNum K) => ∀ msg ∈ w.down, msg.2.length = 3) hI.down
        (hI.down w (List.mem_of_getElem? h2))

theorem dynamicResult_same (hR : R.ExactOn T N) (hM : 0 ≤ M) (hm : FixedMat T M m)
    (hN : (3 * m.dim + 6) * M ≤ N) (nW : Nat) (r : RM (Solution (XNum K))) :
    @DynamicResult _ R.ops m nW r ↔ DynamicResult m nW r := by
  unfold DynamicResult
  refine exists_congr fun n => exists_congr fun s => ?_
  refine and_congr (steps_same (I := DLen) (fun s s' hI => dstep_same hR hM hm hN s s' hI) ?_) Iff.rfl
  constructor
  · intro w hw msg hmsg
    obtain ⟨i, -, rfl⟩ := List.mem_map.mp hw
    cases hmsg
  · intro p hp
    rw [← Option.some.inj hp]
    rfl

end Walky
