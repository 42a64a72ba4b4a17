import Verif.Props.Traffic

/-! # Property C126: the work of the multi-threaded exact solver -/

namespace Walky.Props

open FloatOps Spec

variable {α : Type} [FloatOps α]

/-- the steps that are left for a thread whose last value is `hi` -/
def stepsLeft (n hi : Nat) (t : TState α) : Nat :=
  if t.done then 0
  else (hi - digitsVal n t.digits) + between n (digitsVal n t.digits) (hi - 1) +
    if t.pending.isSome then 1 else 0

/-- the updates of the best solution that are left for a thread -/
def updatesLeft (n hi : Nat) (t : TState α) : Nat :=
  if t.done then 0
  else between n (digitsVal n t.digits) (hi - 1) + if t.pending.isSome then 1 else 0

/-- a thread with the last value `hi` -/
structure TPos (n hi : Nat) (t : TState α) : Prop where
  len : t.digits.length = 3
  valid : ValidDigits n t.digits
  mlen : t.maxDigits.length = 3
  mvalid : ValidDigits n t.maxDigits
  mval : digitsVal n t.maxDigits = hi
  lt : t.done = false → digitsVal n t.digits < hi

theorem between_pred {n v hi : Nat} (h : v + 1 < hi) :
    between n v (hi - 1) = between n (v + 1) (hi - 1) + if distinct3 n (v + 1) then 1 else 0 := by
  unfold between
  rw [show hi - 1 - v = (hi - 1 - (v + 1)) + 1 by omega, List.range'_succ, List.countP_cons]

/-- a step of a thread, whatever the search returns -/
theorem stepsLeft_step {m : Mat α} {hi : Nat} {t t' : TState α} {b b' : Solution α} (h : TPos m.dim hi t)
    (hd : t.done = false) (hs : threadStep m t b = .ok (t', b')) :
    TPos m.dim hi t' ∧ stepsLeft m.dim hi t = stepsLeft m.dim hi t' + 1 ∧
      updatesLeft m.dim hi t = updatesLeft m.dim hi t' + if t.pending.isSome then 1 else 0 := by
  have hlt := h.lt hd
  have hhi : hi < m.dim ^ 3 := by
    have := digitsVal_lt h.mvalid
    rwa [h.mlen, h.mval] at this
  unfold threadStep at hs
  cases hp : t.pending with
  | some r =>
    rw [hp] at hs
    simp only [Except.ok.injEq, Prod.mk.injEq] at hs
    obtain ⟨rfl, -⟩ := hs
    refine ⟨⟨h.len, h.valid, h.mlen, h.mvalid, h.mval, h.lt⟩, ?_⟩
    simp [stepsLeft, updatesLeft, hd, hp]
  | none =>
    rw [hp] at hs
    simp only at hs
    obtain ⟨l, e1, e2, e3 | e3⟩ := getNextValue_ok h.valid
    · obtain ⟨_, e4, e5⟩ := e3
      have hl : l.length = 3 := by rw [e1, h.len]
      simp only [e4, rm_bind_ok] at hs
      by_cases hmax : l = t.maxDigits
      · rw [if_pos hmax] at hs
        cases hs
        have hv : digitsVal m.dim l = hi := by rw [hmax, h.mval]
        refine ⟨⟨hl, e2, h.mlen, h.mvalid, h.mval, fun hd => by simp at hd⟩, ?_⟩
        have : between m.dim (digitsVal m.dim t.digits) (hi - 1) = 0 := by
          unfold between
          rw [show hi - 1 - digitsVal m.dim t.digits = 0 by omega]
          rfl
        simp [stepsLeft, updatesLeft, hd, hp, this]
        omega
      · rw [if_neg hmax] at hs
        have hne : digitsVal m.dim l ≠ hi := by
          intro e
          exact hmax (digitsVal_inj (by rw [hl, h.mlen]) e2 h.mvalid (by rw [e, h.mval]))
        have hlt' : digitsVal m.dim l < hi := by omega
        have hb := between_pred (n := m.dim) (v := digitsVal m.dim t.digits) (hi := hi) (by omega)
        rw [← e5, distinct3_iff hl e2] at hb
        by_cases hu : isUnique l = true
        · rw [if_pos hu] at hs hb
          cases hr : searchPrefix m l with
          | error e => rw [hr] at hs; cases hs
          | ok r =>
            rw [hr] at hs
            cases hs
            refine ⟨⟨hl, e2, h.mlen, h.mvalid, h.mval, fun _ => hlt'⟩, ?_⟩
            simp [stepsLeft, updatesLeft, hd, hp, hb]
            omega
        · rw [if_neg hu] at hs hb
          cases hs
          refine ⟨⟨hl, e2, h.mlen, h.mvalid, h.mval, fun _ => hlt'⟩, ?_⟩
          simp [stepsLeft, updatesLeft, hd, hp, hb]
          omega
    · obtain ⟨e4, e5⟩ := e3
      rw [h.len] at e4
      omega

/-- the steps that are left for all threads; thread `i` has the last value `hi i` -/
def allLeft (n : Nat) (hi : Nat → Nat) (s : TSys α) : Nat := (s.threads.mapIdx fun i t => stepsLeft n (hi i) t).sum

theorem allLeft_step {m : Mat α} {hi : Nat → Nat} {s s' : TSys α}
    (h : ∀ i t, s.threads[i]? = some t → TPos m.dim (hi i) t) (hs : TSys.step m s s') :
    (∀ i t, s'.threads[i]? = some t → TPos m.dim (hi i) t) ∧
      allLeft m.dim hi s = allLeft m.dim hi s' + 1 := by
  obtain ⟨i, t, t', b, h1, h2, h3, rfl⟩ := hs
  obtain ⟨k1, k2, -⟩ := stepsLeft_step (h i t h1) h2 h3
  constructor
  · intro j u hu
    simp only at hu
    by_cases hj : j = i
    · subst hj
      have hlt := (List.getElem?_eq_some_iff.mp h1).1
      rw [List.getElem?_set_self hlt] at hu
      cases hu
      exact k1
    · rw [List.getElem?_set_ne (Ne.symm hj)] at hu
      exact h j u hu
  · have := sum_mapIdx_set (fun i t => stepsLeft m.dim (hi i) t) s.threads i t t' h1
    unfold allLeft
    simp only at this ⊢
    omega

theorem allLeft_steps {m : Mat α} {hi : Nat → Nat} {s s' : TSys α} {k : Nat} (hs : Steps (TSys.step m) k s s')
    (h : ∀ i t, s.threads[i]? = some t → TPos m.dim (hi i) t) :
    (∀ i t, s'.threads[i]? = some t → TPos m.dim (hi i) t) ∧
      allLeft m.dim hi s = allLeft m.dim hi s' + k := by
  induction hs with
  | refl s => exact ⟨h, rfl⟩
  | tail _ hst ih =>
    obtain ⟨i1, i2⟩ := ih h
    obtain ⟨j1, j2⟩ := allLeft_step i1 hst
    exact ⟨j1, by omega⟩

/-- the threads at the beginning -/
theorem initThreads_pos {m : Mat α} {nT : Nat} (h1 : 1 ≤ nT) (h2 : 2 * nT ≤ m.dim ^ 3) {s0 : TSys α}
    (h0 : initThreads m 3 nT = .ok s0) :
    (∀ i t, s0.threads[i]? = some t → TPos m.dim (i * (m.dim ^ 3 / nT) + m.dim ^ 3 / nT - 1) t) ∧
    allLeft m.dim (fun i => i * (m.dim ^ 3 / nT) + m.dim ^ 3 / nT - 1) s0 =
      nT * (m.dim ^ 3 / nT - 1) + ((List.range nT).map fun i =>
        (List.range' (i * (m.dim ^ 3 / nT) + 1) (m.dim ^ 3 / nT - 2)).countP (distinct3 m.dim)).sum ∧
    (s0.threads.mapIdx fun i t => updatesLeft m.dim (i * (m.dim ^ 3 / nT) + m.dim ^ 3 / nT - 1) t).sum =
      ((List.range nT).map fun i =>
        (List.range' (i * (m.dim ^ 3 / nT) + 1) (m.dim ^ 3 / nT - 2)).countP (distinct3 m.dim)).sum := by
  have hcs : 2 ≤ m.dim ^ 3 / nT := (Nat.le_div_iff_mul_le h1).mpr h2
  generalize hq : m.dim ^ 3 / nT = q at *
  have hch : ∀ i : Nat, ∃ p : List Nat × List Nat, i < nT → splitChunks 3 m.dim nT i = .ok p ∧
      p.1.length = 3 ∧ p.2.length = 3 ∧ ValidDigits m.dim p.1 ∧ ValidDigits m.dim p.2 ∧
      digitsVal m.dim p.1 = i * q ∧ digitsVal m.dim p.2 = i * q + q - 1 := by
    intro i
    by_cases hi : i < nT
    · obtain ⟨lo, hi', a1, a2, a3, a4, a5, a6, a7⟩ := Props.C14_chunk_digits (b := m.dim) (k := 3) h1
        (by omega) hi
      rw [hq] at a6 a7
      refine ⟨(lo, hi'), fun _ => ⟨a1, a2, a3, a4, a5, a6, ?_⟩⟩
      rw [Nat.add_mul, Nat.one_mul] at a7
      unfold digitsVal
      simp only
      omega
    · exact ⟨([], []), fun h => absurd h hi⟩
  choose p hp using hch
  have he : initThreads m 3 nT =
      .ok ⟨(List.range nT).map fun i => ⟨(p i).1, (p i).2, none, false⟩, (inf, [])⟩ := by
    unfold initThreads
    rw [mapM_ok (g := fun i => (⟨(p i).1, (p i).2, none, false⟩ : TState α))]
    · rfl
    · intro i hi
      rw [(hp i (by simpa using hi)).1]
      rfl
  rw [he] at h0
  cases h0
  refine ⟨?_, ?_, ?_⟩
  · intro i t ht
    simp only [List.getElem?_map, Option.map_eq_some_iff] at ht
    obtain ⟨j, hj, rfl⟩ := ht
    have hi : i < nT := by
      have := (List.getElem?_eq_some_iff.mp hj).1
      simpa using this
    rw [List.getElem?_range hi] at hj
    simp only [Option.some.injEq] at hj
    subst hj
    obtain ⟨_, b2, b3, b4, b5, b6, b7⟩ := hp i hi
    exact ⟨b2, b4, b3, b5, b7, fun _ => by simp only; omega⟩
  · have hm : ((List.range nT).map fun i => (⟨(p i).1, (p i).2, none, false⟩ : TState α)).mapIdx
        (fun i t => stepsLeft m.dim (i * q + q - 1) t) = (List.range nT).map fun i =>
          (q - 1) + (List.range' (i * q + 1) (q - 2)).countP (distinct3 m.dim) := by
      apply List.ext_getElem
      · simp
      · intro i hi1 hi2
        have hi : i < nT := by simpa using hi2
        obtain ⟨_, b2, b3, b4, b5, b6, b7⟩ := hp i hi
        simp only [List.getElem_mapIdx, List.getElem_map, List.getElem_range, stepsLeft, b6, between,
          Bool.false_eq_true, if_false, Option.isSome_none]
        rw [show i * q + q - 1 - i * q = q - 1 by omega, show i * q + q - 1 - 1 - i * q = q - 2 by omega]
        rfl
    unfold allLeft
    simp only
    rw [hm]
    have hs : ∀ l : List Nat, (l.map fun i => (q - 1) + (List.range' (i * q + 1) (q - 2)).countP (distinct3 m.dim)).sum =
        l.length * (q - 1) + (l.map fun i => (List.range' (i * q + 1) (q - 2)).countP (distinct3 m.dim)).sum := by
      intro l
      induction l with
      | nil => simp
      | cons a l ih =>
        simp only [List.map_cons, List.sum_cons, List.length_cons, ih, Nat.add_mul, Nat.one_mul]
        omega
    rw [hs, List.length_range]
  · congr 1
    apply List.ext_getElem
    · simp
    · intro i hi1 hi2
      have hi : i < nT := by simpa using hi2
      obtain ⟨_, b2, b3, b4, b5, b6, b7⟩ := hp i hi
      simp only [List.getElem_mapIdx, List.getElem_map, List.getElem_range, updatesLeft, b6, between,
        Bool.false_eq_true, if_false, Option.isSome_none]
      rw [show i * q + q - 1 - 1 - i * q = q - 2 by omega]
      rfl

/-- a step of some thread, with the number of updates of the best solution so far (`exact.rs:707-711`) -/
def TSys.countStep (m : Mat α) (x y : TSys α × Nat) : Prop :=
  ∃ i t t' b, x.1.threads[i]? = some t ∧ t.done = false ∧ threadStep m t x.1.best = .ok (t', b) ∧
    y.1 = { threads := x.1.threads.set i t', best := b } ∧ y.2 = x.2 + if t.pending.isSome then 1 else 0

/-- counting does not change the runs -/
theorem countStep_iff {m : Mat α} {k : Nat} {s0 s : TSys α} :
    Steps (TSys.step m) k s0 s ↔ ∃ u, Steps (TSys.countStep m) k (s0, 0) (s, u) := by
  constructor
  · intro h
    induction h with
    | refl s => exact ⟨0, .refl _⟩
    | tail _ hst ih =>
      obtain ⟨u, hu⟩ := ih
      obtain ⟨i, t, t', b, h1, h2, h3, h4⟩ := hst
      exact ⟨_, .tail hu ⟨i, t, t', b, h1, h2, h3, h4, rfl⟩⟩
  · rintro ⟨u, h⟩
    have : ∀ {k : Nat} {x y : TSys α × Nat}, Steps (TSys.countStep m) k x y → Steps (TSys.step m) k x.1 y.1 := by
      intro k x y h
      clear * - h
      induction h with
      | refl s => exact .refl _
      | tail _ hst ih =>
        obtain ⟨i, t, t', b, h1, h2, h3, h4, -⟩ := hst
        exact .tail ih ⟨i, t, t', b, h1, h2, h3, h4⟩
    exact this h

theorem updates_steps {m : Mat α} {hi : Nat → Nat} {x y : TSys α × Nat} {k : Nat}
    (hs : Steps (TSys.countStep m) k x y) (h : ∀ i t, x.1.threads[i]? = some t → TPos m.dim (hi i) t) :
    (∀ i t, y.1.threads[i]? = some t → TPos m.dim (hi i) t) ∧
      (x.1.threads.mapIdx fun i t => updatesLeft m.dim (hi i) t).sum + x.2 =
        (y.1.threads.mapIdx fun i t => updatesLeft m.dim (hi i) t).sum + y.2 := by
  induction hs with
  | refl s => exact ⟨h, rfl⟩
  | @tail n x y z _ hst ih =>
    obtain ⟨i1, i2⟩ := ih h
    obtain ⟨i, t, t', b, h1, h2, h3, h4, h5⟩ := hst
    obtain ⟨j1, -⟩ := allLeft_step i1 (⟨i, t, t', b, h1, h2, h3, h4⟩ : TSys.step m y.1 z.1)
    refine ⟨j1, ?_⟩
    obtain ⟨-, -, k3⟩ := stepsLeft_step (i1 i t h1) h2 h3
    have := sum_mapIdx_set (fun i t => updatesLeft m.dim (hi i) t) y.1.threads i t t' h1
    rw [h4, h5, i2]
    simp only at this ⊢
    omega

/-- **C126, updates** In a complete run the best solution is locked exactly once for every prefix of three different
cities strictly inside of a chunk. -/
theorem C126_updates {m : Mat α} {nT : Nat} (h1 : 1 ≤ nT) (h2 : nT < m.dim) {s0 s : TSys α} {k u : Nat}
    (h0 : initThreads m 3 nT = .ok s0) (hs : Steps (TSys.countStep m) k (s0, 0) (s, u)) (hf : s.final) :
    u = ((List.range nT).map fun i =>
      (List.range' (i * (m.dim ^ 3 / nT) + 1) (m.dim ^ 3 / nT - 2)).countP (distinct3 m.dim)).sum := by
  obtain ⟨a1, a2, a3⟩ := initThreads_pos h1 (two_le_cube h1 h2) h0
  obtain ⟨-, b2⟩ := updates_steps hs a1
  have hz : (s.threads.mapIdx fun i t =>
      updatesLeft m.dim (i * (m.dim ^ 3 / nT) + m.dim ^ 3 / nT - 1) t).sum = 0 := by
    rw [List.sum_eq_zero_iff]
    intro x hx
    obtain ⟨i, hi, rfl⟩ := List.mem_mapIdx.mp hx
    simp [updatesLeft, hf _ (List.getElem_mem hi)]
  simp only at b2
  omega

/-- **C126** Any costs, any arithmetic, any schedule. With fewer threads than cities, let `q = ⌊n³ / T⌋`; a complete
run of the multi-threaded solver has exactly `T (q - 1)` steps (the rounds of the loops), and one more step for every
prefix of three different cities strictly inside of a chunk (the update, see `C126_updates`). -/
theorem C126_steps {m : Mat α} {nT : Nat} (h1 : 1 ≤ nT) (h2 : nT < m.dim) {s0 s : TSys α} {k : Nat}
    (h0 : initThreads m 3 nT = .ok s0) (hs : Steps (TSys.step m) k s0 s) (hf : s.final) :
    k = nT * (m.dim ^ 3 / nT - 1) + ((List.range nT).map fun i =>
      (List.range' (i * (m.dim ^ 3 / nT) + 1) (m.dim ^ 3 / nT - 2)).countP (distinct3 m.dim)).sum := by
  obtain ⟨a1, a2, -⟩ := initThreads_pos h1 (two_le_cube h1 h2) h0
  obtain ⟨-, b2⟩ := allLeft_steps hs a1
  have hz : allLeft m.dim (fun i => i * (m.dim ^ 3 / nT) + m.dim ^ 3 / nT - 1) s = 0 := by
    unfold allLeft
    rw [List.sum_eq_zero_iff]
    intro x hx
    obtain ⟨i, hi, rfl⟩ := List.mem_mapIdx.mp hx
    simp [stepsLeft, hf _ (List.getElem_mem hi)]
  omega

/-- **C126, bound** Every run, complete or not, has at most `n³ + n (n - 1) (n - 2)` steps. -/
theorem C126_bound {m : Mat α} {nT : Nat} (h1 : 1 ≤ nT) (h2 : nT < m.dim) {s0 s : TSys α} {k : Nat}
    (h0 : initThreads m 3 nT = .ok s0) (hs : Steps (TSys.step m) k s0 s) :
    k ≤ m.dim ^ 3 + m.dim * (m.dim - 1) * (m.dim - 2) := by
  obtain ⟨a1, a2, -⟩ := initThreads_pos h1 (two_le_cube h1 h2) h0
  obtain ⟨-, b2⟩ := allLeft_steps hs a1
  have a := countP_chunks (distinct3 m.dim) (m.dim ^ 3 / nT) nT
  have b := countP_distinct3 m.dim
  have hle : nT * (m.dim ^ 3 / nT) ≤ m.dim ^ 3 := Nat.mul_div_le _ _
  have hle' : nT * (m.dim ^ 3 / nT - 1) ≤ nT * (m.dim ^ 3 / nT) := Nat.mul_le_mul_left _ (Nat.sub_le _ _)
  have d : (List.range (nT * (m.dim ^ 3 / nT))).countP (distinct3 m.dim) ≤
      (List.range (m.dim ^ 3)).countP (distinct3 m.dim) :=
    List.Sublist.countP_le (List.range_sublist.mpr hle)
  omega

/-- four cities: one thread makes 63 rounds and 24 updates; three threads make `3 * 20` rounds and 24 updates -/
example {k : Nat} {s0 s : TSys (XNum ℚ)} (h0 : initThreads Ex.m4 3 1 = .ok s0)
    (hs : Steps (TSys.step Ex.m4) k s0 s) (hf : s.final) : k = 63 + 24 :=
  (C126_steps (m := Ex.m4) (by decide) (by decide) h0 hs hf).trans (by decide +kernel)

example {k : Nat} {s0 s : TSys (XNum ℚ)} (h0 : initThreads Ex.m4 3 3 = .ok s0)
    (hs : Steps (TSys.step Ex.m4) k s0 s) (hf : s.final) : k = 3 * 20 + 24 :=
  (C126_steps (m := Ex.m4) (by decide) (by decide) h0 hs hf).trans (by decide +kernel)

end Walky.Props
