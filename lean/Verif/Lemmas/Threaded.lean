import Verif.Model.Threaded
import Verif.Props.Digits
import Verif.Lemmas.Eval
import Verif.Lemmas.Bounds
import Verif.Lemmas.OneTree
import Verif.Rounding

/-! # Helper lemmas: the multi-threaded solver -/

set_option linter.unusedSectionVars false
set_option linter.unusedSimpArgs false

namespace Walky

open FloatOps XNum Spec

theorem isUnique_iff {l : List Nat} : isUnique l = true ↔ l.Nodup := by
  unfold isUnique
  simp only [beq_iff_eq]
  constructor
  · intro h
    have := (List.dedup_sublist l).eq_of_length h.symm
    rw [← this]
    exact List.nodup_dedup l
  · intro h
    rw [h.dedup]

section
variable {K : Type} [Field K] [LinearOrder K] [IsStrictOrderedRing K]

/-- the search below a valid prefix -/
theorem searchPrefix_ok {m : Mat (XNum K)} {c : Nat → Nat → K} (hm : Rep m c) (hdim : 0 < m.dim)
    {pre : List Nat} (hv : ValidPre m.dim pre) :
    ∃ r, searchPrefix m pre = .ok r ∧ IsTour m.dim r.2 ∧ pre <+: r.2 ∧ r.1 = fin (tourCost c r.2) ∧
      (∀ q T, IsTour m.dim q → pre <+: q → tourCost c q ≤ T →
        AlongT c (test5 m) (fun _ => True) T pre q → tourCost c r.2 ≤ T) ∧
      tourCost c r.2 ≤ tourCost c (firstLeaf m.dim pre) := by
  obtain ⟨r, h1, h2, h3, h4, h5⟩ := dfs_exact m c hm (test5 m) (fun _ => True) (test5_ok hm) hdim
    (m.dim + 1) pre ((XNum.inf, []), ()) hv (by omega) trivial proper_inf
  have hleaf : IsTour m.dim (firstLeaf m.dim pre) := by
    unfold IsTour firstLeaf
    refine (List.perm_ext_iff_of_nodup ?_ List.nodup_range).mpr ?_
    · rw [List.nodup_append]
      refine ⟨hv.1, List.nodup_range.filter _, ?_⟩
      intro a ha b hb e
      subst e
      simp at hb
      exact hb.2 ha
    · intro a
      simp only [List.mem_append, List.mem_filter, List.mem_range]
      constructor
      · rintro (h | h)
        · exact hv.2 a h
        · exact h.1
      · intro h
        by_cases ha : a ∈ pre
        · exact Or.inl ha
        · exact Or.inr ⟨h, by simpa using ha⟩
  have h5 := h5 rfl (by
    intro p hp _ hp2 _ _
    obtain ⟨y, hy⟩ := mstBound_fin hm (validPre_prefix hleaf hp).2
    exact ⟨(), by simp [test5, hy]⟩)
  have htour : IsTour m.dim r.1.2 ∧ pre <+: r.1.2 ∧ r.1.1 = fin (tourCost c r.1.2) := by
    rcases h3 with h | ⟨a, b, d, _⟩
    · rw [h] at h5; simp at h5
    · exact ⟨a, b, d⟩
  refine ⟨r.1, ?_, htour.1, htour.2.1, htour.2.2, ?_, ?_⟩
  · unfold searchPrefix
    rw [evaluatePath_valid hm hv]
    simp only [rm_bind_ok]
    rw [inf_def, h1]
    rfl
  · intro q T hq hpq hT hal
    have := h4 q T hq hpq hT hal
    rw [htour.2.2] at this
    simpa using this
  · rw [htour.2.2] at h5
    simpa using h5

/-- `threadStep` for any search below a prefix -/
def threadStepG (N : Nat) (S : List Nat → RM (Solution (XNum K))) (t : TState (XNum K))
    (best : Solution (XNum K)) : RM (TState (XNum K) × Solution (XNum K)) :=
  match t.pending with
  | some r => .ok ({ t with pending := none }, if r.1 <ᶠ best.1 then r else best)
  | none => do
    let (digits, next) ← getNextValue t.digits N
    match next with
    | none => return ({ t with digits := digits, done := true }, best)
    | some v =>
      if v = t.maxDigits then return ({ t with digits := digits, done := true }, best)
      else if isUnique v then do
        let r ← S v
        return ({ t with digits := digits, pending := some r }, best)
      else return ({ t with digits := digits }, best)

/-- `TSys.step` for any search below a prefix -/
def TSys.stepG (N : Nat) (S : List Nat → RM (Solution (XNum K))) (s s' : TSys (XNum K)) : Prop :=
  ∃ (i : Nat) (t t' : TState (XNum K)) (b : Solution (XNum K)), s.threads[i]? = some t ∧ t.done = false ∧
    threadStepG N S t s.best = .ok (t', b) ∧ s' = { threads := s.threads.set i t', best := b }

variable (K) in
/-- the exact arithmetic -/
abbrev exactOps : FloatOps (XNum K) := inferInstance

/-- an arithmetic with the comparisons and constants of the exact one -/
structure SameCmp (F : FloatOps (XNum K)) : Prop where
  lt : @FloatOps.lt _ F = @FloatOps.lt _ (exactOps K)
  le : @FloatOps.le _ F = @FloatOps.le _ (exactOps K)
  inf : @FloatOps.inf _ F = XNum.inf
  zero : @FloatOps.zero _ F = fin 0
  negOne : @FloatOps.negOne _ F = fin (-1)

theorem sameCmp_exact : SameCmp (exactOps K) := ⟨rfl, rfl, rfl, rfl, rfl⟩

theorem sameCmp_ops (R : Rounding K) : SameCmp R.ops := ⟨rfl, rfl, rfl, rfl, rfl⟩

/-- the threads only compare -/
theorem threadStep_eq {F : FloatOps (XNum K)} (hF : SameCmp F) (m : Mat (XNum K)) :
    @threadStep _ F m = threadStepG m.dim (@searchPrefix _ F m) := by
  funext t best
  unfold threadStep threadStepG
  cases t.pending with
  | some r => simp only [hF.lt]
  | none => rfl

theorem TSys.step_eq {F : FloatOps (XNum K)} (hF : SameCmp F) (m : Mat (XNum K)) :
    @TSys.step _ F m = TSys.stepG m.dim (@searchPrefix _ F m) := by
  funext s s'
  unfold TSys.step TSys.stepOf TSys.stepG
  rw [threadStep_eq hF]

/-- the search below a valid prefix does not panic and its cost is not NaN -/
def SearchOk (N : Nat) (S : List Nat → RM (Solution (XNum K))) : Prop :=
  ∀ pre, ValidPre N pre → ∃ r, S pre = .ok r ∧ r.1 ≠ XNum.nan

omit [IsStrictOrderedRing K] in
theorem le_self_of_ne_nan {x : XNum K} (h : x ≠ XNum.nan) : FloatOps.le x x = true := by
  cases x <;> simp_all [FloatOps.le, XNum.le]

omit [IsStrictOrderedRing K] in
theorem le_of_not_lt_of_ne_nan {x y : XNum K} (hx : x ≠ XNum.nan) (hy : y ≠ XNum.nan)
    (h : FloatOps.lt x y = false) : FloatOps.le y x = true := by
  cases x <;> cases y <;> simp_all [FloatOps.le, XNum.le, FloatOps.lt, XNum.lt]

theorem searchPrefix_searchOk {m : Mat (XNum K)} {c : Nat → Nat → K} (hm : Rep m c) (hdim : 0 < m.dim) :
    SearchOk m.dim (searchPrefix m) := by
  intro pre hv
  obtain ⟨r, h1, -, -, h2, -⟩ := searchPrefix_ok hm hdim hv
  exact ⟨r, h1, by rw [h2]; simp⟩

variable {N : Nat} {S : List Nat → RM (Solution (XNum K))}

/-- a prefix worked on by a thread with boundary values `lo` and `hi` -/
structure Work (n k lo hi : Nat) (pre : List Nat) : Prop where
  len : pre.length = k
  valid : ValidDigits n pre
  nodup : pre.Nodup
  gt : lo < digitsVal n pre
  lt : digitsVal n pre < hi

theorem Work.validPre {n k lo hi : Nat} {pre : List Nat} (h : Work n k lo hi pre) :
    ValidPre n pre := ⟨h.nodup, h.valid⟩

/-- invariant of a thread with boundary values `lo` and `hi` -/
structure TInv (N : Nat) (S : List Nat → RM (Solution (XNum K))) (k lo hi : Nat) (t : TState (XNum K)) (best : Solution (XNum K)) :
    Prop where
  len : t.digits.length = k
  valid : ValidDigits N t.digits
  mlen : t.maxDigits.length = k
  mvalid : ValidDigits N t.maxDigits
  mval : digitsVal N t.maxDigits = hi
  ge : lo ≤ digitsVal N t.digits
  le : digitsVal N t.digits ≤ hi
  fin : t.done = true ↔ digitsVal N t.digits = hi
  pend : ∀ r, t.pending = some r → Work N k lo hi t.digits ∧ S t.digits = .ok r
  cov : ∀ pre r, Work N k lo hi pre → digitsVal N pre ≤ digitsVal N t.digits →
    (t.pending.isSome → digitsVal N pre ≠ digitsVal N t.digits) →
    S pre = .ok r → FloatOps.le best.1 r.1 = true

theorem TInv.mono {k lo hi : Nat} {t : TState (XNum K)}
    {best best' : Solution (XNum K)} (h : TInv N S k lo hi t best)
    (hb : FloatOps.le best'.1 best.1 = true) : TInv N S k lo hi t best' :=
  ⟨h.len, h.valid, h.mlen, h.mvalid, h.mval, h.ge, h.le, h.fin, h.pend, fun pre r h1 h2 h3 h4 =>
    le_trans' hb (h.cov pre r h1 h2 h3 h4)⟩

/-- remaining steps of a thread, roughly -/
def TState.measure (n hi : Nat) {α : Type} (t : TState α) : Nat :=
  2 * (hi - digitsVal n t.digits) + (if t.pending.isSome then 1 else 0)

theorem threadStep_inv (hS : SearchOk N S)
    {k lo hi : Nat} (hhi : hi < N ^ k) {t : TState (XNum K)} {best : Solution (XNum K)}
    (h : TInv N S k lo hi t best) (hd : t.done = false) (hb : best.1 ≠ XNum.nan) :
    ∃ t' b', threadStepG N S t best = .ok (t', b') ∧ TInv N S k lo hi t' b' ∧
      FloatOps.le b'.1 best.1 = true ∧ t'.measure N hi < t.measure N hi ∧
      (b' = best ∨ ∃ pre, Work N k lo hi pre ∧ S pre = .ok b') := by
  have hlt : digitsVal N t.digits < hi := by
    refine lt_of_le_of_ne h.le ?_
    intro e
    have := h.fin.mpr e
    simp [hd] at this
  unfold threadStepG
  cases hp : t.pending with
  | some r =>
    obtain ⟨hw, hr⟩ := h.pend r hp
    obtain ⟨r', hr', hpr⟩ := hS _ hw.validPre
    have hrr : r' = r := by rw [hr] at hr'; injection hr' with e; exact e.symm
    subst hrr
    have hle : FloatOps.le (if r'.1 <ᶠ best.1 then r' else best).1 best.1 = true ∧
        FloatOps.le (if r'.1 <ᶠ best.1 then r' else best).1 r'.1 = true := by
      by_cases hl : FloatOps.lt r'.1 best.1 = true
      · rw [if_pos hl]; exact ⟨le_of_lt' hl, le_self_of_ne_nan hpr⟩
      · rw [if_neg hl]
        exact ⟨le_self_of_ne_nan hb, le_of_not_lt_of_ne_nan hpr hb (by simpa using hl)⟩
    refine ⟨_, _, rfl, ?_, hle.1, ?_, ?_⟩
    · refine ⟨h.len, h.valid, h.mlen, h.mvalid, h.mval, h.ge, h.le, h.fin, by simp, ?_⟩
      intro pre s h1 h2 _ h4
      by_cases he : digitsVal N pre = digitsVal N t.digits
      · have : pre = t.digits := digitsVal_inj (by rw [h1.len, h.len]) h1.valid h.valid he
        subst this
        have : s = r' := by rw [hr] at h4; injection h4 with e; exact e.symm
        rw [this]
        exact hle.2
      · exact le_trans' hle.1 (h.cov pre s h1 h2 (fun _ => he) h4)
    · simp [TState.measure, hp]
    · by_cases hl : FloatOps.lt r'.1 best.1 = true
      · right
        rw [if_pos hl]
        exact ⟨_, hw, hr⟩
      · left; rw [if_neg hl]
  | none =>
    obtain ⟨l, e1, e2, e3 | e3⟩ := getNextValue_ok h.valid
    · obtain ⟨_, e4, e5⟩ := e3
      simp only [e4, rm_bind_ok]
      have hmeas : 2 * (hi - digitsVal N l) + 1 < 2 * (hi - digitsVal N t.digits) := by
        omega
      have hmeas' : 2 * (hi - digitsVal N l) + 1 < t.measure N hi :=
        lt_of_lt_of_le hmeas (Nat.le_add_right _ _)
      have hl : l.length = k := by rw [e1, h.len]
      have hcov : ∀ pre r, Work N k lo hi pre → digitsVal N pre ≤ digitsVal N l →
          digitsVal N pre ≠ digitsVal N l → S pre = .ok r →
          FloatOps.le best.1 r.1 = true := by
        intro pre r h1 h2 h3 h4
        exact h.cov pre r h1 (by omega) (by simp [hp]) h4
      by_cases hmax : l = t.maxDigits
      · rw [if_pos hmax]
        have hv : digitsVal N l = hi := by rw [hmax, h.mval]
        refine ⟨_, _, rfl, ?_, le_self_of_ne_nan hb, ?_, Or.inl rfl⟩
        · refine ⟨hl, e2, h.mlen, h.mvalid, h.mval, by have := h.ge; simp only; omega, hv.le, by simp [hv],
            by simp [hp], ?_⟩
          intro pre r h1 h2 _ h4
          refine hcov pre r h1 h2 ?_ h4
          have := h1.lt
          omega
        · simp only [TState.measure, hp] at hmeas' ⊢
          simp
          omega
      · rw [if_neg hmax]
        have hne : digitsVal N l ≠ hi := by
          intro e
          exact hmax (digitsVal_inj (by rw [hl, h.mlen]) e2 h.mvalid (by rw [e, h.mval]))
        by_cases hu : isUnique l = true
        · rw [if_pos hu]
          have hw : Work N k lo hi l := ⟨hl, e2, isUnique_iff.mp hu, by have := h.ge; omega, by omega⟩
          obtain ⟨r, hr, _⟩ := hS _ hw.validPre
          rw [hr]
          refine ⟨_, _, rfl, ?_, le_self_of_ne_nan hb, ?_, Or.inl rfl⟩
          · refine ⟨hl, e2, h.mlen, h.mvalid, h.mval, hw.gt.le, hw.lt.le, ?_, ?_, ?_⟩
            · simp [hd, hne]
            · intro r' hr'
              simp only [Option.some.injEq] at hr'
              subst hr'
              exact ⟨hw, hr⟩
            · intro pre s h1 h2 h3 h4
              exact hcov pre s h1 h2 (h3 rfl) h4
          · simp only [TState.measure, hp] at hmeas' ⊢
            simp
            omega
        · rw [if_neg hu]
          refine ⟨_, _, rfl, ?_, le_self_of_ne_nan hb, ?_, Or.inl rfl⟩
          · refine ⟨hl, e2, h.mlen, h.mvalid, h.mval, ?_, ?_, ?_, by simp [hp], ?_⟩
            · have := h.ge; simp only; omega
            · simp only; omega
            · simp [hd, hne]
            · intro pre s h1 h2 _ h4
              refine hcov pre s h1 h2 ?_ h4
              intro e
              have : pre = l := digitsVal_inj (by rw [h1.len, hl]) h1.valid e2 e
              subst this
              exact hu (isUnique_iff.mpr h1.nodup)
          · simp only [TState.measure, hp] at hmeas' ⊢
            simp
            omega
    · have := e3.1
      rw [h.len] at this
      omega

/-- invariant of the system; `lo i`, `hi i` are the boundary values of thread `i` -/
structure SysInv (N : Nat) (S : List Nat → RM (Solution (XNum K))) (k : Nat) (lo hi : Nat → Nat) (nT : Nat) (s : TSys (XNum K)) :
    Prop where
  len : s.threads.length = nT
  thr : ∀ i t, s.threads[i]? = some t → TInv N S k (lo i) (hi i) t s.best
  best : s.best = (XNum.inf, []) ∨
    ∃ i < nT, ∃ pre, Work N k (lo i) (hi i) pre ∧ S pre = .ok s.best

/-- sum of the remaining steps -/
def TSys.measure (n : Nat) (hi : Nat → Nat) {α : Type} (s : TSys α) : Nat :=
  (s.threads.mapIdx fun i t => t.measure n (hi i)).sum

theorem SysInv.not_nan (hS : SearchOk N S)
    {k nT : Nat} {lo hi : Nat → Nat} {s : TSys (XNum K)} (h : SysInv N S k lo hi nT s) :
    s.best.1 ≠ XNum.nan := by
  rcases h.best with e | ⟨i, _, pre, hw, hr⟩
  · rw [e]; simp
  · obtain ⟨r, hr', hr2⟩ := hS _ hw.validPre
    rw [hr] at hr'
    injection hr' with e
    rw [e]
    exact hr2

theorem sum_mapIdx_set_lt {α : Type} (f : Nat → α → Nat) : ∀ (l : List α) (i : Nat) (a b : α),
    l[i]? = some a → f i b < f i a →
    ((l.set i b).mapIdx f).sum < (l.mapIdx f).sum := by
  intro l
  induction l generalizing f with
  | nil => intro i a b h; simp at h
  | cons x l ih =>
    intro i a b h hlt
    cases i with
    | zero =>
      simp at h
      subst h
      simp [List.mapIdx_cons]
      exact hlt
    | succ i =>
      simp at h
      have := ih (fun j => f (j + 1)) i a b h hlt
      simpa [List.mapIdx_cons] using this

theorem stepOf_inv (hS : SearchOk N S)
    {k nT : Nat} {lo hi : Nat → Nat} (hhi : ∀ i < nT, hi i < N ^ k) {s : TSys (XNum K)}
    (h : SysInv N S k lo hi nT s) {i : Nat} {t : TState (XNum K)} (ht : s.threads[i]? = some t)
    (hd : t.done = false) :
    ∃ t' b, threadStepG N S t s.best = .ok (t', b) ∧
      SysInv N S k lo hi nT { threads := s.threads.set i t', best := b } ∧
      TSys.measure N hi { threads := s.threads.set i t', best := b } < s.measure N hi := by
  have hi' : i < nT := by
    have := (List.getElem?_eq_some_iff.mp ht).1
    rw [h.len] at this
    exact this
  obtain ⟨t', b, h1, h2, h3, h4, h5⟩ := threadStep_inv hS (hhi i hi') (h.thr i t ht) hd
    (h.not_nan hS)
  refine ⟨t', b, h1, ⟨by simp [h.len], ?_, ?_⟩, ?_⟩
  · intro j u hu
    simp only at hu ⊢
    by_cases hij : i = j
    · subst hij
      rw [List.getElem?_set_self (by rw [h.len]; exact hi')] at hu
      simp only [Option.some.injEq] at hu
      subst hu
      exact h2
    · rw [List.getElem?_set_ne hij] at hu
      exact (h.thr j u hu).mono h3
  · rcases h5 with e | ⟨pre, hw, hr⟩
    · rw [e]; exact h.best
    · exact Or.inr ⟨i, hi', pre, hw, hr⟩
  · exact sum_mapIdx_set_lt (fun i t => t.measure N (hi i)) _ _ _ _ ht h4

theorem init_inv {m : Mat (XNum K)} {k nT : Nat} (hn : 1 ≤ nT) (hlt : 2 * nT ≤ m.dim ^ k) :
    ∃ s, initThreads m k nT = .ok s ∧
      SysInv m.dim S k (fun i => i * (m.dim ^ k / nT)) (fun i => i * (m.dim ^ k / nT) + m.dim ^ k / nT - 1)
        nT s ∧ s.best = (XNum.inf, []) := by
  have hcs : 2 ≤ m.dim ^ k / nT := (Nat.le_div_iff_mul_le hn).mpr hlt
  have hch : ∀ i : Nat, ∃ p : List Nat × List Nat, i < nT → splitChunks k m.dim nT i = .ok p ∧
      p.1.length = k ∧ p.2.length = k ∧ ValidDigits m.dim p.1 ∧ ValidDigits m.dim p.2 ∧
      digitsVal m.dim p.1 = i * (m.dim ^ k / nT) ∧
      digitsVal m.dim p.2 = i * (m.dim ^ k / nT) + m.dim ^ k / nT - 1 := by
    intro i
    by_cases hi : i < nT
    · obtain ⟨lo, hi', a1, a2, a3, a4, a5, a6, a7⟩ := Props.C14_chunk_digits (b := m.dim) (k := k) hn
        (by omega) hi
      refine ⟨(lo, hi'), fun _ => ⟨a1, a2, a3, a4, a5, a6, ?_⟩⟩
      rw [Nat.add_mul, Nat.one_mul] at a7
      unfold digitsVal
      simp only
      omega
    · exact ⟨([], []), fun h => absurd h hi⟩
  choose p hp using hch
  refine ⟨⟨(List.range nT).map fun i => ⟨(p i).1, (p i).2, none, false⟩, (XNum.inf, [])⟩, ?_,
    ⟨by simp, ?_, Or.inl rfl⟩, rfl⟩
  · unfold initThreads
    rw [mapM_ok (g := fun i => (⟨(p i).1, (p i).2, none, false⟩ : TState (XNum K)))]
    · rfl
    · intro i hi
      rw [(hp i (by simpa using hi)).1]
      rfl
  · intro i t ht
    simp only [List.getElem?_map, Option.map_eq_some_iff] at ht
    obtain ⟨j, hj, rfl⟩ := ht
    have hi : i < nT := by
      have := (List.getElem?_eq_some_iff.mp hj).1
      simpa using this
    rw [List.getElem?_range hi] at hj
    simp only [Option.some.injEq] at hj
    subst hj
    obtain ⟨_, b2, b3, b4, b5, b6, b7⟩ := hp i hi
    refine ⟨b2, b4, b3, b5, b7, b6.ge, by simp only; omega, ?_, by simp, ?_⟩
    · simp only [Bool.false_eq_true, false_iff]
      omega
    · intro pre r h1 h2
      have := h1.gt
      simp only at h2
      omega

/-- every reachable state satisfies the invariant, and the number of steps is bounded -/
theorem steps_inv (hS : SearchOk N S)
    {k nT : Nat} {lo hi : Nat → Nat} (hhi : ∀ i < nT, hi i < N ^ k) {s0 s : TSys (XNum K)}
    {n : Nat} (h : SysInv N S k lo hi nT s0) (hs : Steps (TSys.stepG N S) n s0 s) :
    SysInv N S k lo hi nT s ∧ n + s.measure N hi ≤ s0.measure N hi := by
  induction hs with
  | refl s => exact ⟨h, by omega⟩
  | tail h1 h2 ih =>
    obtain ⟨i, t, t', b, a1, a2, a3, rfl⟩ := h2
    obtain ⟨b1, b2⟩ := ih h
    obtain ⟨t'', b'', c1, c2, c3⟩ := stepOf_inv hS hhi b1 a1 a2
    rw [a3] at c1
    injection c1 with c1
    injection c1 with e1 e2
    subst e1 e2
    exact ⟨c2, by omega⟩

/-- every state with the invariant can be run to the end -/
theorem exists_final (hS : SearchOk N S)
    {k nT : Nat} {lo hi : Nat → Nat} (hhi : ∀ i < nT, hi i < N ^ k) :
    ∀ (L : Nat) (s0 s : TSys (XNum K)) (n : Nat), s.measure N hi ≤ L →
      SysInv N S k lo hi nT s → Steps (TSys.stepG N S) n s0 s →
      ∃ n' s', Steps (TSys.stepG N S) n' s0 s' ∧ s'.final := by
  intro L
  induction L with
  | zero =>
    intro s0 s n hN h hs
    by_cases hf : s.final
    · exact ⟨n, s, hs, hf⟩
    · simp only [TSys.final, not_forall] at hf
      obtain ⟨t, ht, hd⟩ := hf
      obtain ⟨i, hi'⟩ := List.mem_iff_getElem?.mp ht
      obtain ⟨t', b, _, _, h3⟩ := stepOf_inv hS hhi h hi' (by simpa using hd)
      omega
  | succ L ih =>
    intro s0 s n hN h hs
    by_cases hf : s.final
    · exact ⟨n, s, hs, hf⟩
    · simp only [TSys.final, not_forall] at hf
      obtain ⟨t, ht, hd⟩ := hf
      obtain ⟨i, hi'⟩ := List.mem_iff_getElem?.mp ht
      obtain ⟨t', b, h1, h2, h3⟩ := stepOf_inv hS hhi h hi' (by simpa using hd)
      exact ih s0 _ (n + 1) (by omega) h2
        (.tail hs ⟨i, t, t', b, hi', by simpa using hd, h1, rfl⟩)

/-- in a final state everything has been taken into account -/
theorem final_cov {k nT : Nat} {lo hi : Nat → Nat} {s : TSys (XNum K)}
    (h : SysInv N S k lo hi nT s) (hf : s.final) {i : Nat} (hi' : i < nT) {pre : List Nat}
    (hw : Work N k (lo i) (hi i) pre) {r : Solution (XNum K)} (hr : S pre = .ok r) :
    FloatOps.le s.best.1 r.1 = true := by
  have hl : i < s.threads.length := by rw [h.len]; exact hi'
  have ht := h.thr i s.threads[i] (List.getElem?_eq_getElem hl)
  have hd := ht.fin.mp (hf _ (List.getElem_mem hl))
  refine ht.cov pre r hw (by have := hw.lt; omega) ?_ hr
  intro _
  have := hw.lt
  omega

/-- effect of a step on the digits -/
theorem threadStep_digits {k lo hi : Nat} (hhi : hi < N ^ k)
    {t t' : TState (XNum K)} {best b : Solution (XNum K)} (h : TInv N S k lo hi t best)
    (hd : t.done = false) (hs : threadStepG N S t best = .ok (t', b)) :
    (t.pending.isSome ∧ t'.digits = t.digits) ∨
    (digitsVal N t'.digits = digitsVal N t.digits + 1 ∧
      (Work N k lo hi t'.digits → ∃ r, t'.pending = some r ∧ S t'.digits = .ok r)) := by
  unfold threadStepG at hs
  cases hp : t.pending with
  | some r =>
    left
    simp only [hp] at hs
    injection hs with hs
    injection hs with e1 e2
    exact ⟨rfl, by rw [← e1]⟩
  | none =>
    right
    simp only [hp] at hs
    have hlt : digitsVal N t.digits < hi := by
      refine lt_of_le_of_ne h.le ?_
      intro e
      have := h.fin.mpr e
      simp [hd] at this
    obtain ⟨l, e1, e2, e3 | e3⟩ := getNextValue_ok h.valid
    · obtain ⟨_, e4, e5⟩ := e3
      simp only [e4, rm_bind_ok] at hs
      by_cases hmax : l = t.maxDigits
      · rw [if_pos hmax] at hs
        injection hs with hs
        injection hs with d1 d2
        subst d1
        refine ⟨e5, ?_⟩
        intro hw
        have := hw.lt
        simp only at this
        rw [hmax, h.mval] at this
        omega
      · rw [if_neg hmax] at hs
        by_cases hu : isUnique l = true
        · rw [if_pos hu] at hs
          cases hr : S l with
          | error e => rw [hr] at hs; cases hs
          | ok r =>
            rw [hr] at hs
            injection hs with hs
            injection hs with d1 d2
            subst d1
            exact ⟨e5, fun _ => ⟨r, rfl, hr⟩⟩
        · rw [if_neg hu] at hs
          injection hs with hs
          injection hs with d1 d2
          subst d1
          exact ⟨e5, fun hw => absurd (isUnique_iff.mpr hw.nodup) hu⟩
    · have := e3.1
      rw [h.len] at this
      omega

theorem Steps.append {σ : Type} {R : σ → σ → Prop} {a b : Nat} {s t u : σ} (h1 : Steps R a s t)
    (h2 : Steps R b t u) : ∃ n, Steps R n s u := by
  induction h2 with
  | refl => exact ⟨a, h1⟩
  | tail _ h3 ih =>
    obtain ⟨n, hn⟩ := ih h1
    exact ⟨n + 1, .tail hn h3⟩

/-- every prefix below the position of thread `i` has been searched by thread `i` -/
theorem visited (hS : SearchOk N S)
    {k nT : Nat} {lo hi : Nat → Nat} (hhi : ∀ i < nT, hi i < N ^ k) {s0 s : TSys (XNum K)}
    {n : Nat} (h : SysInv N S k lo hi nT s0) (hs : Steps (TSys.stepG N S) n s0 s) {i : Nat}
    {t0 t : TState (XNum K)} (ht0 : s0.threads[i]? = some t0) (ht : s.threads[i]? = some t)
    {pre : List Nat} (hw : Work N k (lo i) (hi i) pre)
    (hgt : digitsVal N t0.digits < digitsVal N pre)
    (hle : digitsVal N pre ≤ digitsVal N t.digits) :
    ∃ n1 n2 s1 t1 r, Steps (TSys.stepG N S) n1 s0 s1 ∧ Steps (TSys.stepG N S) n2 s1 s ∧
      s1.threads[i]? = some t1 ∧ t1.digits = pre ∧ t1.pending = some r ∧
      S pre = .ok r := by
  induction hs generalizing t with
  | refl s =>
    rw [ht0] at ht
    injection ht with e
    subst e
    omega
  | @tail n s0 s u h1 h2 ih =>
    have hinv := (steps_inv hS hhi h h1).1
    obtain ⟨j, a, a', b, a1, a2, a3, rfl⟩ := h2
    have hstep : TSys.stepG N S s ⟨s.threads.set j a', b⟩ := ⟨j, a, a', b, a1, a2, a3, rfl⟩
    have hjl := (List.getElem?_eq_some_iff.mp a1).1
    simp only at ht
    by_cases hij : j = i
    · subst hij
      rw [List.getElem?_set_self hjl] at ht
      injection ht with e
      subst e
      have hT := hinv.thr j a a1
      have hjn : j < nT := by rw [← hinv.len]; exact hjl
      rcases threadStep_digits (hhi j hjn) hT a2 a3 with ⟨_, hd⟩ | ⟨hd, hv⟩
      · rw [hd] at hle
        obtain ⟨n1, n2, s1, t1, r, q1, q2, q3⟩ := ih h ht0 a1 hle
        exact ⟨n1, n2 + 1, s1, t1, r, q1, .tail q2 hstep, q3⟩
      · by_cases he : digitsVal N pre = digitsVal N a'.digits
        · obtain ⟨t'', b'', c1, c2, _⟩ := stepOf_inv hS hhi hinv a1 a2
          rw [a3] at c1
          injection c1 with c1
          injection c1 with e1 e2
          subst e1 e2
          have hT' := c2.thr j a' (by simp [List.getElem?_set_self hjl])
          have : pre = a'.digits :=
            digitsVal_inj (by rw [hw.len, hT'.len]) hw.valid hT'.valid he
          subst this
          obtain ⟨r, r1, r2⟩ := hv hw
          exact ⟨n + 1, 0, _, a', r, .tail h1 hstep, .refl _, by simp [List.getElem?_set_self hjl],
            rfl, r1, r2⟩
        · obtain ⟨n1, n2, s1, t1, r, q1, q2, q3⟩ := ih h ht0 a1 (by omega)
          exact ⟨n1, n2 + 1, s1, t1, r, q1, .tail q2 hstep, q3⟩
    · rw [List.getElem?_set_ne hij] at ht
      obtain ⟨n1, n2, s1, t1, r, q1, q2, q3⟩ := ih h ht0 ht hle
      exact ⟨n1, n2 + 1, s1, t1, r, q1, .tail q2 hstep, q3⟩

/-- prefixes starting with city 0 belong to the first chunk -/
theorem work_zero {n nT : Nat} (hn : 3 ≤ n) (h1 : 1 ≤ nT) (h2 : nT < n) {a b : Nat} (ha : a < n)
    (hb : b < n) (hnd : [0, a, b].Nodup) :
    Work n 3 (0 * (n ^ 3 / nT)) (0 * (n ^ 3 / nT) + n ^ 3 / nT - 1) [0, a, b] := by
  have hcs : n ^ 2 + 1 ≤ n ^ 3 / nT := by
    rw [Nat.le_div_iff_mul_le h1]
    calc (n ^ 2 + 1) * nT ≤ (n ^ 2 + 1) * (n - 1) := Nat.mul_le_mul_left _ (by omega)
      _ ≤ n ^ 3 := by
        obtain ⟨k, rfl⟩ : ∃ k, n = k + 1 := ⟨n - 1, by omega⟩
        simp only [Nat.add_sub_cancel]
        nlinarith [sq_nonneg k]
  have hv : digitsVal n [0, a, b] = b + n * a := by
    simp [digitsVal, Nat.ofDigits_cons]
  simp only [List.nodup_cons, List.mem_cons, List.not_mem_nil, or_false, not_or] at hnd
  have hub : b + n * a + 1 ≤ n ^ 2 := by
    have : n * a + n ≤ n ^ 2 := by
      calc n * a + n = n * (a + 1) := by ring
        _ ≤ n * n := Nat.mul_le_mul_left _ ha
        _ = n ^ 2 := by ring
    omega
  refine ⟨rfl, ?_, by simp; omega, ?_, ?_⟩
  · intro d hd
    simp at hd
    omega
  · rw [hv]; omega
  · rw [hv]; omega

/-- a rotation starting with 0 -/
theorem rotate_to_zero {n : Nat} (hn : 1 ≤ n) {q : List Nat} (hq : IsTour n q) :
    ∃ r t, q.rotate r = 0 :: t := by
  have h0 : 0 ∈ q := hq.mem.mpr hn
  obtain ⟨l, t, rfl⟩ := List.append_of_mem h0
  exact ⟨l.length, t ++ l, by rw [List.rotate_append_length_eq]; rfl⟩

theorem initThreads_eq {F : FloatOps (XNum K)} (hF : SameCmp F) (m : Mat (XNum K)) (k nT : Nat) :
    @initThreads _ F m k nT = @initThreads _ (exactOps K) m k nT := by
  unfold initThreads
  rw [hF.inf]
  rfl

/-- lower boundary value of thread `i` -/
abbrev loV (n nT : Nat) (i : Nat) : Nat := i * (n ^ 3 / nT)
/-- upper boundary value of thread `i` -/
abbrev hiV (n nT : Nat) (i : Nat) : Nat := i * (n ^ 3 / nT) + n ^ 3 / nT - 1

theorem two_le_cube {n nT : Nat} (h1 : 1 ≤ nT) (h : nT < n) : 2 * nT ≤ n ^ 3 := by
  have : n ^ 3 = n * n * n := by ring
  rw [this]
  have h2 : 2 * 1 ≤ n * n := Nat.mul_le_mul (by omega) (by omega)
  have : 2 * nT ≤ n * n * n := Nat.mul_le_mul (by omega) h.le
  exact this

theorem hi_lt {n nT : Nat} (h1 : 1 ≤ nT) (h : nT < n) :
    ∀ i < nT, hiV n nT i < n ^ 3 := by
  intro i hi
  have hcs : 2 ≤ n ^ 3 / nT := (Nat.le_div_iff_mul_le h1).mpr (two_le_cube h1 h)
  have : (i + 1) * (n ^ 3 / nT) ≤ n ^ 3 := (Nat.mul_le_mul_right _ hi).trans (Nat.mul_div_le _ _)
  rw [Nat.add_mul] at this
  unfold hiV
  omega

/-- For every number of threads below the dimension: the threads start without
panic; the number of steps of any execution is bounded; in every reachable state no thread panics
with its next step, so that the execution can go on until all threads have finished. -/
theorem threaded_progress {F : FloatOps (XNum K)} (hF : SameCmp F) {m : Mat (XNum K)}
    (hS : SearchOk m.dim (@searchPrefix _ F m)) {nT : Nat} (h1 : 1 ≤ nT) (h2 : nT < m.dim) :
    ∃ s0 L, @initThreads _ F m 3 nT = .ok s0 ∧ s0.threads.length = nT ∧
      (∃ n s, Steps (@TSys.step _ F m) n s0 s ∧ s.final) ∧
      ∀ n s, Steps (@TSys.step _ F m) n s0 s → n ≤ L ∧
        ∀ (i : Nat) t, s.threads[i]? = some t → t.done = false → ∃ s', @TSys.stepOf _ F m i s s' := by
  obtain ⟨s0, e1, e2, _⟩ := init_inv (S := @searchPrefix _ F m) (m := m) h1 (two_le_cube h1 h2)
  rw [← initThreads_eq hF] at e1
  rw [TSys.step_eq hF]
  refine ⟨s0, s0.measure m.dim (hiV m.dim nT), e1, e2.len,
    exists_final hS (hi_lt h1 h2) _ s0 s0 0 le_rfl e2 (.refl _), ?_⟩
  intro n s hs
  obtain ⟨a1, a2⟩ := steps_inv hS (hi_lt h1 h2) e2 hs
  refine ⟨by omega, ?_⟩
  intro i t ht hdn
  obtain ⟨t', b, b1, _⟩ := stepOf_inv hS (hi_lt h1 h2) a1 ht hdn
  exact ⟨_, t, t', b, ht, hdn, by rw [threadStep_eq hF]; exact b1, rfl⟩

/-- the facts about a result of the threads -/
theorem threaded_factsG {F : FloatOps (XNum K)} (hF : SameCmp F) {m : Mat (XNum K)}
    (hS : SearchOk m.dim (@searchPrefix _ F m)) {nT : Nat}
    (h1 : 1 ≤ nT) (h2 : nT < m.dim) {r : Solution (XNum K)} (hr : @ThreadedResult _ F m 3 nT r) :
    (r = (XNum.inf, []) ∨ ∃ i < nT, ∃ pre,
        Work m.dim 3 (loV m.dim nT i) (hiV m.dim nT i) pre ∧ @searchPrefix _ F m pre = .ok r) ∧
    ∀ i < nT, ∀ pre, Work m.dim 3 (loV m.dim nT i) (hiV m.dim nT i) pre → ∀ r',
      @searchPrefix _ F m pre = .ok r' → @FloatOps.le _ (exactOps K) r.1 r'.1 = true := by
  unfold ThreadedResult at hr
  rw [if_neg (not_le.mpr h2)] at hr
  obtain ⟨s0, n, s, e1, e2, e3, rfl⟩ := hr
  obtain ⟨s0', e1', e4, _⟩ := init_inv (S := @searchPrefix _ F m) (m := m) h1 (two_le_cube h1 h2)
  rw [initThreads_eq hF, e1'] at e1
  injection e1 with e
  subst e
  rw [TSys.step_eq hF] at e2
  obtain ⟨a1, _⟩ := steps_inv hS (hi_lt h1 h2) e4 e2
  exact ⟨a1.best, fun i hi pre hw r' hr' => final_cov a1 e3 hi hw hr'⟩

/-- the search below every prefix beginning with city 0 takes place -/
theorem threaded_searched {F : FloatOps (XNum K)} (hF : SameCmp F) {m : Mat (XNum K)}
    (hS : SearchOk m.dim (@searchPrefix _ F m)) (hn : 3 ≤ m.dim) {nT : Nat} (h1 : 1 ≤ nT)
    (h2 : nT < m.dim) {q : List Nat} (hq : IsTour m.dim q) :
    ∃ k i, i < nT ∧ ∀ s0 n s, @initThreads _ F m 3 nT = .ok s0 → Steps (@TSys.step _ F m) n s0 s →
      s.final →
      ∃ n1 n2 s1 t1 r, Steps (@TSys.step _ F m) n1 s0 s1 ∧ Steps (@TSys.step _ F m) n2 s1 s ∧
        s1.threads[i]? = some t1 ∧ t1.digits = (q.rotate k).take 3 ∧ t1.pending = some r ∧
        @searchPrefix _ F m ((q.rotate k).take 3) = .ok r := by
  obtain ⟨k, t, hk⟩ := rotate_to_zero (by omega) hq
  have hq' : IsTour m.dim (0 :: t) := hk ▸ hq.rotate k
  have hlen := hq'.length
  rcases t with _ | ⟨a, _ | ⟨b, t⟩⟩
  · simp at hlen; omega
  · simp at hlen; omega
  have ha : a < m.dim := hq'.mem.mp (by simp)
  have hb : b < m.dim := hq'.mem.mp (by simp)
  have hnd : [0, a, b].Nodup := by
    have := hq'.nodup
    simp only [List.nodup_cons, List.mem_cons, not_or] at this ⊢
    simp
    tauto
  have hw := work_zero hn h1 h2 ha hb hnd
  refine ⟨k, 0, by omega, ?_⟩
  intro s0 n s e1 e2 e3
  rw [hk]
  simp only [List.take_succ_cons, List.take_zero]
  obtain ⟨s0', e1', e4, _⟩ := init_inv (S := @searchPrefix _ F m) (m := m) h1 (two_le_cube h1 h2)
  rw [initThreads_eq hF] at e1
  rw [TSys.step_eq hF] at e2 ⊢
  rw [e1] at e1'
  injection e1' with e
  subst e
  obtain ⟨a1, _⟩ := steps_inv hS (hi_lt h1 h2) e4 e2
  have hl0 : 0 < s0.threads.length := by rw [e4.len]; omega
  have hl : 0 < s.threads.length := by rw [a1.len]; omega
  have ht := a1.thr 0 s.threads[0] (List.getElem?_eq_getElem hl)
  have hv0 : digitsVal m.dim s0.threads[0].digits = 0 := by
    unfold initThreads at e1
    obtain ⟨lo, hi, f1, _, _, _, _, f6, _⟩ := Props.C14_chunk_digits (b := m.dim) (k := 3) (n := nT)
      (i := 0) h1 (by have := two_le_cube h1 h2; omega) (by omega)
    obtain ⟨j, rfl⟩ : ∃ j, nT = j + 1 := ⟨nT - 1, by omega⟩
    rw [List.range_succ_eq_map, List.mapM_cons, f1] at e1
    simp only [rm_bind_ok, rm_pure, bind_assoc] at e1
    cases hrest : List.mapM (m := RM) (fun i => do
        let (lo, hi) ← splitChunks 3 m.dim (j + 1) i
        return ({ digits := lo, maxDigits := hi, pending := none, done := false } : TState (XNum K)))
        (List.map Nat.succ (List.range j)) with
    | error e =>
      simp only [rm_pure] at hrest
      rw [hrest] at e1
      cases e1
    | ok l =>
      simp only [rm_pure] at hrest
      rw [hrest] at e1
      injection e1 with e1
      subst e1
      simpa [digitsVal] using f6
  refine visited hS (hi_lt h1 h2) e4 e2 (List.getElem?_eq_getElem hl0)
    (List.getElem?_eq_getElem hl) hw ?_ ?_
  · rw [hv0]
    have := hw.gt
    omega
  · have := ht.fin.mp (e3 _ (List.getElem_mem hl))
    rw [this]
    exact hw.lt.le

end

end Walky
