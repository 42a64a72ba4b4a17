import Verif.Rounding
import Verif.Rep
import Verif.Lemmas.Basic
import Verif.Lemmas.Perm
import Verif.Lemmas.Solve
import Verif.Lemmas.PrimWeight
import Mathlib.Algebra.Order.Group.Unbundled.Abs
import Mathlib.Tactic.Linarith

/-! # Lemmas: runs in rounded arithmetic that never round -/

set_option linter.unusedSectionVars false

namespace Walky

open XNum

variable {K : Type} [Field K] [LinearOrder K] [IsStrictOrderedRing K]

/-- If `x` is a finite number, it is in the group `T` and its size is at most `B`. -/
def FX (T : AddSubgroup K) (B : K) (x : XNum K) : Prop := ∀ a, x = .fin a → a ∈ T ∧ |a| ≤ B

/-- all finite entries of the matrix are in the group `T` and have size at most `M` -/
def FixedMat (T : AddSubgroup K) (M : K) (m : Mat (XNum K)) : Prop :=
  ∀ i j, i < m.dim → j < m.dim → FX T M (m.get i j)

theorem FX.mono {T : AddSubgroup K} {A B : K} {x : XNum K} (h : FX T A x) (hab : A ≤ B) : FX T B x :=
  fun a ha => ⟨(h a ha).1, (h a ha).2.trans hab⟩

theorem fx_fin {T : AddSubgroup K} {A x : K} (h1 : x ∈ T) (h2 : |x| ≤ A) : FX T A (.fin x) := by
  intro a ha
  rw [← XNum.fin.inj ha]
  exact ⟨h1, h2⟩

theorem fx_zero (T : AddSubgroup K) {A : K} (hA : 0 ≤ A) : FX T A (.fin 0) :=
  fx_fin T.zero_mem (by simpa using hA)

theorem fx_inf (T : AddSubgroup K) (A : K) : FX T A .inf := by
  intro a ha
  cases ha

variable {R : Rounding K} {T : AddSubgroup K} {N M : K}

theorem FX.add (hR : R.ExactOn T N) {A B : K} {x y : XNum K} (hx : FX T A x) (hy : FX T B y)
    (h : A + B ≤ N) :
    @FloatOps.add _ R.ops x y = FloatOps.add x y ∧ FX T (A + B) (FloatOps.add x y) := by
  have key : (∃ a b, x = .fin a ∧ y = .fin b) ∨
      @FloatOps.add _ R.ops x y = FloatOps.add x y ∧ ∀ a, FloatOps.add x y ≠ .fin a := by
    cases x <;> cases y <;> first
      | exact Or.inl ⟨_, _, rfl, rfl⟩
      | exact Or.inr ⟨rfl, fun a ha => by cases ha⟩
  rcases key with ⟨a, b, rfl, rfl⟩ | h1
  · obtain ⟨a1, a2⟩ := hx a rfl
    obtain ⟨b1, b2⟩ := hy b rfl
    have hab : |a + b| ≤ A + B := (abs_add_le a b).trans (add_le_add a2 b2)
    refine ⟨?_, fx_fin (T.add_mem a1 b1) hab⟩
    show R.rnd (a + b) = _
    rw [hR.whole _ (T.add_mem a1 b1) (hab.trans h)]
    rfl
  · exact ⟨h1.1, fun a ha => absurd ha (h1.2 a)⟩

theorem FX.sub (hR : R.ExactOn T N) {A B : K} {x y : XNum K} (hx : FX T A x) (hy : FX T B y)
    (h : A + B ≤ N) :
    @FloatOps.sub _ R.ops x y = FloatOps.sub x y ∧ FX T (A + B) (FloatOps.sub x y) := by
  have key : (∃ a b, x = .fin a ∧ y = .fin b) ∨
      @FloatOps.sub _ R.ops x y = FloatOps.sub x y ∧ ∀ a, FloatOps.sub x y ≠ .fin a := by
    cases x <;> cases y <;> first
      | exact Or.inl ⟨_, _, rfl, rfl⟩
      | exact Or.inr ⟨rfl, fun a ha => by cases ha⟩
  rcases key with ⟨a, b, rfl, rfl⟩ | h1
  · obtain ⟨a1, a2⟩ := hx a rfl
    obtain ⟨b1, b2⟩ := hy b rfl
    have hab : |a - b| ≤ A + B := (abs_sub a b).trans (add_le_add a2 b2)
    refine ⟨?_, fx_fin (T.sub_mem a1 b1) hab⟩
    show R.rnd (a - b) = _
    rw [hR.whole _ (T.sub_mem a1 b1) (hab.trans h)]
    rfl
  · exact ⟨h1.1, fun a ha => absurd ha (h1.2 a)⟩

theorem FX.cancel {A : K} {x y : XNum K} (hx : FX T A x) :
    FX T A (FloatOps.sub (FloatOps.add x y) y) := by
  have key : (∃ a b, x = .fin a ∧ y = .fin b) ∨
      ∀ a, FloatOps.sub (FloatOps.add x y) y ≠ .fin a := by
    cases x <;> cases y <;> first
      | exact Or.inl ⟨_, _, rfl, rfl⟩
      | exact Or.inr (fun a ha => by cases ha)
  rcases key with ⟨a, b, rfl, rfl⟩ | h
  · have : FloatOps.sub (FloatOps.add (XNum.fin a) (XNum.fin b)) (XNum.fin b) = XNum.fin (a + b - b) :=
      rfl
    rw [this, add_sub_cancel_right]
    exact hx
  · exact fun a ha => absurd ha (h a)

theorem FX.half (hR : R.ExactOn T N) {A : K} {x : XNum K} (hx : FX T A x) (h : A ≤ N) :
    @FloatOps.half _ R.ops x = FloatOps.half x := by
  cases x with
  | fin a =>
    obtain ⟨a1, a2⟩ := hx a rfl
    show R.rnd (a / 2) = _
    rw [hR.half _ a1 (a2.trans h)]
    rfl
  | _ => rfl

/-- sums of finitely many numbers -/
theorem sum_same (hR : R.ExactOn T N) (hM : 0 ≤ M) {l : List (XNum K)} (hl : ∀ x ∈ l, FX T M x)
    (h : l.length * M ≤ N) :
    @FloatOps.sum _ R.ops l = FloatOps.sum l ∧ FX T (l.length * M) (FloatOps.sum l) := by
  unfold FloatOps.sum
  suffices H : ∀ (A : K) (acc : XNum K), FX T A acc → A + l.length * M ≤ N →
      l.foldl (@FloatOps.add _ R.ops) acc = l.foldl FloatOps.add acc ∧
      FX T (A + l.length * M) (l.foldl FloatOps.add acc) by
    have := H 0 (.fin 0) (fx_zero T le_rfl) (by simpa using h)
    rw [zero_add] at this
    exact this
  clear h
  induction l with
  | nil => intro A acc ha h; simpa using ha
  | cons x t ih =>
    intro A acc ha h
    simp only [List.length_cons, Nat.cast_add, Nat.cast_one, List.foldl_cons] at h ⊢
    have hx := hl x (by simp)
    have ht : 0 ≤ (t.length : K) * M := mul_nonneg (Nat.cast_nonneg _) hM
    obtain ⟨h1, h2⟩ := ha.add hR hx (by linarith)
    rw [h1]
    have := ih (fun y hy => hl y (by simp [hy])) (A + M) _ h2 (by linarith)
    refine ⟨this.1, this.2.mono (by linarith)⟩

/-- two loops agree as long as their bodies agree on the reachable states -/
theorem foldlM_same {ι β : Type} (f g : β → ι → RM β) (P : List ι → β → Prop) (l : List ι) (b : β)
    (h0 : P [] b)
    (h : ∀ done i rest b, l = done ++ i :: rest → P done b →
      f b i = g b i ∧ ∀ b', g b i = .ok b' → P (done ++ [i]) b') :
    l.foldlM f b = l.foldlM g b ∧ ∀ b', l.foldlM g b = .ok b' → P l b' := by
  suffices H : ∀ (rest done : List ι) (b : β), l = done ++ rest → P done b →
      rest.foldlM f b = rest.foldlM g b ∧ ∀ b', rest.foldlM g b = .ok b' → P l b' from H l [] b rfl h0
  intro rest
  induction rest with
  | nil =>
    intro done b hl hP
    refine ⟨rfl, fun b' hb => ?_⟩
    rw [← Except.ok.inj hb]
    simpa [hl] using hP
  | cons i rest ih =>
    intro done b hl hP
    obtain ⟨h1, h2⟩ := h done i rest b hl hP
    rw [List.foldlM_cons, List.foldlM_cons, h1]
    cases hg : g b i with
    | error e => exact ⟨rfl, fun b' hb => by cases hb⟩
    | ok b' => exact ih (done ++ [i]) b' (by simp [hl]) (h2 b' hg)

theorem entry_fx {m : Mat (XNum K)} (hm : FixedMat T M m) {i j : Nat} {x : XNum K}
    (h : m.entry i j = .ok x) : FX T M x := by
  unfold Mat.entry at h
  split at h
  · rename_i hij
    rw [← Except.ok.inj h]
    exact hm i j hij.1 hij.2
  · cases h

theorem evaluatePath_same (hR : R.ExactOn T N) {m : Mat (XNum K)} (hm : FixedMat T M m) (hM : 0 ≤ M)
    {p : List Nat} (h : p.length * M ≤ N) :
    @Mat.evaluatePath _ R.ops m p = m.evaluatePath p ∧
    ∀ x, m.evaluatePath p = .ok x → FX T (p.length * M) x := by
  unfold Mat.evaluatePath
  split
  · refine ⟨rfl, fun x hx => ?_⟩
    rw [← Except.ok.inj hx]
    exact fx_zero T (mul_nonneg (Nat.cast_nonneg _) hM)
  · have hlen : (p.zip p.tail).length ≤ p.length := by simp
    generalize p.zip p.tail = l at hlen
    suffices H : ∀ (A : K) (acc : XNum K), FX T A acc → A + l.length * M ≤ N →
        l.foldlM (fun acc e => do
          let cost ← m.entry e.1 e.2
          return @FloatOps.add _ R.ops acc cost) acc = l.foldlM (fun acc e => do
          let cost ← m.entry e.1 e.2
          return FloatOps.add acc cost) acc ∧
        ∀ x, l.foldlM (fun acc e => do
          let cost ← m.entry e.1 e.2
          return FloatOps.add acc cost) acc = .ok x → FX T (A + l.length * M) x by
      have hl : (l.length : K) * M ≤ p.length * M :=
        mul_le_mul_of_nonneg_right (by exact_mod_cast hlen) hM
      have := H 0 (.fin 0) (fx_zero T le_rfl) (by linarith)
      refine ⟨this.1, fun x hx => (this.2 x hx).mono (by linarith)⟩
    clear hlen
    induction l with
    | nil =>
      intro A acc ha h
      refine ⟨rfl, fun x hx => ?_⟩
      rw [← Except.ok.inj hx]
      simpa using ha
    | cons e t ih =>
      intro A acc ha h
      simp only [List.length_cons, Nat.cast_add, Nat.cast_one, List.foldlM_cons] at h ⊢
      cases he : m.entry e.1 e.2 with
      | error => simp
      | ok w =>
        have hw := entry_fx hm he
        have ht : 0 ≤ (t.length : K) * M := mul_nonneg (Nat.cast_nonneg _) hM
        obtain ⟨h1, h2⟩ := ha.add hR hw (by linarith)
        simp only [rm_bind_ok, rm_pure, h1]
        have := ih (A + M) _ h2 (by linarith)
        exact ⟨this.1, fun x hx => (this.2 x hx).mono (by linarith)⟩

theorem evaluateCircle_same (hR : R.ExactOn T N) {m : Mat (XNum K)} (hm : FixedMat T M m) (hM : 0 ≤ M)
    {p : List Nat} (h : (p.length + 1) * M ≤ N) :
    @Mat.evaluateCircle _ R.ops m p = m.evaluateCircle p := by
  unfold Mat.evaluateCircle
  split
  · rfl
  · refine bind_congr fun l => bind_congr fun f => ?_
    cases he : m.entry l f with
    | error => rfl
    | ok w =>
      simp only [rm_bind_ok]
      have hw := entry_fx hm he
      obtain ⟨h1, h2⟩ := evaluatePath_same hR hm hM (p := p) (by linarith)
      rw [h1]
      cases hp : m.evaluatePath p with
      | error => rfl
      | ok x =>
        simp only [rm_bind_ok, rm_pure]
        rw [((h2 x hp).add hR hw (by linarith)).1]

theorem permLoop_same (hR : R.ExactOn T N) {m : Mat (XNum K)} (hm : FixedMat T M m) (hM : 0 ≤ M)
    {n : Nat} (h : ((n : K) + 1) * M ≤ N) (step : List Nat → RM (Bool × List Nat))
    (hstep : ∀ a more b, step a = .ok (more, b) → b.length = a.length) (fuel : Nat) :
    ∀ (cur : List Nat) (best : Solution (XNum K)), cur.length = n →
      @permLoop _ R.ops m step fuel cur best = permLoop m step fuel cur best := by
  induction fuel with
  | zero => intros; rfl
  | succ fuel ih =>
    intro cur best hc
    unfold permLoop
    cases hs : step cur with
    | error => rfl
    | ok r =>
      obtain ⟨more, cur'⟩ := r
      have hl := hstep _ _ _ hs
      simp only [rm_bind_ok]
      rw [evaluateCircle_same hR hm hM (p := cur') (by rw [hl, hc]; exact h)]
      split
      · cases m.evaluateCircle cur' with
        | error => rfl
        | ok x =>
          simp only [rm_bind_ok]
          exact ite_congr rfl (fun _ => ih _ _ (by rw [hl, hc])) (fun _ => ih _ _ (by rw [hl, hc]))
      · rfl

end Walky
