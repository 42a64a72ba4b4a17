import Verif.Lemmas.NearMpi
import Verif.Props.Robust
import Verif.Props.Rounding
import Verif.Props.Threaded

/-! # C78: v4 – v6 and the threaded solver in IEEE double precision -/

namespace Walky.Props

open FloatOps XNum Spec

/-- The sizes fit for `4 n M ≤ 2 ^ k` and up to `2 ^ 25` cities. -/
theorem fits64 {k : ℤ} (h1 : -1021 ≤ k) (h2 : k ≤ 1023) {m : Mat (XNum ℚ)} {c : Nat → Nat → ℚ}
    (hm : Rep m c) {M : ℚ} (hM : 0 ≤ M)
    (hc : ∀ i j, i < m.dim → j < m.dim → i ≠ j → |c i j| ≤ M) (hn : 2 ≤ m.dim)
    (hn' : m.dim ≤ 2 ^ 25) (hB : 4 * m.dim * M ≤ (2 : ℚ) ^ k) :
    binary64.Fits (pow2 k) (pow2 (k - 54)) M m c := by
  refine ⟨near64 h1 h2, (pow2_pos _).le, hM, hm, hc, hn, ?_⟩
  rw [← pow2_eq] at hB
  generalize he' : pow2 (k - 54) = e at *
  have he : 0 ≤ e := he' ▸ (pow2_pos _).le
  have a1 : 2 * m.dim * m.dim + 3 * m.dim + 1 ≤ 2 ^ 52 := by
    have := Nat.mul_le_mul hn' hn'
    norm_num at this hn' ⊢
    nlinarith
  have a2 : ((2 * m.dim * m.dim + 3 * m.dim + 1 : Nat) : ℚ) ≤ 2 ^ 52 := by exact_mod_cast a1
  have a3 := mul_le_mul_of_nonneg_right a2 he
  have a4 : (2 ^ 52 : ℚ) * e = pow2 k / 4 := by
    have e1 : (2 ^ 52 : ℚ) * e = pow2 (k - 2) := by
      rw [← he', show (2 ^ 52 : ℚ) = pow2 52 by norm_num [pow2_eq], ← pow2_add]
      congr 1
      ring
    have e2 := pow2_half k
    have e3 := pow2_half (k - 1)
    rw [show k - 1 - 1 = k - 2 by ring] at e3
    rw [e1]
    linarith
  push_cast at a3 ⊢
  linarith

/-- **C78** Costs of size at most `M` between `2 ≤ n ≤ 2 ^ 25` cities, `4 n M ≤ 2 ^ k`. In IEEE
double precision v4, v5 and v6 (with any hash function) return a tour, and the reported cost differs from its
length by at most `(2 n² + 1) · 2 ^ (k - 54)`. For symmetric costs that are not negative the cost reported by
v5, and by v6 if the hash has no collisions, is at most `(2 n² + 3 n + 1) · 2 ^ (k - 54)` above twice the length
of any tour. (The costs need not be doubles.) Not claimed: a shortest tour, see `C08_v5_not_exact`. -/
theorem C78_exact_double {k : ℤ} (h1 : -1021 ≤ k) (h2 : k ≤ 1023) {m : Mat (XNum ℚ)}
    {c : Nat → Nat → ℚ} (hm : Rep m c) {M : ℚ} (hM : 0 ≤ M)
    (hc : ∀ i j, i < m.dim → j < m.dim → i ≠ j → |c i j| ≤ M) (hn : 2 ≤ m.dim)
    (hn' : m.dim ≤ 2 ^ 25) (hB : 4 * m.dim * M ≤ (2 : ℚ) ^ k) (hash : List Nat → Nat) :
    (∃ p w, @fourthImprovedSolver _ binary64.ops m = .ok (.fin w, p) ∧ IsTour m.dim p ∧
      |w - tourCost c p| ≤ (2 * m.dim ^ 2 + 1) * (2 : ℚ) ^ (k - 54)) ∧
    (∃ p w, @fifthImprovedSolver _ binary64.ops m = .ok (.fin w, p) ∧ IsTour m.dim p ∧
      |w - tourCost c p| ≤ (2 * m.dim ^ 2 + 1) * (2 : ℚ) ^ (k - 54) ∧
      (Symm m.dim c → Nonneg m.dim c → ∀ q, IsTour m.dim q →
        w ≤ 2 * tourCost c q + (2 * m.dim ^ 2 + 3 * m.dim + 1) * (2 : ℚ) ^ (k - 54))) ∧
    (∃ p w, @sixthImprovedSolver _ binary64.ops m hash = .ok (.fin w, p) ∧ IsTour m.dim p ∧
      |w - tourCost c p| ≤ (2 * m.dim ^ 2 + 1) * (2 : ℚ) ^ (k - 54) ∧
      (Symm m.dim c → Nonneg m.dim c → (∀ p q : List Nat, p.Nodup → q.Nodup → (∀ i ∈ p, i < m.dim) →
          (∀ i ∈ q, i < m.dim) → hash p = hash q → p = q) → ∀ q, IsTour m.dim q →
        w ≤ 2 * tourCost c q + (2 * m.dim ^ 2 + 3 * m.dim + 1) * (2 : ℚ) ^ (k - 54))) := by
  have h := fits64 h1 h2 hm hM hc hn hn' hB
  have e1 : ((2 * m.dim * m.dim + 1 : Nat) : ℚ) * pow2 (k - 54) = (2 * m.dim ^ 2 + 1) * (2 : ℚ) ^ (k - 54) := by
    rw [pow2_eq]
    push_cast
    ring
  have e2 : ((2 * m.dim * m.dim + 3 * m.dim + 1 : Nat) : ℚ) * pow2 (k - 54) =
      (2 * m.dim ^ 2 + 3 * m.dim + 1) * (2 : ℚ) ^ (k - 54) := by
    rw [pow2_eq]
    push_cast
    ring
  obtain ⟨p5, w5, a1, a2, a3, a4⟩ := v5_near h
  rw [e1] at a3
  rw [e2] at a4
  refine ⟨?_, ⟨p5, w5, a1, a2, a3, a4⟩, ?_⟩
  · obtain ⟨p, w, b1, b2, b3⟩ := v4_near h
    rw [e1] at b3
    exact ⟨p, w, b1, b2, b3⟩
  · obtain ⟨p, w, b1, b2, b3⟩ := v6_near h hash
    rw [e1] at b3
    refine ⟨p, w, b1, b2, b3, fun hs hnn hinj => ?_⟩
    rw [@C09_v6_eq_v5 _ binary64.ops m hash hinj, a1] at b1
    injection b1 with b1
    injection b1 with b1 b4
    injection b1 with b1
    rw [← b1]
    exact a4 hs hnn

/-- the search below a prefix -/
private theorem prefix_near {m : Mat (XNum ℚ)} {c : Nat → Nat → ℚ} {B e M : ℚ}
    (h : binary64.Fits B e M m c) {pre : List Nat} (hv : ValidPre m.dim pre) :
    ∃ p w, @searchPrefix _ binary64.ops m pre = .ok (fin w, p) ∧ IsTour m.dim p ∧
      |w - tourCost c p| ≤ (2 * m.dim * m.dim + 1 : Nat) * e ∧
      (Symm m.dim c → Nonneg m.dim c → ∀ q, IsTour m.dim q → pre <+: q →
        w ≤ 2 * tourCost c q + (2 * m.dim * m.dim + 3 * m.dim + 1 : Nat) * e) := by
  obtain ⟨r, r1, -, r3, r4, r5⟩ := searchMpi_near h proper_inf hv
  rw [← searchPrefix_eq] at r1
  rcases r3 with h' | ⟨k1, w, k2, k3⟩
  · rcases r4 _ (firstLeaf_tour hv) (firstLeaf_prefix _ _) with h2 | h2
    · rw [h'] at h2
      simp at h2
    · simp at h2
  · refine ⟨r.2, w, by rw [r1, ← k2], k1, k3, fun hs hn q hq hpq => ?_⟩
    rcases r5 hs hn q hq hpq with h' | h'
    · rw [k2] at h'
      simpa using h'
    · simp at h'

/-- **C78 (threads)** The threaded solver in IEEE double precision, for at least two cities:
* no execution panics or gets stuck, and the number of steps is bounded (C17);
* there is a result; whatever the schedule the reported cost is the same, the path is a tour, and the
  cost differs from its length by at most `(2 n² + 1) · 2 ^ (k - 54)`;
* for symmetric costs that are not negative it is at most `(2 n² + 3 n + 1) · 2 ^ (k - 54)` above twice the
  length of any tour.
Not claimed: two cities with one thread (`C19_threaded_two_cities`), a shortest tour (`C20_not_exact`). -/
theorem C78_threaded_double {k : ℤ} (h1 : -1021 ≤ k) (h2 : k ≤ 1023) {m : Mat (XNum ℚ)}
    {c : Nat → Nat → ℚ} (hm : Rep m c) {M : ℚ} (hM : 0 ≤ M)
    (hc : ∀ i j, i < m.dim → j < m.dim → i ≠ j → |c i j| ≤ M) (hn : 2 ≤ m.dim)
    (hn' : m.dim ≤ 2 ^ 25) (hB : 4 * m.dim * M ≤ (2 : ℚ) ^ k) {nT : Nat} (hT : 1 ≤ nT)
    (hex : ¬ (m.dim = 2 ∧ nT = 1)) :
    (nT < m.dim → ∃ s0 L, @initThreads _ binary64.ops m 3 nT = .ok s0 ∧ s0.threads.length = nT ∧
      (∃ n s, Steps (@TSys.step _ binary64.ops m) n s0 s ∧ s.final) ∧
      ∀ n s, Steps (@TSys.step _ binary64.ops m) n s0 s → n ≤ L ∧
        ∀ (i : Nat) t, s.threads[i]? = some t → t.done = false →
          ∃ s', @TSys.stepOf _ binary64.ops m i s s') ∧
    (∃ r, @ThreadedResult _ binary64.ops m 3 nT r) ∧
    ∃ w, (∀ r, @ThreadedResult _ binary64.ops m 3 nT r → r.1 = .fin w ∧ IsTour m.dim r.2 ∧
        |w - tourCost c r.2| ≤ (2 * m.dim ^ 2 + 1) * (2 : ℚ) ^ (k - 54)) ∧
      (Symm m.dim c → Nonneg m.dim c → ∀ q, IsTour m.dim q →
        w ≤ 2 * tourCost c q + (2 * m.dim ^ 2 + 3 * m.dim + 1) * (2 : ℚ) ^ (k - 54)) := by
  have h := fits64 h1 h2 hm hM hc hn hn' hB
  have e1 : ((2 * m.dim * m.dim + 1 : Nat) : ℚ) * pow2 (k - 54) = (2 * m.dim ^ 2 + 1) * (2 : ℚ) ^ (k - 54) := by
    rw [pow2_eq]
    push_cast
    ring
  have e2 : ((2 * m.dim * m.dim + 3 * m.dim + 1 : Nat) : ℚ) * pow2 (k - 54) =
      (2 * m.dim ^ 2 + 3 * m.dim + 1) * (2 : ℚ) ^ (k - 54) := by
    rw [pow2_eq]
    push_cast
    ring
  have hF : SameCmp binary64.ops := sameCmp_ops binary64
  have hS : SearchOk m.dim (@searchPrefix _ binary64.ops m) := by
    intro pre hv
    obtain ⟨p, w, a1, -⟩ := prefix_near h hv
    exact ⟨_, a1, by simp⟩
  refine ⟨fun h3 => threaded_progress hF hS hT h3, ?_⟩
  by_cases hle : m.dim ≤ nT
  · -- v5
    obtain ⟨p, w, a1, a2, a3, a4⟩ := v5_near h
    rw [e1] at a3
    rw [e2] at a4
    unfold ThreadedResult
    simp only [if_pos hle, a1]
    refine ⟨⟨_, rfl⟩, w, fun r hr => ?_, a4⟩
    injection hr with hr
    rw [← hr]
    exact ⟨rfl, a2, a3⟩
  · rw [not_le] at hle
    have hn3 : 3 ≤ m.dim := by omega
    have hres : ∃ r, @ThreadedResult _ binary64.ops m 3 nT r := by
      obtain ⟨s0, _, b1, _, ⟨n, s, b2, b3⟩, _⟩ := threaded_progress hF hS hT hle
      exact ⟨s.best, by unfold ThreadedResult; rw [if_neg (by omega)]; exact ⟨s0, n, s, b1, b2, b3, rfl⟩⟩
    refine ⟨hres, ?_⟩
    have hw0 := work_zero (a := 1) (b := 2) hn3 hT hle (by omega) (by omega) (by decide)
    have htour : ∀ r, @ThreadedResult _ binary64.ops m 3 nT r → IsTour m.dim r.2 ∧
        (∃ w, r.1 = fin w ∧ |w - tourCost c r.2| ≤ (2 * m.dim ^ 2 + 1) * (2 : ℚ) ^ (k - 54)) ∧
        ∃ i < nT, ∃ pre, Work m.dim 3 (loV m.dim nT i) (hiV m.dim nT i) pre ∧
          @searchPrefix _ binary64.ops m pre = .ok r := by
      intro r hr
      obtain ⟨a, b⟩ := threaded_factsG hF hS hT hle hr
      rcases a with e | ⟨i, hi, pre, hw, hs⟩
      · obtain ⟨p0, w0, d1, -⟩ := prefix_near h hw0.validPre
        have := b 0 (by omega) _ hw0 _ d1
        rw [e] at this
        cases this
      · obtain ⟨p, w, d1, d2, d3, -⟩ := prefix_near h hw.validPre
        rw [hs] at d1
        injection d1 with d1
        rw [e1] at d3
        refine ⟨by rw [d1]; exact d2, ⟨w, by rw [d1], by rw [d1]; exact d3⟩, i, hi, pre, hw, hs⟩
    obtain ⟨r1, hr1⟩ := hres
    obtain ⟨a1, ⟨w, a2, a3⟩, i, hi, pre, hw, hs⟩ := htour r1 hr1
    refine ⟨w, fun r hr => ?_, fun hsym hnn q hq => ?_⟩
    · obtain ⟨b1, ⟨w', b2, b3⟩, j, hj, pre', hw', hs'⟩ := htour r hr
      have l1 := (threaded_factsG hF hS hT hle hr).2 i hi pre hw _ hs
      have l2 := (threaded_factsG hF hS hT hle hr1).2 j hj pre' hw' _ hs'
      rw [a2, b2] at l1 l2
      simp only [XNum.le_fin, decide_eq_true_eq] at l1 l2
      have : w' = w := _root_.le_antisymm l1 l2
      rw [← this]
      exact ⟨b2, b1, b3⟩
    · obtain ⟨k', t, hk⟩ := rotate_to_zero (by omega) hq
      have hq' : IsTour m.dim (0 :: t) := hk ▸ hq.rotate k'
      have hcq : tourCost c (0 :: t) = tourCost c q := by rw [← hk, tourCost_rotate]
      have hlen := hq'.length
      rcases t with _ | ⟨a, _ | ⟨b, t⟩⟩
      · simp at hlen; omega
      · simp at hlen; omega
      have hnd : [0, a, b].Nodup := by
        have := hq'.nodup
        simp only [List.nodup_cons, List.mem_cons, not_or] at this ⊢
        simp
        tauto
      have hwork := work_zero hn3 hT hle (hq'.mem.mp (by simp)) (hq'.mem.mp (by simp)) hnd
      obtain ⟨p, x, d1, -, -, d4⟩ := prefix_near h hwork.validPre
      have l1 := (threaded_factsG hF hS hT hle hr1).2 0 (by omega) _ hwork _ d1
      rw [a2] at l1
      simp only [XNum.le_fin, decide_eq_true_eq] at l1
      have := d4 hsym hnn _ hq' ⟨t, rfl⟩
      rw [hcq, e2] at this
      exact l1.trans this

/-- four cities, costs up to 10, `k = 8` -/
theorem ex_fits : (0 : ℚ) ≤ 10 ∧
    (∀ i j, i < (Mat.ofFun 4 Ex.c4).dim → j < (Mat.ofFun 4 Ex.c4).dim → i ≠ j → |Ex.c4 i j| ≤ 10) ∧
    4 * ((Mat.ofFun 4 Ex.c4).dim : ℚ) * 10 ≤ (2 : ℚ) ^ (8 : ℤ) := by
  have hb : ∀ i < 4, ∀ j < 4, |Ex.c4 i j| ≤ 10 := by decide +kernel
  refine ⟨by norm_num, fun i j hi hj _ => hb i hi j hj, ?_⟩
  rw [show (Mat.ofFun 4 Ex.c4).dim = 4 from rfl]
  norm_num

/-- the theorems for the example: the cost is within `33 · 2 ^ -46` of the length of the tour -/
example (hash : List Nat → Nat) : ∃ p w, @sixthImprovedSolver _ binary64.ops (Mat.ofFun 4 Ex.c4) hash =
    .ok (.fin w, p) ∧ IsTour 4 p ∧ |w - tourCost Ex.c4 p| ≤ 33 * (2 : ℚ) ^ (-46 : ℤ) := by
  obtain ⟨-, -, p, w, a1, a2, a3, -⟩ := C78_exact_double (k := 8) (by norm_num) (by norm_num)
    (rep_ofFun 4 Ex.c4) ex_fits.1 ex_fits.2.1 (by decide) (by decide) ex_fits.2.2 hash
  refine ⟨p, w, a1, a2, a3.trans (le_of_eq ?_)⟩
  rw [show (Mat.ofFun 4 Ex.c4).dim = 4 from rfl]
  norm_num

example : ∃ w, ∀ r, @ThreadedResult _ binary64.ops (Mat.ofFun 4 Ex.c4) 3 2 r → r.1 = .fin w ∧
    IsTour 4 r.2 := by
  obtain ⟨-, -, w, a1, -⟩ := C78_threaded_double (k := 8) (by norm_num) (by norm_num)
    (rep_ofFun 4 Ex.c4) ex_fits.1 ex_fits.2.1 (by decide) (by decide) ex_fits.2.2 (nT := 2) (by decide)
    (by decide)
  exact ⟨w, fun r hr => ⟨(a1 r hr).1, (a1 r hr).2.1⟩⟩

end Walky.Props
