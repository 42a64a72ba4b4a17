import Verif.Lemmas.Digits

/-!
# Properties C14–C16: prefixes as numbers

`Nat.ofDigits b` (Mathlib) is the value of a digit list, least significant digit first.
-/

namespace Walky.Props

/-- **C14** Conversion of a value below `b ^ k` gives exactly `k` digits below `b`, most significant
first, that represent the value. -/
theorem C14_digits {b k v : Nat} (hb : 1 ≤ b) (hv : v < b ^ k) :
    ∃ ds, convertToBAryDigits v b k = .ok ds ∧ ds.length = k ∧ (∀ d ∈ ds, d < b) ∧
      Nat.ofDigits b ds.reverse = v := by
  obtain ⟨ds, h1, h2, h3, h4⟩ := convert_ok hb v k
  exact ⟨ds, h1, h2, h3, by rw [Nat.mod_eq_of_lt hv] at h4; exact h4⟩

/-- **C14, chunks** The digits reported for chunk `i` of `n` are those of the boundary values
`i * (b^k / n)` and `(i+1) * (b^k / n) - 1`. -/
theorem C14_chunk_digits {b k n i : Nat} (hn : 1 ≤ n) (h : n < b ^ k) (hi : i < n) :
    ∃ lo hi, splitChunks k b n i = .ok (lo, hi) ∧ lo.length = k ∧ hi.length = k ∧
      (∀ d ∈ lo, d < b) ∧ (∀ d ∈ hi, d < b) ∧
      Nat.ofDigits b lo.reverse = i * (b ^ k / n) ∧
      Nat.ofDigits b hi.reverse + 1 = (i + 1) * (b ^ k / n) := by
  have hcs : 1 ≤ b ^ k / n := Nat.div_pos h.le hn
  have hle : (i + 1) * (b ^ k / n) ≤ b ^ k :=
    (Nat.mul_le_mul_right _ hi).trans (Nat.mul_div_le _ _)
  have hb : 1 ≤ b := by
    rcases Nat.eq_zero_or_pos b with rfl | h0
    · rcases k with _ | k
      · simp at h; omega
      · simp at h
    · exact h0
  have e : (i + 1) * (b ^ k / n) = i * (b ^ k / n) + b ^ k / n := by ring
  obtain ⟨lo, a1, a2, a3, a4⟩ := C14_digits hb (v := i * (b ^ k / n)) (k := k) (by omega)
  obtain ⟨hi', c1, c2, c3, c4⟩ := C14_digits hb (v := i * (b ^ k / n) + b ^ k / n - 1) (k := k)
    (by omega)
  refine ⟨lo, hi', ?_, a2, c2, a3, c3, a4, by omega⟩
  unfold splitChunks
  simp only [h, if_true, show n ≠ 0 by omega, if_false, a1, c1, rm_bind_ok, rm_pure]

/-- the hypotheses of C14 and C16: three digits in base 10, seven chunks -/
example : 1 ≤ 7 ∧ 7 < 10 ^ 3 ∧ 4 < 7 ∧ convertToBAryDigits 407 10 3 = .ok [4, 0, 7] := by decide

/-- **C15** On valid digits `get_next_value` returns the digits of the number plus one (and leaves
them in its argument) unless the number is the largest one, in which case it returns `None`. -/
theorem C15_next_value {b : Nat} {ds : List Nat} (h : ∀ d ∈ ds, d < b) :
    (Nat.ofDigits b ds.reverse + 1 < b ^ ds.length ∧ ∃ l, getNextValue ds b = .ok (l, some l) ∧
      l.length = ds.length ∧ (∀ d ∈ l, d < b) ∧
      Nat.ofDigits b l.reverse = Nat.ofDigits b ds.reverse + 1) ∨
    (Nat.ofDigits b ds.reverse + 1 = b ^ ds.length ∧ ∃ l, getNextValue ds b = .ok (l, none)) := by
  obtain ⟨l, h1, h2, h3 | h3⟩ := getNextValue_ok h
  · exact Or.inl ⟨h3.1, l, h3.2.1, h1, h2, h3.2.2⟩
  · exact Or.inr ⟨h3.1, l, h3.2⟩

/-- both cases of C15 -/
example : (∀ d ∈ [1, 9, 9], d < 10) ∧ getNextValue [1, 9, 9] 10 = .ok ([2, 0, 0], some [2, 0, 0]) ∧
    getNextValue [9, 9] 10 = .ok ([0, 0], none) := by decide

/-- the value `v` lies in chunk `i` -/
def InChunk (k b n i v : Nat) : Prop :=
  ∃ lo hi, splitChunks k b n i = .ok (lo, hi) ∧ Nat.ofDigits b lo.reverse ≤ v ∧
    v ≤ Nat.ofDigits b hi.reverse

theorem inChunk_iff {b k n i v : Nat} (hn : 1 ≤ n) (h : n < b ^ k) (hi : i < n) :
    InChunk k b n i v ↔ i * (b ^ k / n) ≤ v ∧ v < (i + 1) * (b ^ k / n) := by
  obtain ⟨lo, hi', h1, _, _, _, _, h2, h3⟩ := C14_chunk_digits hn h hi
  constructor
  · rintro ⟨lo2, hi2, e, a, c⟩
    rw [h1] at e
    injection e with e
    injection e with e1 e2
    subst e1 e2
    omega
  · rintro ⟨a, c⟩
    exact ⟨lo, hi', h1, by omega, by omega⟩

/-- **C16 (partial)** The chunks are consecutive (each starts where the previous one ends),
disjoint and non-empty, and a value is in some chunk exactly when it is below `n * (b^k / n)`.
Missing: the last `b^k % n` values, see `C16_remainder_lost`. -/
theorem C16_chunks_partial {b k n : Nat} (hn : 1 ≤ n) (h : n < b ^ k) :
    (∀ i < n, ∃ lo hi, splitChunks k b n i = .ok (lo, hi) ∧
      Nat.ofDigits b lo.reverse ≤ Nat.ofDigits b hi.reverse ∧
      (i = 0 → Nat.ofDigits b lo.reverse = 0) ∧
      (∀ lo' hi', i + 1 < n → splitChunks k b n (i + 1) = .ok (lo', hi') →
        Nat.ofDigits b lo'.reverse = Nat.ofDigits b hi.reverse + 1)) ∧
    (∀ i < n, ∀ j < n, ∀ v, InChunk k b n i v → InChunk k b n j v → i = j) ∧
    (∀ v, (∃ i < n, InChunk k b n i v) ↔ v < n * (b ^ k / n)) := by
  have hcs : 1 ≤ b ^ k / n := Nat.div_pos h.le hn
  refine ⟨?_, ?_, ?_⟩
  · intro i hi
    obtain ⟨lo, hi', h1, _, _, _, _, h2, h3⟩ := C14_chunk_digits hn h hi
    have e : (i + 1) * (b ^ k / n) = i * (b ^ k / n) + b ^ k / n := by ring
    refine ⟨lo, hi', h1, by omega, ?_, ?_⟩
    · rintro rfl; simpa using h2
    · intro lo2 hi2 hlt e
      obtain ⟨lo3, hi3, k1, _, _, _, _, k2, k3⟩ := C14_chunk_digits hn h hlt
      rw [k1] at e
      injection e with e
      injection e with e1 e2
      rw [← e1, k2, h3]
  · intro i hi j hj v hv hw
    rw [inChunk_iff hn h hi] at hv
    rw [inChunk_iff hn h hj] at hw
    have a1 : i < j + 1 := lt_of_mul_lt_mul_right (hv.1.trans_lt hw.2) (Nat.zero_le _)
    have a2 : j < i + 1 := lt_of_mul_lt_mul_right (hw.1.trans_lt hv.2) (Nat.zero_le _)
    omega
  · intro v
    constructor
    · rintro ⟨i, hi, hv⟩
      rw [inChunk_iff hn h hi] at hv
      exact hv.2.trans_le (Nat.mul_le_mul_right _ hi)
    · intro hv
      have hi : v / (b ^ k / n) < n := (Nat.div_lt_iff_lt_mul hcs).mpr hv
      refine ⟨v / (b ^ k / n), hi, (inChunk_iff hn h hi).mpr ⟨Nat.div_mul_le_self _ _, ?_⟩⟩
      exact Nat.lt_mul_of_div_lt (Nat.lt_succ_self _) hcs

/-- **C16 (negation)** Whenever `n` does not divide the number of values, the largest value is in no
chunk; for instance with 3 chunks of one decimal digit. -/
theorem C16_remainder_lost {b k n : Nat} (hn : 1 ≤ n) (h : n < b ^ k) (hd : ¬ n ∣ b ^ k) :
    b ^ k - 1 < b ^ k ∧ ∀ i < n, ¬ InChunk k b n i (b ^ k - 1) := by
  refine ⟨by omega, ?_⟩
  intro i hi hv
  have := ((C16_chunks_partial hn h).2.2 (b ^ k - 1)).mp ⟨i, hi, hv⟩
  have h2 := Nat.div_add_mod (b ^ k) n
  have h3 : b ^ k % n ≠ 0 := fun e => hd (Nat.dvd_of_mod_eq_zero e)
  omega

example : 1 ≤ 3 ∧ 3 < 10 ^ 1 ∧ ¬ 3 ∣ 10 ^ 1 := by decide

end Walky.Props
