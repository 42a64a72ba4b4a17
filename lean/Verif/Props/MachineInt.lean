import Verif.Model.MachineInt
import Verif.Lemmas.Digits
import Verif.Lemmas.FixedApprox
import Verif.Lemmas.FixedPar
import Verif.Lemmas.Printed

/-!
# Property C110: the integers of the machine

When the computations with prefixes and chunks give the same results as with unbounded numbers, and what
happens otherwise.
-/

set_option linter.unusedSectionVars false

namespace Walky.Props

open FloatOps

variable {α : Type} [FloatOps α]

private theorem wrap_ok {T : Target} {x : Nat} (h : x < 2 ^ T.bits) : T.wrap x = .ok x := if_pos h

/-- **C110, chunks** If the number of prefixes fits into a `usize`, the bounds of the chunks are computed without
overflow: the result is that of unbounded numbers, in both kinds of builds. -/
theorem C110_split (T : Target) {k b n i : Nat} (hk : k < 2 ^ 32) (h : b ^ k < 2 ^ T.bits) (hi : i < n) :
    splitChunksW T k b n i = splitChunks k b n i := by
  unfold splitChunksW splitChunks
  rw [Nat.mod_eq_of_lt hk, wrap_ok h]
  simp only [rm_bind_ok]
  by_cases hn : n < b ^ k
  · have hcs : 1 ≤ b ^ k / n := Nat.div_pos hn.le (by omega)
    have hle : (i + 1) * (b ^ k / n) ≤ b ^ k :=
      (Nat.mul_le_mul_right _ hi).trans (Nat.mul_div_le _ _)
    have e : (i + 1) * (b ^ k / n) = i * (b ^ k / n) + b ^ k / n := by ring
    rw [if_pos hn, if_pos hn, if_neg (by omega), if_neg (by omega), wrap_ok (by omega)]
    simp only [rm_bind_ok]
    rw [wrap_ok (by omega)]
    simp only [rm_bind_ok]
    rw [show T.sub (i * (b ^ k / n) + b ^ k / n) 1 = .ok (i * (b ^ k / n) + b ^ k / n - 1) from
      if_pos (by omega)]
    rfl
  · rw [if_neg hn, if_neg hn]

private theorem incRevW_eq (T : Target) {b : Nat} (hb : b < 2 ^ T.bits) : ∀ (ds : List Nat) (c : Nat), c ≤ 1 →
    (∀ d ∈ ds, d < b) → incRevW T b c ds = incRev b c ds
  | [], _, _, _ => by simp only [incRevW, incRev]
  | d :: ds, c, hc, h => by
    have hd := h d (by simp)
    unfold incRevW incRev
    rw [wrap_ok (by omega)]
    simp only [rm_bind_ok]
    have : (d + c) / b ≤ 1 := by
      rw [← Nat.lt_succ_iff, Nat.div_lt_iff_lt_mul (by omega)]
      omega
    rw [incRevW_eq T hb ds _ this fun x hx => h x (by simp [hx])]

/-- **C110, next prefix** Counting up valid digits never overflows. -/
theorem C110_next (T : Target) {b : Nat} (hb : b < 2 ^ T.bits) {ds : List Nat} (h : ∀ d ∈ ds, d < b) :
    getNextValueW T ds b = getNextValue ds b := by
  unfold getNextValueW getNextValue
  rw [incRevW_eq T hb _ _ le_rfl fun d hd => h d (by simpa using hd)]

private theorem threadStepW_eq (T : Target) {m : Mat α} (hb : m.dim < 2 ^ T.bits) {t : TState α}
    (h : ∀ d ∈ t.digits, d < m.dim) (best : Solution α) :
    threadStepW T m t best = threadStep m t best := by
  unfold threadStepW threadStep
  rw [C110_next T hb h]
  cases t.pending <;> rfl

private theorem threadStep_valid {m : Mat α} {t t' : TState α} (h : ∀ d ∈ t.digits, d < m.dim)
    {best b' : Solution α} (hs : threadStep m t best = .ok (t', b')) : ∀ d ∈ t'.digits, d < m.dim := by
  unfold threadStep at hs
  split at hs
  · have e1 : _ = t' := (Prod.mk.inj (Except.ok.inj hs)).1; rw [← e1]; exact h
  · obtain ⟨l, -, hv, hx⟩ := getNextValue_ok h
    have key : ∃ o, getNextValue t.digits m.dim = .ok (l, o) := by
      rcases hx with ⟨-, e, -⟩ | ⟨-, e⟩ <;> exact ⟨_, e⟩
    obtain ⟨o, e⟩ := key
    rw [e] at hs
    simp only [rm_bind_ok, rm_pure] at hs
    split at hs
    · have e1 : _ = t' := (Prod.mk.inj (Except.ok.inj hs)).1; rw [← e1]; exact hv
    · split at hs
      · have e1 : _ = t' := (Prod.mk.inj (Except.ok.inj hs)).1; rw [← e1]; exact hv
      · split at hs
        · obtain ⟨r, -, hs'⟩ := bind_ok hs
          have e1 : _ = t' := (Prod.mk.inj (Except.ok.inj hs')).1; rw [← e1]; exact hv
        · have e1 : _ = t' := (Prod.mk.inj (Except.ok.inj hs)).1; rw [← e1]; exact hv

private def AllValid (m : Mat α) (s : TSys α) : Prop := ∀ t ∈ s.threads, ∀ d ∈ t.digits, d < m.dim

private theorem step_iff (T : Target) {m : Mat α} (hb : m.dim < 2 ^ T.bits) {s s' : TSys α}
    (h : AllValid m s) : TSys.stepW T m s s' ↔ TSys.step m s s' := by
  constructor
  · rintro ⟨i, t, t', b, h1, h2, h3, h4⟩
    exact ⟨i, t, t', b, h1, h2, by rwa [← threadStepW_eq T hb (h t (List.mem_of_getElem? h1))], h4⟩
  · rintro ⟨i, t, t', b, h1, h2, h3, h4⟩
    exact ⟨i, t, t', b, h1, h2, by rwa [threadStepW_eq T hb (h t (List.mem_of_getElem? h1))], h4⟩

private theorem step_valid {m : Mat α} {s s' : TSys α} (h : AllValid m s) (hs : TSys.step m s s') :
    AllValid m s' := by
  obtain ⟨i, t, t', b, h1, -, h3, rfl⟩ := hs
  intro u hu
  rcases List.mem_or_eq_of_mem_set hu with hu | rfl
  · exact h u hu
  · exact threadStep_valid (h t (List.mem_of_getElem? h1)) h3

private theorem steps_iff (T : Target) {m : Mat α} (hb : m.dim < 2 ^ T.bits) {s s' : TSys α}
    (h : AllValid m s) (n : Nat) :
    (Steps (TSys.stepW T m) n s s' ↔ Steps (TSys.step m) n s s') ∧
      (Steps (TSys.step m) n s s' → AllValid m s') := by
  induction n generalizing s' with
  | zero =>
    refine ⟨⟨fun x => ?_, fun x => ?_⟩, fun x => ?_⟩ <;> cases x
    · exact .refl _
    · exact .refl _
    · exact h
  | succ n ih =>
    refine ⟨⟨fun x => ?_, fun x => ?_⟩, fun x => ?_⟩
    · cases x with
      | tail a c =>
        have a' := ih.1.mp a
        exact .tail a' ((step_iff T hb (ih.2 a')).mp c)
    · cases x with
      | tail a c => exact .tail (ih.1.mpr a) ((step_iff T hb (ih.2 a)).mpr c)
    · cases x with
      | tail a c => exact step_valid (ih.2 a) c

private theorem split_valid {k b n i : Nat} {p : List Nat × List Nat} (h : splitChunks k b n i = .ok p) :
    ∀ d ∈ p.1, d < b := by
  unfold splitChunks at h
  simp only at h
  split at h
  · split at h
    · cases h
    · obtain ⟨a, ha, h'⟩ := bind_ok h
      obtain ⟨c, -, h''⟩ := bind_ok h'
      rw [← Except.ok.inj h'']
      rcases Nat.eq_zero_or_pos b with rfl | hb
      · rcases k with _ | k
        · have := Except.ok.inj ha
          rw [← this]; simp
        · cases ha
      · obtain ⟨ds, e, -, hv, -⟩ := convert_ok hb (i * (b ^ k / n)) k
        rw [e] at ha
        rw [← Except.ok.inj ha]
        exact hv
  · cases h

/-- **C110, threads** If the number of prefixes fits into a `usize`, the results of the multi-threaded solver are
exactly those of the model with unbounded numbers (to which C17–C20 apply), in both kinds of builds. In the program the
prefixes have 3 entries. -/
theorem C110_threads (T : Target) (m : Mat α) {k : Nat} (hk : 1 ≤ k) (hk' : k < 2 ^ 32)
    (h : m.dim ^ k < 2 ^ T.bits) (nT : Nat) (r : Solution α) :
    ThreadedResultW T m k nT r ↔ ThreadedResult m k nT r := by
  unfold ThreadedResultW ThreadedResult
  split
  · rfl
  · rename_i hd
    have hb : m.dim < 2 ^ T.bits := (Nat.le_self_pow (by omega) _).trans_lt h
    have e : initThreadsW T m k nT = initThreads m k nT := by
      unfold initThreadsW initThreads
      congr 1
      refine mapM_congr' fun i hi => ?_
      rw [C110_split T hk' h (List.mem_range.mp hi)]
    rw [e]
    have hv : ∀ s0, initThreads m k nT = .ok s0 → AllValid m s0 := by
      intro s0 h0
      obtain ⟨ts, h1, h2⟩ := bind_ok h0
      rw [← Except.ok.inj h2]
      refine mapM_all (P := fun t : TState α => ∀ d ∈ t.digits, d < m.dim) ?_ _ _ h1
      intro i t ht
      obtain ⟨p, hp, ht'⟩ := bind_ok ht
      rw [← Except.ok.inj ht']
      exact split_valid hp
    constructor
    · rintro ⟨s0, n, s, h1, h2, h3, h4⟩
      exact ⟨s0, n, s, h1, (steps_iff T hb (hv s0 h1) n).1.mp h2, h3, h4⟩
    · rintro ⟨s0, n, s, h1, h2, h3, h4⟩
      exact ⟨s0, n, s, h1, (steps_iff T hb (hv s0 h1) n).1.mpr h2, h3, h4⟩

/-- the condition holds up to 2642245 cities with 64 bits, and up to 1625 with 32 bits -/
theorem C110_limits (n : Nat) : (n ^ 3 < 2 ^ 64 ↔ n ≤ 2642245) ∧ (n ^ 3 < 2 ^ 32 ↔ n ≤ 1625) := by
  refine ⟨⟨fun h => ?_, fun h => ?_⟩, ⟨fun h => ?_, fun h => ?_⟩⟩
  · by_contra hn
    have := Nat.pow_le_pow_left (show 2642246 ≤ n by omega) 3
    have : 2 ^ 64 ≤ 2642246 ^ 3 := by norm_num
    omega
  · have := Nat.pow_le_pow_left h 3
    have : 2642245 ^ 3 < 2 ^ 64 := by norm_num
    omega
  · by_contra hn
    have := Nat.pow_le_pow_left (show 1626 ≤ n by omega) 3
    have : 2 ^ 32 ≤ 1626 ^ 3 := by norm_num
    omega
  · have := Nat.pow_le_pow_left h 3
    have : 1625 ^ 3 < 2 ^ 32 := by norm_num
    omega

/-- **C110, debug builds** If the number of prefixes does not fit, every chunk is a panic, and the
multi-threaded solver has no result. -/
theorem C110_debug {T : Target} (hT : T.checked = true) {k b : Nat} (hk : k < 2 ^ 32)
    (h : 2 ^ T.bits ≤ b ^ k) :
    (∀ n i, splitChunksW T k b n i = .error .arith) ∧
    ∀ (m : Mat α) (nT : Nat), m.dim = b → 1 ≤ nT → nT < m.dim → ∀ r, ¬ ThreadedResultW T m k nT r := by
  have key : ∀ n i, splitChunksW T k b n i = .error .arith := by
    intro n i
    unfold splitChunksW Target.wrap
    rw [Nat.mod_eq_of_lt hk, if_neg (by omega), if_pos hT]
    rfl
  refine ⟨key, ?_⟩
  rintro m nT rfl h1 h2 r hr
  unfold ThreadedResultW at hr
  rw [if_neg (by omega)] at hr
  obtain ⟨s0, n, s, h0, -⟩ := hr
  unfold initThreadsW at h0
  obtain ⟨nT, rfl⟩ : ∃ j, nT = j + 1 := ⟨nT - 1, by omega⟩
  rw [List.range_succ_eq_map, List.mapM_cons, key] at h0
  cases h0

/-- **C110, release builds** If the number of prefixes does not fit, it wraps around. Then the chunks only contain
prefixes that are, as numbers, below the wrapped value; if the wrapped value is not above the number of
chunks, the assertion fails. -/
theorem C110_release {T : Target} (hT : T.checked = false) {k b n i : Nat} (hk : k < 2 ^ 32)
    (h : 2 ^ T.bits ≤ b ^ k) (hi : i < n) :
    (b ^ k % 2 ^ T.bits ≤ n → splitChunksW T k b n i = .error .assert) ∧
    (n < b ^ k % 2 ^ T.bits → ∃ lo hi, splitChunksW T k b n i = .ok (lo, hi) ∧
      lo.length = k ∧ hi.length = k ∧ (∀ d ∈ lo, d < b) ∧ (∀ d ∈ hi, d < b) ∧
      Nat.ofDigits b lo.reverse = i * (b ^ k % 2 ^ T.bits / n) ∧
      Nat.ofDigits b hi.reverse + 1 = (i + 1) * (b ^ k % 2 ^ T.bits / n) ∧
      Nat.ofDigits b hi.reverse < b ^ k % 2 ^ T.bits) := by
  have e : T.wrap (b ^ (k % 2 ^ 32)) = .ok (b ^ k % 2 ^ T.bits) := by
    unfold Target.wrap
    rw [Nat.mod_eq_of_lt hk, if_neg (by omega), hT]
    rfl
  have hlt : b ^ k % 2 ^ T.bits < 2 ^ T.bits := Nat.mod_lt _ (by positivity)
  generalize b ^ k % 2 ^ T.bits = tot at *
  constructor
  · intro hn
    unfold splitChunksW
    rw [e]
    simp only [rm_bind_ok]
    rw [if_neg (by omega)]
  · intro hn
    have hcs : 1 ≤ tot / n := Nat.div_pos hn.le (by omega)
    have hle : (i + 1) * (tot / n) ≤ tot :=
      (Nat.mul_le_mul_right _ hi).trans (Nat.mul_div_le _ _)
    have e2 : (i + 1) * (tot / n) = i * (tot / n) + tot / n := by ring
    have hb : 0 < b := by
      rcases Nat.eq_zero_or_pos b with rfl | h0
      · rcases k with _ | k
        · rw [pow_zero] at h
          omega
        · rw [zero_pow (by omega)] at h
          omega
      · exact h0
    obtain ⟨lo, a1, a2, a3, a4⟩ := convert_ok hb (i * (tot / n)) k
    obtain ⟨hi', c1, c2, c3, c4⟩ := convert_ok hb (i * (tot / n) + tot / n - 1) k
    rw [Nat.mod_eq_of_lt (by omega)] at a4 c4
    unfold digitsVal at a4 c4
    refine ⟨lo, hi', ?_, a2, c2, a3, c3, a4, by omega, by omega⟩
    unfold splitChunksW
    rw [e]
    simp only [rm_bind_ok]
    rw [if_pos hn, if_neg (by omega), wrap_ok (by omega)]
    simp only [rm_bind_ok]
    rw [wrap_ok (by omega)]
    simp only [rm_bind_ok]
    rw [show T.sub (i * (tot / n) + tot / n) 1 = .ok (i * (tot / n) + tot / n - 1) from
      if_pos (by omega)]
    simp only [rm_bind_ok, a1, c1, rm_pure]

/-- **C110, an example on 32 bits** A release build with 3251 cities (a matrix of 85 megabytes) does not panic, but
the threads together look only at prefixes below 83883: at none that starts with city 0 followed by one of the
cities 26 to 3250. With 2048 cities (32 bits) or 4194304 cities (64 bits) every chunk panics. -/
theorem C110_release_loses :
    (∀ n i, n < 3251 → i < n → ∃ lo hi, splitChunksW ⟨32, false⟩ 3 3251 n i = .ok (lo, hi) ∧
      ∀ b c, 26 ≤ b → Nat.ofDigits 3251 hi.reverse < Nat.ofDigits 3251 [0, b, c].reverse) ∧
    (∀ n i, i < n → splitChunksW ⟨32, false⟩ 3 2048 n i = .error .assert) ∧
    (∀ n i, i < n → splitChunksW ⟨64, false⟩ 3 (2 ^ 22) n i = .error .assert) := by
  refine ⟨fun n i hn hi => ?_, fun n i hi => ?_, fun n i hi => ?_⟩
  · have e : 3251 ^ 3 % 2 ^ (Target.mk 32 false).bits = 83883 := by decide +kernel
    obtain ⟨lo, hi', h1, -, -, -, -, -, -, h2⟩ :=
      (C110_release (T := ⟨32, false⟩) rfl (k := 3) (b := 3251) (n := n) (i := i) (by decide)
        (by decide +kernel) hi).2 (by rw [e]; omega)
    refine ⟨lo, hi', h1, fun b c hb => ?_⟩
    rw [e] at h2
    have : Nat.ofDigits 3251 [0, b, c].reverse = c + 3251 * b := by
      simp [Nat.ofDigits_cons]
    omega
  · exact (C110_release (T := ⟨32, false⟩) rfl (k := 3) (b := 2048) (by decide) (by decide +kernel) hi).1
      (by rw [show 2048 ^ 3 % 2 ^ (Target.mk 32 false).bits = 0 by decide +kernel]; omega)
  · exact (C110_release (T := ⟨64, false⟩) rfl (k := 3) (b := 2 ^ 22) (by decide) (by decide +kernel) hi).1
      (by rw [show (2 ^ 22) ^ 3 % 2 ^ (Target.mk 64 false).bits = 0 by decide +kernel]; omega)

private theorem i32_ok {ch : Bool} {x : Int} (h0 : 0 ≤ x) (h : x < 2 ^ 31) : i32Wrap ch x = .ok x :=
  if_pos ⟨by omega, h⟩

private theorem bind_eq {β γ : Type} {x : RM β} {a : β} (h : x = .ok a) (f : β → RM γ) : (x >>= f) = f a := by
  rw [h]; rfl

private theorem cast_lt (x : Nat) (h : x < 2 ^ 31) : (x : Int) < 2 ^ 31 := by exact_mod_cast h

private theorem nn_list (start : Nat) (l : List Nat) :
    ((l.map fun (j : Nat) => (start : Int) + (j : Int)).mapM fun (k : Int) =>
      if 0 ≤ k then (.ok k.toNat : RM Nat) else .error .unwrap) = .ok (l.map fun j => start + j) := by
  induction l with
  | nil => rfl
  | cons a l ih =>
    rw [List.map_cons, List.mapM_cons, ih, if_pos (by omega), List.map_cons]
    simp only [rm_bind_ok, rm_pure]
    congr 2

private theorem nn_core (n size rank : Nat) (hs : 0 < size) (start q : Nat) :
    (if (rank : Int) = (size : Int) - 1 ∧ ((n % size : Nat) : Int) ≠ 0 then (n : Int)
      else (start : Int) + (q : Int)) =
    ((if rank = size - 1 ∧ n % size ≠ 0 then n else start + q : Nat) : Int) := by
  by_cases c : rank = size - 1 ∧ n % size ≠ 0
  · rw [if_pos c, if_pos ⟨by omega, by omega⟩]
  · rw [if_neg c, if_neg (by rintro ⟨a, b⟩; exact c ⟨by omega, by omega⟩)]
    push_cast; rfl

private theorem nn_le {n size rank : Nat} (hr : rank < size) : n / size * rank + n / size ≤ n := by
  have h1 : n / size * (rank + 1) ≤ n / size * size := Nat.mul_le_mul_left _ hr
  have h2 := Nat.div_mul_le_self n size
  have h3 : n / size * (rank + 1) = n / size * rank + n / size := by ring
  omega

/-- **C110, nearest neighbour with MPI** If the number of cities fits into an `i32`, the start cities of every rank
are computed without overflow, in both kinds of builds; otherwise every rank panics. -/
theorem C110_nn (ch : Bool) {n size rank : Nat} (hs : size < 2 ^ 31) (hr : rank < size) :
    (n < 2 ^ 31 → nnChunkI32 ch n size rank = .ok (nnChunk n size rank)) ∧
    (2 ^ 31 ≤ n → nnChunkI32 ch n size rank = .error .unwrap) := by
  refine ⟨fun hn => ?_, fun hn => by unfold nnChunkI32; rw [if_pos hn]⟩
  have hle := nn_le (n := n) hr
  have b1 : ((n / size * rank : Nat) : Int) < 2 ^ 31 := by
    have : n / size * rank < 2 ^ 31 := Nat.lt_of_le_of_lt ((Nat.le_add_right _ _).trans hle) hn
    exact cast_lt _ this
  have b2 : ((n / size * rank : Nat) : Int) + ((n / size : Nat) : Int) < 2 ^ 31 := by
    have : n / size * rank + n / size < 2 ^ 31 := Nat.lt_of_le_of_lt hle hn
    rw [← Int.natCast_add]
    exact cast_lt _ this
  have b3 : (size : Int) - 1 < 2 ^ 31 := by omega
  have e3 : ((n / size : Nat) : Int) * (rank : Int) = ((n / size * rank : Nat) : Int) := by push_cast; rfl
  unfold nnChunkI32
  rw [if_neg (Nat.not_le.mpr hn)]
  simp only
  rw [if_neg (show ¬ (size : Int) = 0 by omega), Int.tdiv_eq_ediv_of_nonneg (Int.natCast_nonneg _),
    Int.tmod_eq_emod_of_nonneg (Int.natCast_nonneg _), ← Int.natCast_ediv, ← Int.natCast_emod, e3,
    bind_eq (i32_ok (Int.natCast_nonneg _) b1),
    bind_eq (i32_ok (Int.add_nonneg (Int.natCast_nonneg _) (Int.natCast_nonneg _)) b2),
    bind_eq (i32_ok (by omega) b3)]
  rw [nn_core n size rank (by omega)]
  unfold nnChunk
  simp only
  generalize (if rank = size - 1 ∧ n % size ≠ 0 then n else n / size * rank + n / size) = stop
  generalize n / size * rank = start
  rw [show ((stop : Int) - (start : Int)).toNat = stop - start by omega, List.range'_eq_map_range]
  exact nn_list start _

/-- **C110, nearest neighbour with MPI** so the best local solution is that of `nnLocal` (to which the theorems about
the MPI program apply). -/
theorem C110_nn_local (ch : Bool) (m : Mat α) {size rank : Nat} (hs : size < 2 ^ 31) (hr : rank < size)
    (hn : m.dim < 2 ^ 31) : nnLocalI32 ch m size rank = nnLocal m size rank := by
  unfold nnLocalI32 nnLocal
  rw [(C110_nn ch hs hr).1 hn]
  rfl

/-- the hypotheses: 10 cities on 3 ranks, and the prefixes of 10 cities in 7 chunks -/
example : nnChunkI32 true 10 3 2 = .ok [6, 7, 8, 9] ∧ nnChunkI32 false 10 3 0 = .ok [0, 1, 2] ∧
    splitChunksW ⟨64, true⟩ 3 10 7 2 = .ok ([2, 8, 4], [4, 2, 5]) ∧
    splitChunksW ⟨8, true⟩ 3 10 7 2 = .error .arith ∧
    splitChunksW ⟨8, false⟩ 3 10 7 2 = .ok ([0, 6, 6], [0, 9, 8]) := by decide +kernel

end Walky.Props
