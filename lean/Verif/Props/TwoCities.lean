import Verif.Lemmas.TwoCities
import Verif.Lemmas.Sqrt64
import Verif.Props.Cli
import Verif.Props.RobustCli
import Verif.Props.NearestNeighbour
import Verif.Props.OneTree
import Verif.Props.CliMpi
import Verif.Props.StaticMpi
import Verif.Props.DynamicMpi
import Verif.Lemmas.FixedPar

/-!
# Two cities (C115)

The smallest instance with a tour. Everything that walky prints for it is known, for every command, every
random number and every schedule.
-/

set_option linter.unusedSectionVars false

set_option linter.unusedSimpArgs false

namespace Walky.Props

open XNum Spec

variable {K : Type} [Field K] [LinearOrder K] [IsStrictOrderedRing K]

/-- two cities at the distance `x` -/
def twoCities (x : XNum K) : Graph (XNum K) := [[⟨1, x⟩], [⟨0, x⟩]]

/-- **C115, inputs.** An accepted input with two cities and without self loops consists of two edges of the
same cost. -/
theorem C115_inputs {R : Rounding K} {g : Graph (XNum K)} (hacc : @doConditionsHold _ R.ops g = .ok true)
    (hn : g.length = 2) (hl : NoLoop g) : ∃ x, g = twoCities x := by
  match g, hn with
  | [v, w], _ =>
    unfold doConditionsHold at hacc
    split at hacc
    · rename_i hc
      simp only [Bool.and_eq_true] at hc
      have hfull := hc.1
      simp only [isFullyConnected, List.all_cons, List.all_nil, List.length_cons, List.length_nil,
        Bool.and_true, Bool.and_eq_true, beq_iff_eq] at hfull
      obtain ⟨hv, hw⟩ := hfull
      match v, w, hv, hw with
      | [e], [f], _, _ =>
        have he := hl 0 [e] rfl e (by simp)
        have hf := hl 1 [f] rfl f (by simp)
        obtain ⟨d, x⟩ := e
        obtain ⟨d', x'⟩ := f
        simp only at he hf
        simp only [isUndirected, List.zipIdx_cons, List.zipIdx_nil, allRM, isUndirectedAt] at hacc
        have hd : d = 1 := by
          rcases Nat.lt_or_ge d 2 with h | h
          · omega
          · rw [show idx [[(⟨d, x⟩ : Edge (XNum K))], [⟨d', x'⟩]] d = .error .index by
              unfold idx; rw [List.getElem?_eq_none (by simpa using h)]] at hacc
            cases hacc
        subst hd
        have hd' : d' = 0 := by
          by_contra hne
          have h2 : 2 ≤ d' := by omega
          rw [show idx [[(⟨1, x⟩ : Edge (XNum K))], [⟨d', x'⟩]] d' = .error .index by
              unfold idx; rw [List.getElem?_eq_none (by simpa using h2)]] at hacc
          simp [idx, hne] at hacc
        subst hd'
        refine ⟨x, ?_⟩
        have hx : XNum.beq x' x = true := by
          by_contra hne
          rw [Bool.not_eq_true] at hne
          have : FloatOps.eq x' x = false := hne
          simp [idx] at hacc
          split at hacc
          · rename_i h
            rw [show XNum.beq x' x = true from h] at hne
            cases hne
          · cases hacc
        have : x' = x := by
          cases x <;> cases x' <;> simp_all [XNum.beq]
        rw [this]
        rfl
    · cases hacc

/-- `x` is a number of the arithmetic `R` with `0 ≤ x`, and doubling it is exact; rounding does not pass `0`
and `x`. -/
structure Doubles (R : Rounding K) (x : K) : Prop where
  nonneg : 0 ≤ x
  zero : R.rnd 0 = fin 0
  one : R.rnd x = fin x
  two : R.rnd (x + x) = fin (x + x)
  ge : ∀ v d, d = 0 ∨ d = x → d ≤ v → XNum.lt (R.rnd v) (fin d) = false

/-- In exact arithmetic all numbers that are not negative are admissible. -/
theorem doubles_exact {x : K} (hx : 0 ≤ x) : Doubles ⟨fun x => fin x⟩ x :=
  ⟨hx, rfl, rfl, rfl, fun v d _ h => by simpa [XNum.lt] using h⟩

/-- In double precision: all doubles below `2 ^ 1023` that are not negative. -/
theorem doubles_binary64 {x : ℚ} (hd : IsDouble x) (h0 : 0 ≤ x) (hx : x < pow2 1023) : Doubles binary64 x := by
  have h2 : IsDouble (x + x) := by
    obtain ⟨z, q, e, hz, hq, -⟩ := hd
    refine ⟨z, q + 1, ?_, hz, by omega, ?_⟩
    · rw [pow2_add, show pow2 1 = 2 by norm_num [pow2_eq], e]
      ring
    · rw [abs_of_nonneg (add_nonneg h0 h0), show (1024 : ℤ) = 1023 + 1 by norm_num, pow2_add,
        show pow2 1 = 2 by norm_num [pow2_eq], mul_two]
      exact add_lt_add hx hx
  refine ⟨h0, round64_isDouble isDouble_zero, round64_isDouble hd, round64_isDouble h2, ?_⟩
  intro v d hdd hv
  have hdd' : IsDouble d ∧ 0 ≤ d := by
    rcases hdd with rfl | rfl
    · exact ⟨isDouble_zero, le_refl _⟩
    · exact ⟨hd, h0⟩
  show XNum.lt (round64 v) (fin d) = false
  cases h : round64 v with
  | nan => rfl
  | inf => rfl
  | fin y => simpa [XNum.lt] using round64_ge h hdd'.1 hv
  | ninf =>
    exfalso
    unfold round64 at h
    split at h
    · cases h
    · rename_i hv0
      split at h
      · cases h
      · split at h
        · rename_i hneg
          have hk := nearest64_nearest hv0 isDouble_zero
          have hvn : 0 ≤ v := hdd'.2.trans hv
          rw [zero_sub, abs_neg, abs_of_nonneg hvn] at hk
          have := (abs_le.mp hk).1
          have hp := pow2_pos 1024
          linarith
        · cases h

private theorem Doubles.num {R : Rounding K} {x : K} (h : Doubles R x) :
    @TwoNum _ R.ops (fin x) (fin (x + x)) := by
  have hxx : (x + x) / 2 = x := by rw [← two_mul, mul_div_cancel_left₀ _ two_ne_zero]
  let _ : FloatOps (XNum K) := R.ops
  have hz : (FloatOps.zero : XNum K) = fin 0 := rfl
  have hi : (FloatOps.inf : XNum K) = XNum.inf := rfl
  exact {
    zz := by show R.rnd (0 + 0) = _; rw [add_zero, h.zero]; rfl
    zx := by show R.rnd (0 + x) = _; rw [zero_add, h.one]
    xz := by show R.rnd (x + 0) = _; rw [add_zero, h.one]
    xx := h.two
    half := by show R.rnd ((x + x) / 2) = _; rw [hxx, h.one]
    xi := rfl
    yi := rfl
    yy := by show decide (_ < _) = false; simp
    xx' := by show decide (_ < _) = false; simp
    xle := rfl
    oz := by simp [hz, hi, FloatOps.olt, FloatOps.isNaN, FloatOps.eq, FloatOps.lt, XNum.beq, XNum.lt]
    oz' := by simp [hz, hi, FloatOps.olt, FloatOps.isNaN, FloatOps.eq, FloatOps.lt, XNum.beq, XNum.lt]
    ox := by simp [hz, hi, FloatOps.olt, FloatOps.isNaN, FloatOps.eq, FloatOps.lt, XNum.beq, XNum.lt]
    ox' := by simp [hz, hi, FloatOps.olt, FloatOps.isNaN, FloatOps.eq, FloatOps.lt, XNum.beq, XNum.lt]
    oii := by simp [hz, hi, FloatOps.olt, FloatOps.isNaN, FloatOps.eq, FloatOps.lt, XNum.beq, XNum.lt]
    oyy := by simp [hz, hi, FloatOps.olt, FloatOps.isNaN, FloatOps.eq, FloatOps.lt, XNum.beq, XNum.lt]
    zi := rfl
    ez := rfl
    ei := rfl
    ex := rfl
    xz' := by show decide (x < 0) = false; simpa using h.nonneg
    ii := rfl
    zi' := rfl
    ixp := rfl
    xip := rfl
    hi := rfl
    ili := rfl }

private theorem two_mat (x : XNum K) (R : Rounding K) : ∃ m, @naFromGraph _ R.ops (twoCities x) = .ok m ∧
    @Two _ R.ops m x := by
  refine ⟨_, rfl, ?_⟩
  exact @Two.mk _ R.ops _ _ rfl rfl rfl rfl rfl

private theorem two_accepted (R : Rounding K) (x : K) : @doConditionsHold _ R.ops (twoCities (fin x)) = .ok true := by
  have hb : @FloatOps.eq _ R.ops (fin x) (fin x) = true := by show decide (x = x) = true; simp
  simp [doConditionsHold, isFullyConnected, isMultiEdge, twoCities, isUndirected, allRM, isUndirectedAt, idx, hb]

private theorem two_parse (R : Rounding K) (x : K) :
    @parseChecked _ R.ops (twoCities (fin x)) = .ok (twoCities (fin x)) := by
  unfold parseChecked
  rw [two_accepted]
  rfl

private theorem two_metric {R : Rounding K} {x : K} (h : Doubles R x) {m : Mat (XNum K)}
    (hm : @Two _ R.ops m (fin x)) : @Mat.isMetric _ R.ops m = true := by
  have key : ∀ v d, d = 0 ∨ d = x → d ≤ v →
      @FloatOps.lt _ R.ops (@FloatOps.add _ R.ops (fin v) (@FloatOps.tol _ R.ops)) (fin d) = false := by
    intro v d hd hv
    have ht := h.ge (1 / 10 ^ 10) 0 (Or.inl rfl) (by positivity)
    show XNum.lt (match (fin v : XNum K), R.rnd (1 / 10 ^ 10) with
      | .fin a, .fin b => R.rnd (a + b)
      | x, y => XNum.add x y) (fin d) = false
    cases htv : R.rnd (1 / 10 ^ 10) with
    | nan => rfl
    | inf => rfl
    | ninf => rw [htv] at ht; cases ht
    | fin t =>
      rw [htv] at ht
      have ht0 : 0 ≤ t := by simpa [XNum.lt] using ht
      exact h.ge (v + t) d hd (by linarith)
  exact @two_isMetric _ R.ops m _ _ h.num hm (key 0 0 (Or.inl rfl) (le_refl _)) (key x x (Or.inr rfl) (le_refl _))
    (key (x + x) 0 (Or.inl rfl) (add_nonneg h.nonneg h.nonneg))

/-- the line that reports a lower bound for two cities at the distance `x` -/
def twoBound (x : K) : LowerBoundAlgorithm → Line (XNum K)
  | .oneTree => .oneTreeBound XNum.inf
  | .mst => .mstBound (fin x)
  | .mstQueue => .mstBound (fin x)

/-- What walky prints for two cities at the distance `x`; `start` is the first city of the shuffle of nearest
neighbour. -/
def twoOutput (x : K) (cpus start : Nat) : Command → List (Line (XNum K))
  | .exact .v0 .singleThreaded => [.bestCost (fin (x + x)), .bestPermutation [1, 0]]
  | .exact .v1 .singleThreaded => [.bestCost XNum.inf, .bestPermutation [0, 1]]
  | .exact _ .singleThreaded => [.bestCost (fin (x + x)), .bestPermutation [0, 1]]
  | .exact _ .multiThreaded =>
    if cpus = 1 then [.bestCost XNum.inf, .bestPermutation []]
    else [.bestCost (fin (x + x)), .bestPermutation [0, 1]]
  | .approx .nearestNeighbour _ lb =>
    [.nnWeight (fin (x + x)), .nnTour [start, 1 - start]] ++ lb.toList.map (twoBound x)
  | .approx .christofides _ lb => [.christofidesWeight (fin (x + x))] ++ lb.toList.map (twoBound x)
  | .lowerBound a _ => [twoBound x a]

/-- **C115, output.** For two cities at a distance that can be doubled, every command succeeds in every build,
and its output is `twoOutput`. -/
theorem C115_output {R : Rounding K} {x : K} (h : Doubles R x) {env : Env (XNum K)} (henv : env.Ok)
    (cmd : Command) (out : RM (List (Line (XNum K)))) :
    @Runs _ R.ops env (twoCities (fin x)) cmd out ↔
      out = .ok (twoOutput x env.cpus ((env.starts 2).headD 0) cmd) := by
  obtain ⟨m, hm, two⟩ := two_mat (fin x) R
  have n := h.num
  have hacc := two_accepted R x
  have hparse := two_parse R x
  have hdbg : env.dbg = true → @Mat.isMetric _ R.ops m = true := fun _ => two_metric h two
  have ho : StrictWeak (@FloatOps.olt _ R.ops) := strictWeak_olt
  have hlb : ∀ a p, @lowerBoundRun _ R.ops env (twoCities (fin x)) a p = .ok [twoBound x a] := by
    intro a p
    unfold lowerBoundRun
    rw [hparse, rm_bind_ok, hm, rm_bind_ok]
    have hone := @two_one_tree _ R.ops m (fin x) (fin (x + x)) n two
    have hprim := @two_prim _ R.ops m (fin x) (fin (x + x)) n two
    have hmst := @two_mst _ R.ops m (fin x) (fin (x + x)) n two
    cases a with
    | oneTree =>
      cases p with
      | singleThreaded =>
        simp only [hone, rm_bind_ok]
        rfl
      | multiThreaded =>
        simp only [@C35_par_eq_seq _ R.ops ho _ henv.oneTreeShape, hone, rm_bind_ok]
        rfl
    | mst =>
      cases p with
      | singleThreaded =>
        simp only [hprim, rm_bind_ok, hmst]
        rfl
      | multiThreaded =>
        simp only [@C30_par_eq_seq _ R.ops ho _ _ henv.sched.shape henv.sched.update, hprim, rm_bind_ok, hmst]
        rfl
    | mstQueue =>
      obtain ⟨g, hg, rfl⟩ := @two_peek _ R.ops m (fin x) (fin (x + x)) n two _ henv.peek.some_of_ne
        henv.peek.mem henv.peek.min
      simp only [hg, rm_bind_ok, hmst]
      rfl
  have hwith : ∀ p lb l, @withBound _ R.ops env (twoCities (fin x)) p lb (.ok l) =
      .ok (l ++ lb.toList.map (twoBound x)) := by
    intro p lb l
    unfold withBound
    cases lb with
    | none => simp
    | some a => simp [hlb]
  cases cmd with
  | lowerBound a p =>
    show out = _ ↔ _
    rw [hlb]
    rfl
  | exact a p =>
    show @ExactRun _ R.ops env (twoCities (fin x)) a p out ↔ _
    unfold ExactRun
    rw [hparse, rm_bind_ok, hm]
    cases p with
    | singleThreaded =>
      cases a with
      | v0 => dsimp only; rw [@two_v0 _ R.ops m (fin x) (fin (x + x)) n two]; rfl
      | v1 => dsimp only; rw [@two_v1 _ R.ops m (fin x) (fin (x + x)) n two]; rfl
      | v2 => dsimp only; rw [@two_v2 _ R.ops m (fin x) (fin (x + x)) n two]; rfl
      | v3 => dsimp only; rw [@two_v3 _ R.ops m (fin x) (fin (x + x)) n two]; rfl
      | v4 => dsimp only; rw [@two_v4 _ R.ops m (fin x) (fin (x + x)) n two]; rfl
      | v5 => dsimp only; rw [@two_v5 _ R.ops m (fin x) (fin (x + x)) n two]; rfl
      | v6 => dsimp only; rw [@two_v6 _ R.ops m (fin x) (fin (x + x)) n two]; rfl
    | multiThreaded =>
      dsimp only
      have hc := henv.cpus
      have ht : twoOutput x env.cpus ((env.starts 2).headD 0) (.exact a .multiThreaded) =
          if env.cpus = 1 then [.bestCost XNum.inf, .bestPermutation []]
          else [.bestCost (fin (x + x)), .bestPermutation [0, 1]] := by
        cases a <;> rfl
      rw [ht]
      by_cases h1 : env.cpus = 1
      · rw [if_pos h1]
        constructor
        · rintro ⟨r, hr, rfl⟩
          rw [h1] at hr
          rw [@two_threaded _ R.ops m (fin x) two r hr]
          rfl
        · rintro rfl
          obtain ⟨o, ho⟩ := (C100_exact (R := R) hacc (by simp [twoCities]) henv a .multiThreaded).1
          change @ExactRun _ R.ops env (twoCities (fin x)) a .multiThreaded o at ho
          unfold ExactRun at ho
          rw [hparse, rm_bind_ok, hm] at ho
          obtain ⟨r, hr, -⟩ := ho
          refine ⟨r, hr, ?_⟩
          rw [h1] at hr
          rw [@two_threaded _ R.ops m (fin x) two r hr]
          rfl
      · rw [if_neg h1]
        simp only [ThreadedResult]
        have hle : m.dim ≤ env.cpus := by rw [@two_dim _ R.ops _ _ two]; omega
        simp only [if_pos hle, @two_v5 _ R.ops m (fin x) (fin (x + x)) n two]
        constructor
        · rintro ⟨r, hr, rfl⟩
          rw [← Except.ok.inj hr]
        · rintro rfl
          exact ⟨_, rfl, rfl⟩
  | approx a p lb =>
    show @ApproxRun _ R.ops env (twoCities (fin x)) a p lb out ↔ _
    unfold ApproxRun
    rw [hparse, rm_bind_ok, hm]
    cases a with
    | christofides =>
      have hseq := @two_christofides _ R.ops m (fin x) (fin (x + x)) n two env.dbg hdbg env.rng henv.rng
      have hpar := @two_christofides_par _ R.ops m (fin x) (fin (x + x)) n two env.dbg hdbg env.rng henv.rng ho
        env.sched henv.sched
      have hres : ∀ p, @withBound _ R.ops env (twoCities (fin x)) p lb
          ((fun r : Solution (XNum K) => [Line.christofidesWeight r.1]) <$>
            (.ok (fin (x + x), [0, 1, 0]) : RM (Solution (XNum K)))) =
          .ok ([.christofidesWeight (fin (x + x))] ++ lb.toList.map (twoBound x)) := fun p => hwith p lb _
      cases p with
      | singleThreaded =>
        constructor
        · rintro ⟨res, rfl, rfl⟩
          rw [hseq, hres]
          rfl
        · rintro rfl
          exact ⟨_, rfl, by rw [hseq, hres]; rfl⟩
      | multiThreaded =>
        constructor
        · rintro ⟨res, hr, rfl⟩
          rw [(hpar res).mp hr, hres]
          rfl
        · rintro rfl
          exact ⟨_, (hpar _).mpr rfl, by rw [hres]; rfl⟩
    | nearestNeighbour =>
      obtain ⟨s, s1, s2, s3⟩ := @two_nn _ R.ops m (fin x) (fin (x + x)) n two (env.starts 2) (henv.starts 2)
      have hs : s = [(env.starts 2).headD 0, 1 - (env.starts 2).headD 0] := by
        rw [List.headD_eq_head?_getD, ← s2]
        rcases s1 with rfl | rfl <;> rfl
      have hres : ∀ p, @withBound _ R.ops env (twoCities (fin x)) p lb
          ((fun r : Solution (XNum K) => [Line.nnWeight r.1, Line.nnTour r.2]) <$>
            (.ok (fin (x + x), s) : RM (Solution (XNum K)))) =
          .ok ([.nnWeight (fin (x + x)), .nnTour s] ++ lb.toList.map (twoBound x)) := fun p => hwith p lb _
      have hpar : @nearestNeighbourPar _ R.ops env.nnShape (env.starts 2) m = .ok (fin (x + x), s) := by
        rw [@C39_nearest_neighbour_par _ R.ops ho _ henv.nnShape, s3]
      simp only [@two_dim _ R.ops _ _ two]
      cases p with
      | singleThreaded =>
        constructor
        · rintro ⟨res, rfl, rfl⟩
          rw [s3, hres, hs]
          rfl
        · rintro rfl
          exact ⟨_, rfl, by rw [s3, hres, hs]; rfl⟩
      | multiThreaded =>
        constructor
        · rintro ⟨res, rfl, rfl⟩
          rw [hpar, hres, hs]
          rfl
        · rintro rfl
          exact ⟨_, rfl, by rw [hpar, hres, hs]; rfl⟩

/-! ## Processes -/

/-- there is no prefix of three different cities -/
private theorem pigeon_round {R : Rounding K} {m : Mat (XNum K)} (hd : m.dim = 2) {w : SWorker (XNum K)}
    (hv : ValidDigits 2 w.digits) (hl : w.digits.length = 3) (rank : Nat) :
    @workerRound _ R.ops m rank w = workerRound m rank w ∧
    ∀ w', workerRound m rank w = .ok w' → ValidDigits 2 w'.digits ∧ w'.digits.length = 3 := by
  obtain ⟨l, l1, l2, l3⟩ := getNextValue_ok hv
  have hu : isUnique l = false := by
    rw [Bool.eq_false_iff]
    intro hc
    have h1 : ValidPre 2 l := ⟨isUnique_iff.mp hc, l2⟩
    have := h1.length_le
    omega
  unfold workerRound
  rw [hd]
  rcases l3 with ⟨-, l3, -⟩ | ⟨-, l3⟩
  · rw [l3]
    simp only [rm_bind_ok, hu]
    refine ⟨rfl, fun w' h => ?_⟩
    split at h <;>
    · rw [← Except.ok.inj h]
      exact ⟨l2, l1.trans hl⟩
  · rw [l3]
    refine ⟨rfl, fun w' h => ?_⟩
    rw [← Except.ok.inj h]
    exact ⟨l2, l1.trans hl⟩

private theorem pigeon_step {R : Rounding K} {m : Mat (XNum K)} (hd : m.dim = 2) (s s' : SSys (XNum K))
    (hI : ∀ w ∈ s.workers, ValidDigits 2 w.digits ∧ w.digits.length = 3) :
    (@SStep _ R.ops m s s' ↔ SStep m s s') ∧
      (SStep m s s' → ∀ w ∈ s'.workers, ValidDigits 2 w.digits ∧ w.digits.length = 3) := by
  refine ⟨⟨fun h => ?_, fun h => ?_⟩, fun h => ?_⟩
  · cases h with
    | round i w w' h1 h2 h3 =>
      have := hI w (List.mem_of_getElem? h1)
      rw [(pigeon_round hd this.1 this.2 _).1] at h3
      exact .round s i w w' h1 h2 h3
    | recv i w g rest h1 h2 h3 => exact .recv s i w g rest h1 h2 h3
    | root i w msg rest h1 h2 h3 => exact .root s i w msg rest h1 h2 h3
  · cases h with
    | round i w w' h1 h2 h3 =>
      have := hI w (List.mem_of_getElem? h1)
      rw [← (pigeon_round (R := R) hd this.1 this.2 _).1] at h3
      exact @SStep.round _ R.ops m s i w w' h1 h2 h3
    | recv i w g rest h1 h2 h3 => exact @SStep.recv _ R.ops m s i w g rest h1 h2 h3
    | root i w msg rest h1 h2 h3 => exact @SStep.root _ R.ops m s i w msg rest h1 h2 h3
  · cases h with
    | round i w w' h1 h2 h3 =>
      have := hI w (List.mem_of_getElem? h1)
      exact mem_set_imp hI ((pigeon_round (R := R) hd this.1 this.2 _).2 w' h3)
    | recv i w g rest h1 h2 h3 =>
      exact mem_set_imp (P := fun w : SWorker (XNum K) => ValidDigits 2 w.digits ∧ w.digits.length = 3) hI
        (hI w (List.mem_of_getElem? h1))
    | root i w msg rest h1 h2 h3 =>
      have h4 := mem_set_imp (i := i) (a := { w with up := rest })
        (P := fun w : SWorker (XNum K) => ValidDigits 2 w.digits ∧ w.digits.length = 3) hI
        (hI w (List.mem_of_getElem? h2))
      unfold SSys.handle
      split
      · exact mem_modify_imp h4 (fun x hx => hx)
      · exact h4

private theorem pigeon_result {R : Rounding K} {m : Mat (XNum K)} (hd : m.dim = 2) {nW : Nat} (hw : nW < 8)
    (r : RM (Solution (XNum K))) : @StaticResult _ R.ops m 3 nW r ↔ StaticResult m 3 nW r := by
  unfold StaticResult
  refine exists_congr fun s0 => exists_congr fun n => exists_congr fun s => ?_
  refine and_congr_right fun hs0 => ?_
  have h0 : ∀ w ∈ s0.workers, ValidDigits 2 w.digits ∧ w.digits.length = 3 := by
    obtain ⟨s1, e1, e2⟩ := sinit_inv (V := fun _ _ => True) (A := fun _ _ _ => True) (m := m) (k := 3) (nW := nW)
      (by rw [hd]; exact hw) (by omega)
    rw [← Except.ok.inj (hs0.symm.trans ((initStatic_eq (sameCmp_ops R) m 3 nW).trans e1)).symm]
    intro w hw'
    obtain ⟨i, hi⟩ := List.mem_iff_getElem?.mp hw'
    have := e2.wk i w hi
    exact ⟨hd ▸ this.valid, this.len⟩
  exact and_congr (steps_same (I := fun s => ∀ w ∈ s.workers, ValidDigits 2 w.digits ∧ w.digits.length = 3)
    (fun s s' hI => pigeon_step hd s s' hI) h0) Iff.rfl

/-- a process that has printed `lines` and goes on with a lower bound -/
def twoAfter (x : K) (lines : List (Line (XNum K))) : Option LowerBoundAlgorithm → Out (XNum K)
  | none => ⟨lines, .ok ()⟩
  | some .oneTree => ⟨lines, .error .unwrap⟩
  | some _ => ⟨lines ++ [.mstBound (fin x)], .ok ()⟩

/-- What the processes of a job print for two cities at the distance `x`, and how they end. -/
def TwoJob (x : K) (size : Nat) : MpiCommand → List (Out (XNum K)) → Prop
  | .exact .v0, outs =>
    (size = 1 ∧ outs = [⟨[.bestCost XNum.inf, .bestPermutation [0, 0]], .ok ()⟩]) ∨
      (2 ≤ size ∧ size ≤ 8 ∧ outs = List.replicate size ⟨[], .error .explicit⟩)
  | .exact .v1, outs => size = 1 ∧ outs = [⟨[.bestCost XNum.inf, .bestPermutation [0, 0]], .ok ()⟩]
  | .exact _, outs => outs = List.replicate size ⟨[], .error .explicit⟩
  | .lowerBound .oneTree, outs =>
    if size ≤ 2 then outs = ⟨[.oneTreeBound XNum.inf], .ok ()⟩ :: List.replicate (size - 1) ⟨[], .ok ()⟩
    else outs = List.replicate size ⟨[], .error .unwrap⟩
  | .lowerBound _, outs => outs = List.replicate size ⟨[.mstBound (fin x)], .ok ()⟩
  | .approx .nearestNeighbour lb, outs =>
    if size ≤ 2 then outs = List.replicate size (twoAfter x [.nnWeight (fin (x + x)), .nnTour [0, 1]] lb)
    else outs = List.replicate size ⟨[], .error .unwrap⟩
  | .approx .christofides lb, outs =>
    outs = twoAfter x [.christofidesWeight (fin (x + x))] lb :: List.replicate (size - 1) ⟨[], .ok ()⟩

/-- **C115, processes.** The outcomes of a job on two cities are those of `TwoJob`, for every number of processes.
(The exact solvers never print a tour. With two processes or more v1 has no outcome, since a worker panics; v0 has
none with nine processes or more.) -/
theorem C115_mpi {R : Rounding K} {x : K} (h : Doubles R x) {env : MpiEnv (XNum K)} (henv : env.Ok)
    (c : MpiCommand) (outs : List (Out (XNum K))) :
    @MpiRuns _ R.ops env (twoCities (fin x)) c outs ↔ TwoJob x env.size c outs := by
  obtain ⟨m, hm, two⟩ := two_mat (fin x) R
  have n := h.num
  have hd : m.dim = 2 := @two_dim _ R.ops _ _ two
  have hparse := two_parse R x
  have hdbg : env.dbg = true → @Mat.isMetric _ R.ops m = true := fun _ => two_metric h two
  have hsize := henv.size
  have hprim := @two_prim _ R.ops m (fin x) (fin (x + x)) n two
  have hmst := @two_mst _ R.ops m (fin x) (fin (x + x)) n two
  have hmpi : ∀ r q, @mpiMst _ R.ops env m r q = ⟨[.mstBound (fin x)], .ok ()⟩ := by
    intro r q
    unfold mpiMst
    cases q with
    | false =>
      simp only [Bool.false_eq_true, if_false, hprim, Out.print, hmst]
    | true =>
      obtain ⟨g, hg, rfl⟩ := @two_peek _ R.ops m (fin x) (fin (x + x)) n two _ (henv.peek r).some_of_ne
        (henv.peek r).mem (henv.peek r).min
      simp only [if_true, hg, Out.print, hmst]
  have hafter : ∀ lines r lb, Out.andThen ⟨lines, .ok ()⟩ (@mpiBoundAfter _ R.ops env m r lb) = twoAfter x lines lb := by
    intro lines r lb
    cases lb with
    | none => simp [mpiBoundAfter, Out.andThen, twoAfter]
    | some a => cases a <;> simp [mpiBoundAfter, Out.andThen, twoAfter, hmpi]
  have hroot : ∀ a b : Out (XNum K), env.rootAnd a b = a :: List.replicate (env.size - 1) b := by
    intro a b
    obtain ⟨k, hk⟩ : ∃ k, env.size = k + 1 := ⟨env.size - 1, by omega⟩
    unfold MpiEnv.rootAnd
    rw [hk, List.range_succ_eq_map]
    simp only [List.map_cons, List.map_map, if_true, Nat.add_sub_cancel, List.cons.injEq, true_and]
    rw [show ((fun r => if r = 0 then a else b) ∘ Nat.succ) = fun _ : Nat => b from rfl, List.map_const', List.length_range]
  have hall : ∀ f : Nat → Out (XNum K), ∀ o, (∀ r, f r = o) →
      (List.range env.size).map f = List.replicate env.size o := by
    intro f o hf
    rw [show f = fun _ => o from funext hf, List.map_const']
    simp
  unfold MpiRuns
  rw [hparse, rm_bind_ok, hm]
  cases c with
  | lowerBound a =>
    cases a with
    | oneTree =>
      simp only [mpiLowerBound, TwoJob,
        @two_one_tree_mpi _ R.ops m (fin x) (fin (x + x)) n two _ henv.oneTreeShape _ hsize]
      by_cases h2 : env.size ≤ 2
      · simp only [if_pos h2, hroot]
        rfl
      · simp only [if_neg h2]
        rfl
    | mst => simp only [mpiLowerBound, TwoJob, hall _ _ fun r => hmpi r false]
    | mstQueue => simp only [mpiLowerBound, TwoJob, hall _ _ fun r => hmpi r true]
  | approx a lb =>
    cases a with
    | christofides =>
      simp only [mpiApprox, TwoJob, @two_christofides_mpi _ R.ops m (fin x) (fin (x + x)) n two env.dbg hdbg env.rng
        henv.rng env.shufs _ hsize, hroot, hafter]
    | nearestNeighbour =>
      have hyy : @FloatOps.eq _ R.ops (fin (x + x)) (fin (x + x)) = true := by
        show decide (x + x = x + x) = true
        simp
      simp only [mpiApprox, TwoJob, @two_nn_mpi _ R.ops m (fin x) (fin (x + x)) n two hyy _ henv.nnShape _ hsize]
      by_cases h2 : env.size ≤ 2
      · simp only [if_pos h2]
        have : ∀ (l : List (Solution (XNum K) × Nat)) , (∀ y ∈ l, y.1 = (fin (x + x), [0, 1])) →
            (l.map fun y => Out.andThen ⟨[Line.nnWeight y.1.1, Line.nnTour y.1.2], .ok ()⟩
              (@mpiBoundAfter _ R.ops env m y.2 lb)) =
            List.replicate l.length (twoAfter x [.nnWeight (fin (x + x)), .nnTour [0, 1]] lb) := by
          intro l hl
          rw [List.eq_replicate_iff]
          refine ⟨by simp, ?_⟩
          intro o ho
          obtain ⟨y, hy, rfl⟩ := List.mem_map.mp ho
          rw [hl y hy, hafter]
        rw [this]
        · simp
        · intro y hy
          obtain ⟨i, hi⟩ := List.mem_iff_getElem?.mp hy
          rw [List.getElem?_zipIdx] at hi
          obtain ⟨z, hz, rfl⟩ := Option.map_eq_some_iff.mp hi
          exact (List.mem_replicate.mp (List.mem_of_getElem? hz)).2
      · simp only [if_neg h2]
        rfl
  | exact a =>
    have h1c : ∀ r : RM (Solution (XNum K)), r = .ok (XNum.inf, List.replicate m.dim 0) → env.size = 1 →
        env.all (Out.print (fun r : Solution (XNum K) => [Line.bestCost r.1, Line.bestPermutation r.2]) r) =
          [⟨[.bestCost XNum.inf, .bestPermutation [0, 0]], .ok ()⟩] := by
      rintro r rfl h1
      unfold MpiEnv.all
      rw [h1, hd]
      rfl
    cases a with
    | v0 =>
      simp only [MpiExactRun, TwoJob]
      have hcases : env.size = 1 ∨ (2 ≤ env.size ∧ env.size ≤ 8) ∨ 9 ≤ env.size := by omega
      rcases hcases with h1 | ⟨h2, h8⟩ | h9
      · have hst := fun r => (@C23_single_process _ R.ops m (by omega) r).1
        rw [show env.size - 1 = 0 by omega]
        simp only [hst]
        constructor
        · rintro ⟨r, hr, rfl⟩
          exact Or.inl ⟨h1, h1c r hr h1⟩
        · rintro (⟨-, rfl⟩ | ⟨a, -⟩)
          · exact ⟨_, rfl, (h1c _ rfl h1).symm⟩
          · omega
      · have hrep : Rep m (fun i j => if i = j then 0 else x) := by
          have g00 := @Two.g00 _ R.ops m (fin x) two
          have g01 := @Two.g01 _ R.ops m (fin x) two
          have g10 := @Two.g10 _ R.ops m (fin x) two
          have g11 := @Two.g11 _ R.ops m (fin x) two
          refine ⟨fun i j hi hj _ => ?_, fun h1 => by omega⟩
          rw [hd] at hi hj
          have hi' : i = 0 ∨ i = 1 := by omega
          have hj' : j = 0 ∨ j = 1 := by omega
          rcases hi' with rfl | rfl <;> rcases hj' with rfl | rfl
          · exact g00
          · exact g01
          · exact g10
          · exact g11
        have hnn : Nonneg m.dim (fun i j => if i = j then 0 else x) := by
          intro i j _ _ hij
          simp only [if_neg hij]
          exact h.nonneg
        have hlt : env.size - 1 < m.dim ^ 3 := by rw [hd]; omega
        have hres : ∀ r, @StaticResult _ R.ops m 3 (env.size - 1) r → r = .error .explicit := by
          intro r hr
          rw [pigeon_result hd (by omega)] at hr
          refine C27_static_mismatch hrep (by omega) hlt (i := 0) (by omega) ?_ hr
          rintro ⟨pre, p1, p2, p3, -⟩
          rw [hd] at p3
          have : ValidPre 2 pre := ⟨p2, p3⟩
          have := this.length_le
          omega
        constructor
        · rintro ⟨r, hr, rfl⟩
          rw [hres r hr]
          exact Or.inr ⟨h2, h8, rfl⟩
        · rintro (⟨a, -⟩ | ⟨-, -, rfl⟩)
          · omega
          · obtain ⟨s0, _, e1, _, ⟨k, s, e2, e3⟩, _⟩ := C21_static_no_deadlock_partial hrep hnn
              (nW := env.size - 1) (by omega) hlt
            have hex : @StaticResult _ R.ops m 3 (env.size - 1) (wrapUp s.winner (s.buffers m.dim)) :=
              (pigeon_result hd (by omega) _).mpr ⟨s0, k, s, e1, e2, e3, rfl⟩
            refine ⟨_, hex, ?_⟩
            rw [hres _ hex]
            rfl
      · constructor
        · rintro ⟨r, ⟨s0, _, _, e1, -⟩, -⟩
          rw [(@C21_too_many_workers _ R.ops m (env.size - 1) (by omega) (by rw [hd]; omega)).2] at e1
          cases e1
        · rintro (⟨a, -⟩ | ⟨-, a, -⟩) <;> omega
    | v1 =>
      simp only [MpiExactRun, TwoJob]
      by_cases h1 : env.size = 1
      · have hst := fun r => @C25_single_process _ R.ops m r
        rw [show env.size - 1 = 0 by omega]
        simp only [hst]
        constructor
        · rintro ⟨r, hr, rfl⟩
          exact ⟨h1, h1c r hr h1⟩
        · rintro ⟨-, rfl⟩
          exact ⟨_, rfl, (h1c _ rfl h1).symm⟩
      · constructor
        · rintro ⟨r, hr, -⟩
          exact absurd hr (@C25_small_no_result _ R.ops m (by omega) (env.size - 1) (by omega) r)
        · rintro ⟨a, -⟩
          exact absurd a h1
    | v2 => rfl
    | v3 => rfl
    | v4 => rfl
    | v5 => rfl
    | v6 => rfl

/-- **C115, optimum.** All tours of two cities have the length `2 x`. So the output of `exact v1` on one thread, of
the exact solver on several threads with one processor, and of the 1-tree bound is wrong, and all other outputs are
optimal. -/
theorem C115_optimum {c : Nat → Nat → K} {x : K} (h01 : c 0 1 = x) (h10 : c 1 0 = x) {p : List Nat}
    (hp : IsTour 2 p) : tourCost c p = x + x := by
  rcases two_order (show p.Perm (List.range 2) from hp) with rfl | rfl
  · simp [tourCost, h01, h10]
  · simp [tourCost, h01, h10]

/-- distance 3/2 in double precision -/
theorem doubles_three_halves : Doubles binary64 (3 / 2) := by
  refine doubles_binary64 ⟨3, -1, ?_, by norm_num, by norm_num, ?_⟩ (by norm_num) ?_
  · rw [pow2_eq]
    norm_num
  · rw [pow2_eq]
    refine lt_of_lt_of_le (by norm_num [abs_of_pos] : |(3 / 2 : ℚ)| < 2 ^ (1 : ℤ))
      (zpow_le_zpow_right₀ (by norm_num : (1 : ℚ) ≤ 2) (by norm_num))
  · rw [pow2_eq]
    exact lt_of_lt_of_le (by norm_num : (3 / 2 : ℚ) < 2 ^ (1 : ℤ))
      (zpow_le_zpow_right₀ (by norm_num : (1 : ℚ) ≤ 2) (by norm_num))

example {env : Env (XNum ℚ)} (henv : env.Ok) (out) : @Runs _ binary64.ops env (twoCities (fin (3 / 2)))
    (.exact .v1 .singleThreaded) out ↔ out = .ok [.bestCost XNum.inf, .bestPermutation [0, 1]] :=
  C115_output doubles_three_halves henv _ _

example {env : MpiEnv (XNum ℚ)} (henv : env.Ok) (hs : env.size = 3) (outs) :
    @MpiRuns _ binary64.ops env (twoCities (fin (3 / 2))) (.lowerBound .oneTree) outs ↔
      outs = List.replicate 3 ⟨[], .error .unwrap⟩ := by
  rw [C115_mpi doubles_three_halves henv, hs]
  rfl

example {env : MpiEnv (XNum ℚ)} (henv : env.Ok) (hs : env.size = 2) (outs) :
    @MpiRuns _ binary64.ops env (twoCities (fin (3 / 2))) (.approx .nearestNeighbour (some .mst)) outs ↔
      outs = List.replicate 2 ⟨[.nnWeight (fin (3 / 2 + 3 / 2)), .nnTour [0, 1], .mstBound (fin (3 / 2))], .ok ()⟩ := by
  rw [C115_mpi doubles_three_halves henv, hs]
  rfl

end Walky.Props
