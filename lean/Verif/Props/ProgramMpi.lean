import Verif.Lemmas.PrintedMpi
import Verif.Model.ProgramMpi
import Verif.Props.Program

/-! # Property C99: jobs of the program built with the feature `mpi`, from the arguments to the output -/

namespace Walky.Props

open FloatOps XNum Spec

variable {α : Type}

/-! ## Arguments -/

theorem readParMpi_iff {s : List Char} {a : ParallelismMpi} :
    byName parNameMpi [.singleThreaded, .multiThreaded, .mpi] s = some a ↔ parWordMpi a = s :=
  parNameMpi_eq ▸ byName_iff (by intro b; cases b <;> simp) (by
    intro a b
    cases a <;> cases b <;> first | exact fun _ => rfl | exact fun h => absurd h (by decide))

/-- **C99, arguments** With the feature `mpi` arguments are understood exactly if they are as described in C96,
where the option `--parallelism` has the additional value `mpi`. -/
theorem C99_arguments {args : List (List Char)} {cmd : CommandOf ParallelismMpi} {path : List Char} :
    parseArgsMpi args = some (cmd, path) ↔ JobLine args cmd path :=
  parseArgsOf_iff readParMpi_iff

theorem split_inl {cmd : CommandOf ParallelismMpi} {c : Command} : cmd.split = .inl c ↔ Alone cmd c := by
  constructor
  · intro h
    rcases cmd with ⟨a, p⟩ | ⟨a, p, lb⟩ | ⟨a, p⟩ <;> cases p <;> cases h <;> constructor <;> constructor
  · intro h
    cases h <;> rename_i h <;> cases h <;> rfl

theorem split_inr {cmd : CommandOf ParallelismMpi} {c : MpiCommand} : cmd.split = .inr c ↔ Together cmd c := by
  constructor
  · intro h
    rcases cmd with ⟨a, p⟩ | ⟨a, p, lb⟩ | ⟨a, p⟩ <;> cases p <;> cases h <;> constructor
  · intro h
    cases h <;> rfl

/-- **C99, other arguments** Arguments that are understood without the feature `mpi` mean the same with this feature, and the
processes run on their own. Arguments for processes that work together are errors without the feature. -/
theorem C99_without_mpi {args : List (List Char)} {path : List Char} :
    (∀ c, CommandLine args c path ↔ ∃ cmd, Alone cmd c ∧ JobLine args cmd path) ∧
    (∀ cmd c, Together cmd c → JobLine args cmd path → ¬∃ c' path', CommandLine args c' path') ∧
    ∀ cmd, JobLine args cmd path → (∃ c, Alone cmd c) ∨ ∃ c, Together cmd c := by
  have hs : ∀ vs, Given parWord .singleThreaded .singleThreaded vs ↔
      Given parWordMpi .singleThreaded .singleThreaded vs := fun vs => by
    unfold Given
    constructor <;> rintro (⟨h1, -⟩ | h1) <;> first | exact Or.inl ⟨h1, rfl⟩ | exact Or.inr h1
  have hm : ∀ vs, Given parWord .singleThreaded .multiThreaded vs ↔
      Given parWordMpi .singleThreaded .multiThreaded vs := fun vs => by
    unfold Given
    constructor <;> rintro (⟨-, h1⟩ | h1) <;> first | exact absurd h1 (by decide) | exact Or.inr h1
  have hg : ∀ {p q} vs, SamePar p q → (Given parWord .singleThreaded q vs ↔ Given parWordMpi .singleThreaded p vs) := by
    intro p q vs h
    cases h
    · exact hs vs
    · exact hm vs
  have hall : ∀ q, ∃ p, SamePar p q := by
    intro q
    cases q
    · exact ⟨_, .single⟩
    · exact ⟨_, .multi⟩
  have hline : ∀ {path cmd c}, Alone cmd c → (CommandLine args c path ↔ JobLine args cmd path) := by
    intro path cmd c h
    cases h with
    | exact a h => simp only [CommandLine, JobLine, CommandLineOf, hg _ h]
    | approx a lb h => simp only [CommandLine, JobLine, CommandLineOf, hg _ h]
    | lowerBound a h => simp only [CommandLine, JobLine, CommandLineOf, hg _ h]
  have hplain : ∀ path c, CommandLine args c path ↔ ∃ cmd, Alone cmd c ∧ JobLine args cmd path := by
    intro path c
    constructor
    · intro h
      have : ∃ cmd, Alone cmd c := by
        rcases c with ⟨a, q⟩ | ⟨a, q, lb⟩ | ⟨a, q⟩ <;> obtain ⟨p, hp⟩ := hall q
        · exact ⟨_, .exact a hp⟩
        · exact ⟨_, .approx a lb hp⟩
        · exact ⟨_, .lowerBound a hp⟩
      obtain ⟨cmd, hc⟩ := this
      exact ⟨cmd, hc, (hline hc).mp h⟩
    · rintro ⟨cmd, hc, h⟩
      exact (hline hc).mpr h
  refine ⟨hplain path, fun cmd c e h => ?_, fun cmd _ => ?_⟩
  · rintro ⟨c', path', hp⟩
    obtain ⟨cmd', e', h'⟩ := (hplain path' c').mp hp
    have := C99_arguments.mpr h'
    rw [C99_arguments.mpr h] at this
    obtain ⟨rfl, -⟩ := Prod.mk.inj (Option.some.inj this)
    rw [← split_inr] at e
    rw [← split_inl, e] at e'
    cases e'
  · cases h : cmd.split with
    | inl c => exact Or.inl ⟨c, split_inl.mp h⟩
    | inr c => exact Or.inr ⟨c, split_inr.mp h⟩

/-- `walky lower-bound -p mpi one-tree f` -/
example : parseArgsMpi ["lower-bound".toList, "-p".toList, "mpi".toList, "one-tree".toList, "f".toList] =
      some (.lowerBound .oneTree .mpi, "f".toList) ∧
    parseArgs ["lower-bound".toList, "-p".toList, "mpi".toList, "one-tree".toList, "f".toList] = none := by
  decide +kernel

/-! ## Jobs -/

/-- **C99, processes on their own** Without `--parallelism mpi`, what the processes of a job do is what the
program without the feature `mpi` does (C95), for each process. -/
theorem C99_own [FloatOps α] {readF : List Char → Option α} {fmt : α → List Char} {env : MpiEnv α}
    {envs : Nat → Env α} {files : List Char → Option (List Char)} {args : List (List Char)} {c : Command}
    {path : List Char} (hcl : CommandLine args c path) {outs : List RankOut} (hh : ¬HelpRequest args) :
    JobRuns readF fmt env envs files args outs ↔ outs.length = env.size ∧
      ∀ r o, outs[r]? = some o → ProgramRuns readF fmt (envs r) files args o.stdout o.exit := by
  obtain ⟨cmd, e, h⟩ := (C99_without_mpi.1 c).mp hcl
  unfold JobRuns ProgramRuns
  rw [asksHelp_iff.mpr hh, C99_arguments.mpr h, parseArgs_iff.mpr hcl]
  rw [← split_inl] at e
  simp only [e, forall_const]

theorem rankText_iff {fmt : α → List Char} {o : Out α} {r : RankOut} : RankText fmt o r ↔ r = o.text fmt := by
  obtain ⟨lines, exit⟩ := o
  obtain ⟨s, e⟩ := r
  unfold RankText Out.text
  rw [outputText_eq]
  cases exit with
  | ok u => simp [Out.end]
  | error e' => simp [Out.end]

theorem rankTexts {fmt : α → List Char} {os : List (Out α)} {outs : List RankOut} :
    List.Forall₂ (RankText fmt) os outs ↔ outs = os.map (Out.text fmt) := by
  induction os generalizing outs with
  | nil => simp
  | cons o os ih =>
    rw [List.forall₂_cons_left_iff]
    simp only [rankText_iff, ih, List.map_cons]
    constructor
    · rintro ⟨b, l, rfl, rfl, rfl⟩; rfl
    · rintro rfl; exact ⟨_, _, rfl, rfl, rfl⟩

/-- **C99** A job with arguments that are no request for help. Wrong arguments: no process prints anything. If the
processes work together, and the input file cannot be read, or is not a document that encodes an instance (and not
outside of the model of the parser), no process prints anything, and all fail. If it is a document that encodes an
instance which violates `do_conditions_hold`, no process prints anything, and all panic. If it is a document that
encodes an accepted instance, the outcome is the text of an outcome of the command on the graph of this instance. -/
theorem C99_job [FloatOps α] {readF : List Char → Option α} {fmt : α → List Char} {env : MpiEnv α}
    {envs : Nat → Env α} {files : List Char → Option (List Char)} {args : List (List Char)} {outs : List RankOut}
    (hh : ¬HelpRequest args) (h : JobRuns readF fmt env envs files args outs) :
    ((¬∃ cmd path, JobLine args cmd path) →
      outs = List.replicate env.size ⟨[], .usage⟩) ∧
    ∀ cmd path c, JobLine args cmd path → Together cmd c →
      (files path = none → outs = List.replicate env.size ⟨[], .failure⟩) ∧
      ∀ s, files path = some s →
        (parseFromXml readF s ≠ .unmodelled ∨ (∃ x, Document x s ∧ NoMixed x) →
          (∀ x i, Document x s → ¬Encodes readF x i) → outs = List.replicate env.size ⟨[], .failure⟩) ∧
        ∀ x i, Document x s → Encodes readF x i →
          (doConditionsHold i.graph ≠ .ok true → ∃ e, outs = List.replicate env.size ⟨[], .panic e⟩) ∧
          (doConditionsHold i.graph = .ok true →
            ∃ os, MpiRuns env i.graph c os ∧ List.Forall₂ (RankText fmt) os outs) := by
  have h := h (asksHelp_iff.mpr hh)
  constructor
  · intro hno
    cases hp : parseArgsMpi args with
    | none => rw [hp] at h; exact h
    | some r => exact absurd ⟨r.1, r.2, C99_arguments.mp hp⟩ hno
  · intro cmd path c hcl hc
    rw [C99_arguments.mpr hcl] at h
    rw [← split_inr] at hc
    simp only [hc, MpiFileRuns] at h
    constructor
    · intro hn
      rw [hn] at h
      exact h
    · intro s hs
      rw [hs] at h
      simp only at h
      obtain ⟨c1, c2, c3⟩ := C91_texts (readF := readF) (s := s)
      constructor
      · intro hm hno
        rw [(c3 ?_).mpr hno] at h
        · exact h
        · rcases hm with hm | ⟨x, hx, hm⟩
          · exact hm
          · rw [((C91_parse (readF := readF) hx).2.2 hm).mpr fun i => hno x i hx]
            exact fun e => by cases e
      · intro x i hx hi
        constructor
        · intro hd
          obtain ⟨e, he⟩ := c2.mpr ⟨x, i, hx, hi, hd⟩
          rw [he] at h
          exact ⟨e, h⟩
        · intro hd
          rw [(c1 i).mpr ⟨⟨x, hx, hi⟩, hd⟩] at h
          obtain ⟨os, h1, h2⟩ := h
          exact ⟨os, h1, rankTexts.mpr h2⟩

/-- **C99, numbers** In double precision every number that a process prints is a double or a special value, and
the number that a program reads from its text is this number. -/
theorem C99_numbers {env : MpiEnv (XNum ℚ)} (henv : env.Ok) {g : Graph (XNum ℚ)} {cmd : MpiCommand}
    {outs : List (Out (XNum ℚ))} (hr : @MpiRuns _ binary64.ops env g cmd outs) {o : Out (XNum ℚ)} (ho : o ∈ outs)
    {l : Line (XNum ℚ)} (hl : l ∈ o.lines) {x : XNum ℚ} (hx : l.number = some x) :
    DoubleVal x ∧ ∀ fmt, Display fmt → readF64 (fmt x) = some x := by
  have hneg : DoubleVal (@FloatOps.negOne _ binary64.ops) := by
    intro q hq
    rw [← XNum.fin.inj hq]
    exact isDouble_neg (x := 1) (small_isDouble (by norm_num) (by norm_num) rfl)
  have := @mpiRuns_closed _ binary64.ops _ double_closed hneg env henv.oneTreeShape henv.nnShape g cmd outs hr o ho
    l hl x hx
  exact ⟨this, fun fmt hf => readF64_displayed hf this⟩

/-! ## Generated instances -/

/-- all ranks print the tour `p` and the number `w`, which is its length, and at most twice the length of any
tour, up to rounding errors -/
def SameTour (n : Nat) (d : Nat → Nat → ℝ) (size : Nat) (outs : List (Out (XNum ℚ))) : Prop :=
  ∃ (w : ℚ) (p : List Nat), outs = List.replicate size ⟨[.bestCost (.fin w), .bestPermutation p], .ok ()⟩ ∧ IsTour n p ∧
    |(w : ℝ) - tourCost d p| ≤ (2 * n ^ 2 + 3) * n * (2 : ℝ) ^ (-46 : ℤ) ∧
    ∀ q, IsTour n q → (w : ℝ) ≤ 2 * tourCost d q + (2 * n ^ 2 + 3 * n + 5) * n * (2 : ℝ) ^ (-46 : ℤ)

/-- `w` is the length of the tour `p` up to a relative error of `(1 + 2⁻⁵³)^(n+s) - 1` -/
def TourNear (s n : Nat) (d : Nat → Nat → ℝ) (w : ℚ) (p : List Nat) : Prop :=
  IsTour n p ∧ |(w : ℝ) - tourCost d p| ≤ ((growth (n + s) : ℚ) - 1) * tourCost d p

/-- what is printed after an approximation, and how the process ends: nothing; a lower bound; or it panics -/
def EndsAs : Option LowerBoundAlgorithm → List (Line (XNum ℚ)) → RM Unit → Prop
  | none, rest, exit => rest = [] ∧ exit = .ok ()
  | some .oneTree, rest, exit => rest = [] ∧ exit = .error .unwrap
  | some _, rest, exit => (∃ l w, lower l = some (.fin w) ∧ rest = [l]) ∧ exit = .ok ()

/-- What the ranks print for `n` cities with the distances `d`, known up to a relative error `s · 2⁻⁵³`.
* `walky exact` with v0 and between two and `n` processes: all ranks print the same tour (`SameTour`).
* `walky exact` with v1, at least two processes and four cities: so, or all ranks panic (not with two processes).
* `walky exact` with v2 – v6: all ranks panic.
* `walky approx nearest-neighbour` with at most `n` processes: all ranks print the same tour and its length.
* `walky approx christofides`: the root prints the length of a tour, the others print nothing, in all builds.
* `walky lower-bound one-tree` with at most `n` processes: the root prints a number, the others nothing.
* `walky lower-bound mst` and `mst-queue`: all ranks print a number.
* The option `--lower-bound` adds a lower bound, or, for `one-tree`, a panic. -/
def MpiNear (s n : Nat) (d : Nat → Nat → ℝ) (size : Nat) : MpiCommand → List (Out (XNum ℚ)) → Prop
  | .exact .v0, outs => 2 ≤ size → size ≤ n → SameTour n d size outs
  | .exact .v1, outs => 2 ≤ size → 4 ≤ n →
      (size ≠ 2 ∧ ∃ e, outs = List.replicate size ⟨[], .error e⟩) ∨ SameTour n d size outs
  | .exact _, outs => ∃ e, outs = List.replicate size ⟨[], .error e⟩
  | .approx .nearestNeighbour lb, outs => size ≤ n → ∃ w p, TourNear s n d w p ∧ outs.length = size ∧
      ∀ o ∈ outs, ∃ rest, o.lines = .nnWeight (.fin w) :: .nnTour p :: rest ∧ EndsAs lb rest o.exit
  | .approx .christofides lb, outs => ∃ w p rest exit, TourNear s n d w p ∧ EndsAs lb rest exit ∧
      outs = ⟨.christofidesWeight (.fin w) :: rest, exit⟩ :: List.replicate (size - 1) ⟨[], .ok ()⟩
  | .lowerBound .oneTree, outs => size ≤ n → ∃ w : ℚ,
      outs = ⟨[.oneTreeBound (.fin w)], .ok ()⟩ :: List.replicate (size - 1) ⟨[], .ok ()⟩
  | .lowerBound _, outs => outs.length = size ∧ ∀ o ∈ outs, ∃ l w, lower l = some (.fin w) ∧ o = ⟨[l], .ok ()⟩

theorem EndsAs.of_after {n : Nat} {c : Nat → Nat → ℚ} {lb : Option LowerBoundAlgorithm} {o : Out (XNum ℚ)}
    (h : After n c lb o) : EndsAs lb o.lines o.exit := by
  rcases lb with _ | lb
  · rw [show o = _ from h]; exact ⟨rfl, rfl⟩
  · cases lb with
    | oneTree => rw [show o = _ from h]; exact ⟨rfl, rfl⟩
    | mst => obtain ⟨l, rfl, w, hw, -⟩ := h; exact ⟨⟨l, w, hw, rfl⟩, rfl⟩
    | mstQueue => obtain ⟨l, rfl, w, hw, -⟩ := h; exact ⟨⟨l, w, hw, rfl⟩, rfl⟩

/-- the commands that have an outcome, whatever the number of processes is -/
theorem mpiRuns_exists [FloatOps α] (env : MpiEnv α) (g : Graph α) {cmd : MpiCommand}
    (h0 : cmd ≠ .exact .v0) (h1 : cmd ≠ .exact .v1) : ∃ outs, MpiRuns env g cmd outs := by
  unfold MpiRuns
  cases (do naFromGraph (← parseChecked g)) with
  | error e => exact ⟨_, rfl⟩
  | ok m =>
    cases cmd with
    | approx a lb => exact ⟨_, rfl⟩
    | lowerBound a => exact ⟨_, rfl⟩
    | exact a =>
      cases a
      · exact absurd rfl h0
      · exact absurd rfl h1
      all_goals exact ⟨_, rfl⟩

/-- MPI jobs on a good instance -/
theorem mpi_good {s : Nat} (hs : s ≤ 2 ^ 40) {g : Graph (XNum ℚ)} {d : Nat → Nat → ℝ} (h : GoodInstance s g d)
    (hn : 3 ≤ g.length) (hsize : g.length ≤ 2 ^ 25) :
    ∃ opt, ((∃ p, IsTour g.length p ∧ tourCost d p = opt) ∧ ∀ p, IsTour g.length p → opt ≤ tourCost d p) ∧
      ∀ env : MpiEnv (XNum ℚ), env.Ok → ∀ cmd,
        ((cmd = .exact .v0 → 2 ≤ env.size ∧ env.size ≤ g.length) →
          (cmd = .exact .v1 → 2 ≤ env.size ∧ 4 ≤ g.length) →
          ∃ outs, @MpiRuns _ binary64.ops env g cmd outs) ∧
        ∀ outs, @MpiRuns _ binary64.ops env g cmd outs →
          MpiNear s g.length d env.size cmd outs ∧ ∀ o ∈ outs, ∀ l ∈ o.lines, NearLine s g.length opt l := by
  obtain ⟨⟨opt, o1, -, o2⟩, -⟩ := success_good hs h hn hsize
  obtain ⟨k, k1, k2, k3, k4⟩ := exists_pow (by omega) hsize
  have hcomp := @complete_of_accepted _ binary64.ops _ h.acc h.loop
  obtain ⟨c, c1, c2⟩ := C81_mpi_double_partial k1 k2 h.acc h.loop (by omega) (by omega) (M := 32)
    (fun es hes e he => by
      obtain ⟨i, hi⟩ := List.getElem?_of_mem hes
      obtain ⟨x, x1, x2, x3, x4, -⟩ := h.cost i es hi e he
      exact ⟨x, x1, x2, x3, x4⟩) k3 (good_growth hsize)
  have hE : NearMetric g.length c d (s * (2 : ℝ) ^ (-53 : ℤ)) := by
    refine ⟨h.met, fun i j hi hj hij => ?_⟩
    have hgi := List.getElem?_eq_getElem hi
    obtain ⟨e, he, hej⟩ := List.mem_map.mp ((@CompleteUndirected.mem _ binary64.ops _ hcomp _ _ hgi _).mpr ⟨hj, hij.symm⟩)
    obtain ⟨x, x1, -, -, -, x2⟩ := h.cost i _ hgi e he
    rw [c1 i _ hgi e he] at x1
    rw [← XNum.fin.inj x1, hej] at x2
    exact x2
  have hT : ∀ q, IsTour g.length q →
      |((tourCost c q : ℚ) : ℝ) - tourCost d q| ≤ 2 * g.length * (2 : ℝ) ^ (-46 : ℤ) :=
    fun q hq => tour_good (by omega) hE h.far hq
  have hnear : ∀ w p, IsTour g.length p → Accurate g.length w (tourCost c p) →
      TourNear s g.length d w p := by
    intro w p hp hw
    exact ⟨hp, near_growth (tourCost_metric_nonneg hE.met (by omega) hp) hw (tourCost_near hE (by omega) hp)⟩
  have hk4 : (2 : ℝ) ^ (k - 54) ≤ g.length * (2 : ℝ) ^ (-46 : ℤ) := by
    have := (Rat.cast_le (K := ℝ)).mpr k4
    push_cast at this
    exact this
  have hsame : ∀ (w : ℚ) (p : List Nat), IsTour g.length p →
      |w - tourCost c p| ≤ (2 * g.length ^ 2 + 1) * (2 : ℚ) ^ (k - 54) →
      (∀ q, IsTour g.length q →
        w ≤ 2 * tourCost c q + (2 * g.length ^ 2 + 3 * g.length + 1) * (2 : ℚ) ^ (k - 54)) →
      |(w : ℝ) - tourCost d p| ≤ (2 * g.length ^ 2 + 3) * g.length * (2 : ℝ) ^ (-46 : ℤ) ∧
      ∀ q, IsTour g.length q → (w : ℝ) ≤ 2 * tourCost d q +
        (2 * g.length ^ 2 + 3 * g.length + 5) * g.length * (2 : ℝ) ^ (-46 : ℤ) := by
    intro w p hp hw hall
    have o3' : |(w : ℝ) - ((tourCost c p : ℚ) : ℝ)| ≤ (2 * g.length ^ 2 + 1) * (2 : ℝ) ^ (k - 54) := by
      have := (Rat.cast_le (K := ℝ)).mpr hw
      push_cast at this
      exact this
    generalize hN : (g.length : ℝ) = N at *
    have hN0 : 0 ≤ N := by rw [← hN]; positivity
    have hb : (2 * N ^ 2 + 1) * (2 : ℝ) ^ (k - 54) ≤ (2 * N ^ 2 + 1) * (N * (2 : ℝ) ^ (-46 : ℤ)) :=
      mul_le_mul_of_nonneg_left hk4 (by positivity)
    have hb' : (2 * N ^ 2 + 3 * N + 1) * (2 : ℝ) ^ (k - 54) ≤
        (2 * N ^ 2 + 3 * N + 1) * (N * (2 : ℝ) ^ (-46 : ℤ)) :=
      mul_le_mul_of_nonneg_left hk4 (by positivity)
    obtain ⟨t1, t2⟩ := abs_le.mp (hT p hp)
    constructor
    · obtain ⟨u1, u2⟩ := abs_le.mp o3'
      rw [abs_le]
      constructor <;> nlinarith
    · intro q' hq'
      obtain ⟨v1, v2⟩ := abs_le.mp (hT q' hq')
      have : (w : ℝ) ≤ 2 * ((tourCost c q' : ℚ) : ℝ) + (2 * N ^ 2 + 3 * N + 1) * (2 : ℝ) ^ (k - 54) := by
        have := (Rat.cast_le (K := ℝ)).mpr (hall q' hq')
        push_cast at this
        rw [hN] at this
        exact this
      nlinarith
  refine ⟨opt, o1, fun env henv cmd => ?_⟩
  obtain ⟨r1, r2, r3, r4, r5, r6⟩ := c2 env henv
  constructor
  · intro e0 e1
    by_cases b0 : cmd = .exact .v0
    · obtain rfl := b0
      exact (r1 (e0 rfl).1 (e0 rfl).2).1
    by_cases b1 : cmd = .exact .v1
    · obtain rfl := b1
      exact (r2 (e1 rfl).1 (e1 rfl).2).1
    exact @mpiRuns_exists _ binary64.ops env g cmd b0 b1
  intro outs hout
  refine ⟨?_, o2 env henv cmd outs hout⟩
  cases cmd with
  | exact a =>
    by_cases b0 : a = .v0
    · obtain rfl := b0
      intro s1 s2
      obtain ⟨w, p, rfl, k2, k3, k4⟩ := (r1 s1 s2).2 outs hout
      exact ⟨w, p, rfl, k2, hsame w p k2 k3 k4⟩
    by_cases b1 : a = .v1
    · obtain rfl := b1
      intro s1 s2
      rcases (r2 s1 s2).2 outs hout with h | ⟨w, p, rfl, k2, k3, k4⟩
      · exact Or.inl h
      · exact Or.inr ⟨w, p, rfl, k2, hsame w p k2 k3 k4⟩
    have := @C67_unimplemented _ binary64.ops env g a b0 b1 outs hout
    cases a <;> first | exact absurd rfl b0 | exact absurd rfl b1 | exact this
  | approx a lb =>
    cases a with
    | nearestNeighbour =>
      intro hs
      obtain ⟨w, p, k1, k2, k3⟩ := r3 hs
      obtain ⟨k4, k5⟩ := (k3 lb).2 outs hout
      refine ⟨w, p, hnear w p k1 k2, k4, fun o ho => ?_⟩
      obtain ⟨o', k6, rfl⟩ := k5 o ho
      exact ⟨o'.lines, rfl, EndsAs.of_after k6⟩
    | christofides =>
      obtain ⟨w, p, k1, k2, k3⟩ := r4
      rcases (k3 lb).2 outs hout with ⟨-, ⟨m, m1, m2⟩, -⟩ | ⟨o', k4, rfl⟩
      · rw [good_isMetric h m m1] at m2
        cases m2
      · exact ⟨w, p, o'.lines, o'.exit, hnear w p k1 k2, EndsAs.of_after k4, rfl⟩
  | lowerBound a =>
    cases a with
    | oneTree =>
      intro hs
      obtain ⟨w, -, k2⟩ := r5 hs
      exact ⟨w, (k2 outs).mp hout⟩
    | mst =>
      obtain ⟨k1, k2⟩ := (r6 .mst (by simp)).2 outs hout
      refine ⟨k1, fun o ho => ?_⟩
      obtain ⟨l, rfl, w, hw, -⟩ := k2 o ho
      exact ⟨l, w, hw, rfl⟩
    | mstQueue =>
      obtain ⟨k1, k2⟩ := (r6 .mstQueue (by simp)).2 outs hout
      refine ⟨k1, fun o ho => ?_⟩
      obtain ⟨l, rfl, w, hw, -⟩ := k2 o ho
      exact ⟨l, w, hw, rfl⟩

/-- **C99, generated instances** Whatever random numbers the instance generator draws, if no two of its at least
three and at most `2 ^ 25` points are equal: with MPI the lines that the ranks print are as described in `MpiNear`
and, with the length `opt` of a shortest tour, in `NearLine`, measured with the true Euclidean distances of the
points. There is always an outcome, except that nothing is claimed about `walky exact` with v0 or v1 for
the numbers of processes and cities that `MpiNear` excludes. -/
theorem C99_mpi_generated (ks : List (Nat × Nat)) (hk : ∀ k ∈ ks, k.1 < 2 ^ 53 ∧ k.2 < 2 ^ 53)
    (hn : 3 ≤ ks.length) (hsize : ks.length ≤ 2 ^ 25) {g : Graph (XNum ℚ)}
    (hg : g = @genGraph _ binary64.ops (@genMatrix _ binary64.ops sqrt64 (randomPoints ks))) :
    ∃ pts : List (ℚ × ℚ), randomPoints ks = finPoints pts ∧ pts.length = ks.length ∧ (pts.Nodup →
      ∃ opt, ((∃ p, IsTour ks.length p ∧ tourCost (pointsDist pts) p = opt) ∧
          ∀ p, IsTour ks.length p → opt ≤ tourCost (pointsDist pts) p) ∧
        ∀ env : MpiEnv (XNum ℚ), env.Ok → ∀ cmd,
          ((cmd = .exact .v0 → 2 ≤ env.size ∧ env.size ≤ ks.length) →
            (cmd = .exact .v1 → 2 ≤ env.size ∧ 4 ≤ ks.length) →
            ∃ outs, @MpiRuns _ binary64.ops env g cmd outs) ∧
          ∀ outs, @MpiRuns _ binary64.ops env g cmd outs →
            MpiNear 8 ks.length (pointsDist pts) env.size cmd outs ∧
            ∀ o ∈ outs, ∀ l ∈ o.lines, NearLine 8 ks.length opt l) := by
  subst hg
  obtain ⟨pts, h1, h2, h3⟩ := generated_good ks hk
  refine ⟨pts, h1, h2, fun hnd => ?_⟩
  obtain ⟨hlen, hg⟩ := h3 hnd
  have := mpi_good (by norm_num) hg (by omega) (by omega)
  rw [hlen] at this
  exact this

/-- jobs on a file that contains a good instance -/
theorem job_good {s : Nat} (hs : s ≤ 2 ^ 40) {fmt : XNum ℚ → List Char} (hf : Display fmt) {text : List Char}
    {i : Instance (XNum ℚ)} (hi : @parseFromXml _ binary64.ops readF64 text = .ok i) {d : Nat → Nat → ℝ}
    (h : GoodInstance s i.graph d) (hn : 3 ≤ i.graph.length) (hsize : i.graph.length ≤ 2 ^ 25)
    {opt : ℝ} (hopt : (∃ p, IsTour i.graph.length p ∧ tourCost d p = opt) ∧
      ∀ p, IsTour i.graph.length p → opt ≤ tourCost d p)
    {env : MpiEnv (XNum ℚ)} {envs : Nat → Env (XNum ℚ)} {files : List Char → Option (List Char)}
    {args : List (List Char)} {path : List Char} {cmd : CommandOf ParallelismMpi} {c : MpiCommand} (henv : env.Ok)
    (hfile : files path = some text) (hh : ¬HelpRequest args) (hcl : JobLine args cmd path) (hc : Together cmd c) :
    ((c = .exact .v0 → 2 ≤ env.size ∧ env.size ≤ i.graph.length) →
      (c = .exact .v1 → 2 ≤ env.size ∧ 4 ≤ i.graph.length) →
      ∃ outs, @JobRuns _ binary64.ops readF64 fmt env envs files args outs) ∧
    ∀ outs, @JobRuns _ binary64.ops readF64 fmt env envs files args outs →
      ∃ os : List (Out (XNum ℚ)), List.Forall₂ (RankText fmt) os outs ∧
        MpiNear s i.graph.length d env.size c os ∧
        ∀ o ∈ os, ∀ l ∈ o.lines, NearLine s i.graph.length opt l ∧ ∀ x, l.number = some x → readF64 (fmt x) = some x := by
  have hprog : ∀ outs, @JobRuns _ binary64.ops readF64 fmt env envs files args outs ↔
      @MpiFileRuns _ binary64.ops readF64 fmt env (some text) c outs := by
    intro outs
    unfold JobRuns
    rw [C99_arguments.mpr hcl, asksHelp_iff.mpr hh]
    rw [← split_inr] at hc
    simp only [hc, hfile, forall_const]
  simp only [hprog, MpiFileRuns, hi]
  obtain ⟨opt', o1, o2⟩ := mpi_good hs h hn hsize
  have e : opt' = opt := by
    obtain ⟨⟨p, hp, rfl⟩, hmin⟩ := o1
    obtain ⟨⟨p', hp', rfl⟩, hmin'⟩ := hopt
    exact le_antisymm (hmin p' hp') (hmin' p hp)
  rw [e] at o2
  obtain ⟨r1, r2⟩ := o2 env henv c
  constructor
  · intro e0 e1
    obtain ⟨os, hos⟩ := r1 e0 e1
    exact ⟨_, os, hos, rfl⟩
  · rintro outs ⟨os, hos, rfl⟩
    exact ⟨os, rankTexts.mpr rfl, (r2 os hos).1, fun o ho l hl =>
      ⟨(r2 os hos).2 o ho l hl, fun x hx => (C99_numbers henv hos ho hl hx).2 fmt hf⟩⟩

/-- **C99, jobs on generated instances** The input file is what `gen_matrix_fast` prints, whatever random numbers it
draws, for at least three and at most `2 ^ 25` points. There is a length `opt` of a shortest tour for the true
Euclidean distances of the points, and for every command line with `--parallelism mpi` and this file, all
numbers of processes, random numbers and message orders:
* If two points are equal, no process prints anything, and all fail or panic.
* Otherwise what the processes print is the text of lines as described in `MpiNear` and `NearLine`, whose
  numbers can be read from the text.
* Except for `walky exact` with v0 or v1 and numbers of processes or cities that `MpiNear` excludes, there is an
  outcome. -/
theorem C99_generated {fmt : XNum ℚ → List Char} (hf : Display fmt) (ks : List (Nat × Nat))
    (hk : ∀ k ∈ ks, k.1 < 2 ^ 53 ∧ k.2 < 2 ^ 53) (hn : 3 ≤ ks.length) (hsize : ks.length ≤ 2 ^ 25) :
    ∃ pts : List (ℚ × ℚ), randomPoints ks = finPoints pts ∧ pts.length = ks.length ∧
    ∃ opt, ((∃ p, IsTour ks.length p ∧ tourCost (pointsDist pts) p = opt) ∧
        ∀ p, IsTour ks.length p → opt ≤ tourCost (pointsDist pts) p) ∧
      ∀ (env : MpiEnv (XNum ℚ)) (envs : Nat → Env (XNum ℚ)) (files : List Char → Option (List Char)) args path cmd c,
      env.Ok →
      files path = some (@genXml _ binary64.ops fmt (@genMatrix _ binary64.ops sqrt64 (randomPoints ks))) →
      ¬HelpRequest args → JobLine args cmd path → Together cmd c →
      ((c = .exact .v0 → 2 ≤ env.size ∧ env.size ≤ ks.length) →
        (c = .exact .v1 → 2 ≤ env.size ∧ 4 ≤ ks.length) →
        ∃ outs, @JobRuns _ binary64.ops readF64 fmt env envs files args outs) ∧
      ∀ outs, @JobRuns _ binary64.ops readF64 fmt env envs files args outs →
        (¬pts.Nodup → ∃ exit, outs = List.replicate env.size ⟨[], exit⟩ ∧ (exit = .failure ∨ ∃ e, exit = .panic e)) ∧
        (pts.Nodup → ∃ os : List (Out (XNum ℚ)), List.Forall₂ (RankText fmt) os outs ∧
          MpiNear 8 ks.length (pointsDist pts) env.size c os ∧
          ∀ o ∈ os, ∀ l ∈ o.lines, NearLine 8 ks.length opt l ∧ ∀ x, l.number = some x → readF64 (fmt x) = some x) := by
  obtain ⟨pts, h1, h2, -, h4, -, h6⟩ := C92_generator hf ks hk (hsize.trans (by decide))
  obtain ⟨pts', k1, k2, k3⟩ := C99_mpi_generated ks hk hn hsize rfl
  have hpts : pts' = pts := by
    rw [h1] at k1
    refine (List.map_injective_iff.mpr ?_ k1).symm
    rintro ⟨a, b⟩ ⟨c, d⟩ h
    obtain ⟨e1, e2⟩ := Prod.mk.inj h
    exact Prod.ext (XNum.fin.inj e1) (XNum.fin.inj e2)
  rw [hpts] at k3
  obtain ⟨q0, hq0⟩ := exists_shortest (pointsDist pts) ks.length
  refine ⟨pts, h1, h2, tourCost (pointsDist pts) q0, ⟨⟨q0, hq0.1, rfl⟩, hq0.2⟩, ?_⟩
  intro env envs files args path cmd c henv hfile hh hcl hc
  have hprog : ∀ outs, @JobRuns _ binary64.ops readF64 fmt env envs files args outs ↔
      @MpiFileRuns _ binary64.ops readF64 fmt env (some (@genXml _ binary64.ops fmt
        (@genMatrix _ binary64.ops sqrt64 (randomPoints ks)))) c outs := by
    intro outs
    unfold JobRuns
    rw [C99_arguments.mpr hcl, asksHelp_iff.mpr hh]
    rw [← split_inr] at hc
    simp only [hc, hfile, forall_const]
  simp only [hprog, MpiFileRuns]
  by_cases hnd : pts.Nodup
  swap
  · rcases h6 hnd with he | ⟨e, he⟩
    · rw [he]
      exact ⟨fun _ _ => ⟨_, rfl⟩, fun outs hrun => ⟨fun _ => ⟨_, hrun, Or.inl rfl⟩, fun h => absurd h hnd⟩⟩
    · rw [he]
      exact ⟨fun _ _ => ⟨_, rfl⟩, fun outs hrun => ⟨fun _ => ⟨_, hrun, Or.inr ⟨e, rfl⟩⟩, fun h => absurd h hnd⟩⟩
  rw [h4 (by omega) hnd]
  simp only
  have hg : (genInstance (@genGraph _ binary64.ops (@genMatrix _ binary64.ops sqrt64 (randomPoints ks)))).graph =
      @genGraph _ binary64.ops (@genMatrix _ binary64.ops sqrt64 (randomPoints ks)) := rfl
  rw [hg]
  obtain ⟨opt, o1, o2⟩ := k3 hnd
  have hopt : opt = tourCost (pointsDist pts) q0 := by
    obtain ⟨⟨p, hp, rfl⟩, hmin⟩ := o1
    exact le_antisymm (hmin q0 hq0.1) (hq0.2 p hp)
  rw [← hopt]
  obtain ⟨r1, r2⟩ := o2 env henv c
  constructor
  · intro e0 e1
    obtain ⟨os, hos⟩ := r1 e0 e1
    exact ⟨_, os, hos, rfl⟩
  · rintro outs ⟨os, hos, rfl⟩
    refine ⟨fun h => absurd hnd h, fun _ => ⟨os, rankTexts.mpr rfl, (r2 os hos).1, fun o ho l hl =>
      ⟨(r2 os hos).2 o ho l hl, fun x hx => (C99_numbers henv hos ho hl hx).2 fmt hf⟩⟩⟩

/-- three drawn points and three processes: `walky exact -p mpi v0 f` -/
example {fmt : XNum ℚ → List Char} (hf : Display fmt) (files : List Char → Option (List Char))
    (envs : Nat → Env (XNum ℚ)) (h : files "f".toList = some (@genXml _ binary64.ops fmt
      (@genMatrix _ binary64.ops sqrt64 (randomPoints [(0, 0), (2 ^ 52, 0), (0, 2 ^ 51)])))) :
    ∃ outs, @JobRuns _ binary64.ops readF64 fmt mpi3 envs files
        ["exact".toList, "-p".toList, "mpi".toList, "v0".toList, "f".toList] outs ∧
      ∃ w p, outs = List.replicate 3 ⟨exactText (fmt (.fin w)) p, .success⟩ ∧ IsTour 3 p := by
  obtain ⟨pts, h1, -, opt, -, h3⟩ := C99_generated hf [(0, 0), (2 ^ 52, 0), (0, 2 ^ 51)] (by decide) (by decide)
    (by decide)
  have e : randomPoints [(0, 0), (2 ^ 52, 0), (0, 2 ^ 51)] = finPoints [(-10, -10), (0, -10), (-10, -5)] := by
    decide +kernel
  have hp : pts = [(-10, -10), (0, -10), (-10, -5)] := by
    rw [e] at h1
    refine (List.map_injective_iff.mpr ?_ h1).symm
    rintro ⟨a, b⟩ ⟨c, d⟩ h
    obtain ⟨e1, e2⟩ := Prod.mk.inj h
    exact Prod.ext (XNum.fin.inj e1) (XNum.fin.inj e2)
  rw [hp] at h3
  obtain ⟨r1, r2⟩ := h3 mpi3 envs files ["exact".toList, "-p".toList, "mpi".toList, "v0".toList, "f".toList]
    "f".toList (.exact .v0 .mpi) (.exact .v0) mpi3_ok h (asksHelp_iff.mp (by decide +kernel))
    (C99_arguments.mp (by decide +kernel)) (.exact .v0)
  obtain ⟨outs, ho⟩ := r1 (fun _ => by decide) (fun h => by cases h)
  refine ⟨outs, ho, ?_⟩
  obtain ⟨os, k0, k1, -⟩ := (r2 outs ho).2 (by decide +kernel)
  obtain rfl := rankTexts.mp k0
  obtain ⟨w, p, rfl, k2, -⟩ := k1 (by decide) (by decide)
  refine ⟨w, p, ?_, k2⟩
  rw [List.map_replicate, Out.text, ← outputText_eq, exactText_eq]
  rfl

end Walky.Props
