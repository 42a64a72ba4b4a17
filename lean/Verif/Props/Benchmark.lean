import Verif.Lemmas.Benchmark
import Verif.Props.Program
import Verif.Props.ProgramMpi

/-! # Properties C103, C104: measurements -/

namespace Walky.Props

open FloatOps XNum Spec

variable {α : Type}

/-! ## C103 -/

theorem approxRun_bound [FloatOps α] {env : Env α} {g : Graph α} {a : ApproxAlgorithm} {p : Parallelism}
    {lb : Option LowerBoundAlgorithm} {out : RM (List (Line α))} :
    ApproxRun env g a p lb out ↔ ∃ r, ApproxRun env g a p none r ∧ out = withBound env g p lb r := by
  have hn : ∀ r, withBound env g p none r = r := by
    intro r
    unfold withBound
    cases r <;> rfl
  have he : ∀ e, withBound env g p lb (.error e) = .error e := fun e => rfl
  unfold ApproxRun
  cases (do naFromGraph (← parseChecked g) : RM (Mat α)) with
  | error e =>
    constructor
    · intro h; exact ⟨.error e, rfl, h⟩
    · rintro ⟨r, h, h'⟩; rw [h', h]; exact he e
  | ok m =>
    simp only
    cases a with
    | christofides =>
      constructor
      · rintro ⟨res, h1, h2⟩; exact ⟨_, ⟨res, h1, rfl⟩, by rw [hn]; exact h2⟩
      · rintro ⟨r, ⟨res, h1, rfl⟩, h2⟩; rw [hn] at h2; exact ⟨res, h1, h2⟩
    | nearestNeighbour =>
      constructor
      · rintro ⟨res, h1, h2⟩; exact ⟨_, ⟨res, h1, rfl⟩, by rw [hn]; exact h2⟩
      · rintro ⟨r, ⟨res, h1, rfl⟩, h2⟩; rw [hn] at h2; exact ⟨res, h1, h2⟩

theorem resultsOf_timed (t : α) (l : List (Line α)) : resultsOf (timed t l) = l := by
  unfold resultsOf timed
  rw [List.filterMap_append, List.filterMap_map]
  simp

theorem resultsOf_append (l k : List (BLine α)) : resultsOf (l ++ k) = resultsOf l ++ resultsOf k :=
  List.filterMap_append

/-- **C103** A build with the feature `benchmarking` computes what a build without it computes: whatever the
clocks say, the possible outcomes are the same, with the same random numbers and the same schedule, except that
the times are printed in addition. -/
theorem C103_results [FloatOps α] {env : Env α} {t : Nat → α} {g : Graph α} {cmd : Command} :
    (∀ out, BenchRuns env t g cmd out → Runs env g cmd (resultsOf <$> out)) ∧
    ∀ r, Runs env g cmd r → ∃ out, BenchRuns env t g cmd out ∧ resultsOf <$> out = r := by
  have key : ∀ r : RM (List (Line α)), resultsOf <$> (timed (t 0) <$> r) = r := by
    intro r
    cases r with
    | error e => rfl
    | ok l => exact congrArg Except.ok (resultsOf_timed _ l)
  cases cmd with
  | exact a p =>
    constructor
    · rintro out ⟨r, h, rfl⟩
      rw [key]; exact h
    · intro r h
      exact ⟨_, ⟨r, h, rfl⟩, key r⟩
  | lowerBound a p =>
    constructor
    · rintro out h
      have h : out = timed (t 0) <$> lowerBoundRun env g a p := h
      rw [h, key]; rfl
    · intro r h
      have h : r = lowerBoundRun env g a p := h
      exact ⟨_, rfl, by rw [key, h]⟩
  | approx a p lb =>
    have key' : ∀ r : RM (List (Line α)), (resultsOf <$> do
        let l ← r
        match lb with
        | none => return timed (t 0) l
        | some b => do
          let l' ← lowerBoundRun env g b p
          return timed (t 0) l ++ timed (t 1) l' : RM (List (Line α))) = withBound env g p lb r := by
      intro r
      unfold withBound
      cases r with
      | error e => rfl
      | ok l =>
        cases lb with
        | none => exact congrArg Except.ok (resultsOf_timed _ l)
        | some b =>
          simp only [rm_bind_ok]
          cases lowerBoundRun env g b p with
          | error e => rfl
          | ok l' =>
            refine congrArg Except.ok ?_
            rw [resultsOf_append, resultsOf_timed, resultsOf_timed]
    constructor
    · rintro out ⟨r, h, rfl⟩
      exact approxRun_bound.mpr ⟨r, h, key' r⟩
    · intro r h
      obtain ⟨r', h1, h2⟩ := approxRun_bound.mp h
      exact ⟨_, ⟨r', h1, rfl⟩, by rw [h2]; exact key' r'⟩

/-- **C103, lines** Without the option for a lower bound, a successful run prints the results, and then the time
of the only computation. -/
theorem C103_lines [FloatOps α] {env : Env α} {t : Nat → α} {g : Graph α} {cmd : Command}
    (hc : ∀ a p b, cmd ≠ .approx a p (some b)) {ls : List (BLine α)} :
    BenchRuns env t g cmd (.ok ls) ↔
      ∃ main, Runs env g cmd (.ok main) ∧ ls = main.map .result ++ [.elapsed (t 0)] := by
  have key : ∀ r : RM (List (Line α)), .ok ls = timed (t 0) <$> r ↔
      ∃ main, r = .ok main ∧ ls = main.map .result ++ [.elapsed (t 0)] := by
    intro r
    cases r with
    | error e => exact ⟨fun h => (by cases h), fun ⟨_, h, _⟩ => (by cases h)⟩
    | ok l =>
      constructor
      · intro h; exact ⟨l, rfl, Except.ok.inj h⟩
      · rintro ⟨m, h, h'⟩
        rw [h', ← Except.ok.inj h]; rfl
  cases cmd with
  | exact a p =>
    constructor
    · rintro ⟨r, h, h'⟩
      obtain ⟨m, rfl, h2⟩ := (key r).mp h'
      exact ⟨m, h, h2⟩
    · rintro ⟨m, h, h'⟩
      exact ⟨_, h, (key _).mpr ⟨m, rfl, h'⟩⟩
  | lowerBound a p =>
    refine (key (lowerBoundRun env g a p)).trans ?_
    constructor
    · rintro ⟨m, h, h'⟩; exact ⟨m, h.symm, h'⟩
    · rintro ⟨m, h, h'⟩; exact ⟨m, Eq.symm h, h'⟩
  | approx a p lb =>
    cases lb with
    | some b => exact absurd rfl (hc a p b)
    | none =>
      constructor
      · rintro ⟨r, h, h'⟩
        obtain ⟨m, rfl, h2⟩ := (key r).mp (by cases r <;> exact h')
        exact ⟨m, h, h2⟩
      · rintro ⟨m, h, h'⟩
        exact ⟨_, h, (key (.ok m)).mpr ⟨m, rfl, h'⟩⟩

/-- **C103, lines with a bound** With the option for a lower bound, a successful run prints the length that the
approximation has found, and the time of the approximation. Then follow the bound and the time of the bound: the
first time is the time of the approximation alone. -/
theorem C103_lines_bound [FloatOps α] {env : Env α} {t : Nat → α} {g : Graph α} {a : ApproxAlgorithm}
    {p : Parallelism} {b : LowerBoundAlgorithm} {ls : List (BLine α)} :
    BenchRuns env t g (.approx a p (some b)) (.ok ls) ↔
      ∃ main bound, Runs env g (.approx a p none) (.ok main) ∧ Runs env g (.lowerBound b p) (.ok bound) ∧
        ls = main.map .result ++ .elapsed (t 0) :: (bound.map .result ++ [.elapsed (t 1)]) := by
  constructor
  · rintro ⟨r, h, h'⟩
    cases r with
    | error e => cases h'
    | ok l =>
      simp only [rm_bind_ok] at h'
      cases hb : lowerBoundRun env g b p with
      | error e => rw [hb] at h'; cases h'
      | ok l' =>
        rw [hb] at h'
        refine ⟨l, l', h, hb.symm, ?_⟩
        rw [Except.ok.inj h']
        simp [timed]
  · rintro ⟨m, k, h, h', rfl⟩
    refine ⟨_, h, ?_⟩
    have h' : .ok k = lowerBoundRun env g b p := h'
    simp only [rm_bind_ok, ← h']
    simp [timed]

theorem resultsOf_map (l : List (Line α)) : resultsOf (l.map .result) = l := by
  unfold resultsOf
  rw [List.filterMap_map]
  simp

theorem results_timed (t : α) (o : Out α) : (o.timed t).results = o := by
  obtain ⟨ls, e⟩ := o
  cases e with
  | error e => simp only [Out.timed, BOut.results, resultsOf_map]
  | ok u => simp only [Out.timed, BOut.results, resultsOf_timed]

theorem results_andThen (a b : BOut α) : (a.andThen b).results = a.results.andThen b.results := by
  obtain ⟨l, e⟩ := a
  obtain ⟨k, f⟩ := b
  cases e with
  | error e => rfl
  | ok u => simp only [BOut.andThen, BOut.results, Out.andThen, resultsOf_append]

/-- **C103, printed lines** Whatever the clocks say: what a process with the feature has printed when it ends or
panics is what a process without it has printed, and times. Both end in the same way. -/
theorem C103_printed [FloatOps α] {env : Env α} {t : Nat → α} {g : Graph α} {cmd : Command} :
    (∀ o, BenchPrints env t g cmd o → Prints env g cmd o.results) ∧
    ∀ o, Prints env g cmd o → ∃ o', BenchPrints env t g cmd o' ∧ o'.results = o := by
  have hb : ∀ p lb, (benchBound env t g p lb).results = boundAfter env g p lb := by
    intro p lb
    cases lb with
    | none => rfl
    | some b => exact results_timed _ _
  cases cmd with
  | exact a p =>
    constructor
    · rintro _ ⟨r, h, rfl⟩
      exact ⟨r, h, results_timed _ _⟩
    · rintro _ ⟨r, h, rfl⟩
      exact ⟨_, ⟨r, h, rfl⟩, results_timed _ _⟩
  | lowerBound a p =>
    constructor
    · intro o h
      obtain rfl : o = _ := h
      exact results_timed _ _
    · intro o h
      obtain rfl : o = _ := h
      exact ⟨_, rfl, results_timed _ _⟩
  | approx a p lb =>
    constructor
    · rintro _ ⟨r, h, rfl⟩
      exact ⟨r, h, by rw [results_andThen, results_timed, hb]⟩
    · rintro _ ⟨r, h, rfl⟩
      exact ⟨_, ⟨r, h, rfl⟩, by rw [results_andThen, results_timed, hb]⟩

theorem benchRuns_iff [FloatOps α] {env : Env α} {t : Nat → α} {g : Graph α} {cmd : Command}
    {ls : List (BLine α)} : BenchPrints env t g cmd ⟨ls, .ok ()⟩ ↔ BenchRuns env t g cmd (.ok ls) := by
  have h1 : ∀ (x : α) (r : RM (List (Line α))),
      (⟨ls, .ok ()⟩ : BOut α) = (Out.print id r).timed x ↔ .ok ls = timed x <$> r := by
    intro x r
    cases r with
    | error e => constructor <;> (intro h; cases h)
    | ok l =>
      constructor
      · intro h
        exact congrArg Except.ok (BOut.mk.inj h).1
      · intro h
        have h : ls = timed x l := Except.ok.inj h
        rw [h]; rfl
  cases cmd with
  | exact a p => exact exists_congr fun r => and_congr_right fun _ => h1 _ _
  | lowerBound a p => exact h1 _ _
  | approx a p lb =>
    refine exists_congr fun r => and_congr_right fun _ => ?_
    cases r with
    | error e => constructor <;> (intro h; cases h)
    | ok l =>
      cases lb with
      | none =>
        refine Iff.trans ?_ (h1 (t 0) (.ok l))
        simp [Out.print, Out.timed, BOut.andThen, benchBound]
      | some b =>
        simp only [benchBound]
        generalize lowerBoundRun env g b p = q
        cases q with
        | error e => constructor <;> (intro h; cases h)
        | ok k =>
          constructor
          · intro h
            exact congrArg Except.ok (BOut.mk.inj h).1
          · intro h
            have h : ls = timed (t 0) l ++ timed (t 1) k := Except.ok.inj h
            rw [h]; rfl

/-- the files that the arguments ask for are within the model of the parser -/
def Readable [FloatOps α] (readF : List Char → Option α) (files : List Char → Option (List Char))
    (args : List (List Char)) : Prop :=
  ∀ cmd path s, CommandLine args cmd path → files path = some s → parseFromXml readF s ≠ .unmodelled

/-- **C103, program** The same holds for the whole program. It ends in the same way as a program without the
feature. If it is successful, its output consists of the lines of C103 for the command in the arguments and the
instance in the file, and without the feature the results are printed. If it fails without a panic,
nothing is printed. Even if it panics, without the feature the output consists of the results in its output. -/
theorem C103_program [FloatOps α] {readF : List Char → Option α} {fmt : α → List Char} {env : Env α} {t : Nat → α}
    {files : List Char → Option (List Char)} {args : List (List Char)} (hh : ¬HelpRequest args)
    (hm : Readable readF files args) :
    (∀ stdout exit, BenchProgramRuns readF fmt env t files args stdout exit →
      (exit = .success → ∃ cmd path s x i ls, CommandLine args cmd path ∧ files path = some s ∧ Document x s ∧
        Encodes readF x i ∧ parseFromXml readF s = .ok i ∧ BenchRuns env t i.graph cmd (.ok ls) ∧ stdout = benchText fmt ls ∧
        ProgramRuns readF fmt env files args (outputText fmt (resultsOf ls)) exit) ∧
      (exit = .failure ∨ exit = .usage → stdout = [] ∧ ProgramRuns readF fmt env files args [] exit) ∧
      ∃ ls, stdout = benchText fmt ls ∧ ProgramRuns readF fmt env files args (outputText fmt (resultsOf ls)) exit) ∧
    ∀ stdout exit, ProgramRuns readF fmt env files args stdout exit →
      ∃ ls, stdout = outputText fmt (resultsOf ls) ∧
        BenchProgramRuns readF fmt env t files args (benchText fmt ls) exit := by
  unfold BenchProgramRuns ProgramRuns FileRuns
  rw [asksHelp_iff.mpr hh]
  simp only [forall_const]
  cases hp : parseArgs args with
  | none =>
    refine ⟨fun stdout exit h => ⟨fun e => ?_, fun _ => ⟨h.1, trivial, h.2⟩, [], h.1, rfl, h.2⟩, fun stdout exit h => ⟨[], h.1, rfl, h.2⟩⟩
    rw [h.2] at e; cases e
  | some r =>
    obtain ⟨cmd, path⟩ := r
    simp only
    cases hfile : files path with
    | none =>
      refine ⟨fun stdout exit h => ⟨fun e => ?_, fun _ => ⟨h.1, trivial, h.2⟩, [], h.1, rfl, h.2⟩,
        fun stdout exit h => ⟨[], h.1, rfl, h.2⟩⟩
      rw [h.2] at e; cases e
    | some s =>
      simp only
      have hcl := parseArgs_iff.mp hp
      obtain ⟨c1, -, -⟩ := C91_texts (readF := readF) (s := s)
      cases hx : parseFromXml readF s with
      | err =>
        refine ⟨fun stdout exit h => ⟨fun e => ?_, fun _ => ⟨h.1, trivial, h.2⟩, [], h.1, rfl, h.2⟩,
          fun stdout exit h => ⟨[], h.1, rfl, h.2⟩⟩
        rw [h.2] at e; cases e
      | panic e =>
        refine ⟨fun stdout exit h => ⟨fun e => ?_, fun _ => ⟨h.1, trivial, h.2⟩, [], h.1, rfl, h.2⟩,
          fun stdout exit h => ⟨[], h.1, rfl, h.2⟩⟩
        rw [h.2] at e; cases e
      | unmodelled => exact absurd hx (hm cmd path s hcl hfile)
      | ok i =>
        obtain ⟨r1, r2⟩ := C103_printed (env := env) (t := t) (g := i.graph) (cmd := cmd)
        obtain ⟨⟨x, hd, henc⟩, -⟩ := (c1 i).mp hx
        constructor
        · rintro stdout exit ⟨⟨ls, e⟩, h1, h2, rfl⟩
          rw [benchText_eq] at h2
          have h3 : ∃ o, Prints env i.graph cmd o ∧
              outputText fmt (resultsOf ls) = o.lines.flatMap (lineText fmt) ∧ BOut.end ⟨ls, e⟩ = o.end :=
            ⟨_, r1 _ h1, outputText_eq fmt _, by cases e <;> rfl⟩
          cases e with
          | error e =>
            exact ⟨fun h => (by cases h), fun h => (by rcases h with h | h <;> cases h), ls, h2, h3⟩
          | ok u =>
            exact ⟨fun _ => ⟨cmd, path, s, x, i, ls, hcl, hfile, hd, henc, hx, benchRuns_iff.mp h1, h2, h3⟩,
              fun h => (by rcases h with h | h <;> cases h), ls, h2, h3⟩
        · rintro stdout exit ⟨o, h1, h2, rfl⟩
          obtain ⟨⟨ls, e⟩, h3, rfl⟩ := r2 _ h1
          exact ⟨ls, h2.trans (outputText_eq fmt _).symm, _, h3, (benchText_eq fmt ls).symm, by cases e <;> rfl⟩

/-- A run of a program: what it does not determine itself, what the clocks say, and how it ends. -/
structure Measured where
  env : Env (XNum ℚ)
  t : Nat → XNum ℚ
  stdout : List Char
  exit : Exit

/-- a possible run with the feature `benchmarking`, which does not panic -/
def Measured.Ok (fmt : XNum ℚ → List Char) (files : List Char → Option (List Char)) (args : List (List Char))
    (r : Measured) : Prop :=
  r.env.Ok ∧ (∀ k, DoubleVal (r.t k)) ∧ (∀ e, r.exit ≠ .panic e) ∧
    @BenchProgramRuns _ binary64.ops readF64 fmt r.env r.t files args r.stdout r.exit

/-- the same without the feature -/
def Measured.Plain (fmt : XNum ℚ → List Char) (files : List Char → Option (List Char)) (args : List (List Char))
    (r : Measured) : Prop :=
  r.env.Ok ∧ (∀ e, r.exit ≠ .panic e) ∧ @ProgramRuns _ binary64.ops readF64 fmt r.env files args r.stdout r.exit

/-- the time of the main computation of a run that is successful -/
def Measured.time (r : Measured) : Option (XNum ℚ) :=
  match r.exit with
  | .success => some (r.t 0)
  | _ => none

/-- all numbers are doubles -/
theorem measured_double {fmt : XNum ℚ → List Char} {files : List Char → Option (List Char)}
    {args : List (List Char)} {r : Measured} (h : r.Ok fmt files args) {g : Graph (XNum ℚ)} {cmd : Command}
    {ls : List (BLine (XNum ℚ))} (hr : @BenchRuns _ binary64.ops r.env r.t g cmd (.ok ls)) :
    ∀ b ∈ ls, ∀ x, b.number = some x → DoubleVal x := by
  have hP := @runs_closed _ binary64.ops _ double_closed r.env h.1.oneTreeShape h.1.nnShape g cmd _
    ((@C103_results _ binary64.ops r.env r.t g cmd).1 _ hr)
  intro b hb x hx
  cases b with
  | result l => exact hP l (List.mem_filterMap.mpr ⟨_, hb, rfl⟩) x hx
  | elapsed y =>
    obtain rfl := Option.some.inj hx
    have : ∃ k, y = r.t k := by
      by_cases hc : ∀ a p b, cmd ≠ .approx a p (some b)
      · obtain ⟨m, -, rfl⟩ := (@C103_lines _ binary64.ops _ _ _ _ hc _).mp hr
        exact ⟨0, by simpa using hb⟩
      · push Not at hc
        obtain ⟨a, p, b, rfl⟩ := hc
        obtain ⟨m, k, -, -, rfl⟩ := (@C103_lines_bound _ binary64.ops _ _ _ _ _ _ _).mp hr
        have hb : y = r.t 0 ∨ y = r.t 1 := by simpa using hb
        rcases hb with hb | hb
        · exact ⟨0, hb⟩
        · exact ⟨1, hb⟩
    obtain ⟨k, rfl⟩ := this
    exact h.2.1 k

/-- what a run prints -/
theorem measured_text {fmt : XNum ℚ → List Char} {files : List Char → Option (List Char)}
    {args : List (List Char)} (hh : ¬HelpRequest args)
    (hm : @Readable _ binary64.ops readF64 files args) {r : Measured} (h : r.Ok fmt files args) :
    ∃ ls, r.stdout = benchText fmt ls ∧ (∀ b ∈ ls, ∀ x, b.number = some x → DoubleVal x) ∧
      (timesOf ls).head? = r.time ∧
      (r.exit = .success → ∃ cmd path, CommandLine args cmd path ∧ ∃ g, @BenchRuns _ binary64.ops r.env r.t g cmd (.ok ls)) ∧
      (r.exit ≠ .success → ls = []) := by
  obtain ⟨h1, h2, h3, h4⟩ := h
  obtain ⟨k1, k2, -⟩ := (@C103_program _ binary64.ops readF64 fmt r.env r.t files args hh hm).1 _ _ h4
  have hcase : r.exit = .success ∨ r.exit = .failure ∨ r.exit = .usage := by
    cases he : r.exit with
    | success => simp
    | failure => simp
    | usage => simp
    | panic e => exact absurd he (h3 e)
  rcases hcase with he | he
  · obtain ⟨cmd, path, s, x, i, ls, hcl, -, -, -, -, hr, ht, -⟩ := k1 he
    refine ⟨ls, ht, ?_, ?_, fun _ => ⟨cmd, path, hcl, i.graph, hr⟩, fun h => absurd he h⟩
    · exact measured_double ⟨h1, h2, h3, h4⟩ hr
    · have hres : ∀ (m : List (Line (XNum ℚ))) ls, timesOf (m.map .result ++ ls) = timesOf ls := by
        intro m ls
        unfold timesOf
        rw [List.filterMap_append, List.filterMap_eq_nil_iff.mpr]
        · rfl
        · intro b hb
          obtain ⟨l, -, rfl⟩ := List.mem_map.mp hb
          rfl
      have ht : r.time = some (r.t 0) := by simp only [Measured.time, he]
      rw [ht]
      by_cases hc : ∀ a p b, cmd ≠ .approx a p (some b)
      · obtain ⟨m, -, rfl⟩ := (@C103_lines _ binary64.ops _ _ _ _ hc _).mp hr
        rw [hres]; rfl
      · push Not at hc
        obtain ⟨a, p, b, rfl⟩ := hc
        obtain ⟨m, k, -, -, rfl⟩ := (@C103_lines_bound _ binary64.ops _ _ _ _ _ _ _).mp hr
        rw [hres]; rfl
  · refine ⟨[], (k2 he).1, by simp, ?_, ?_, fun _ => rfl⟩
    · rcases he with he | he <;> simp [Measured.time, he, timesOf]
    · intro h; rw [h] at he; rcases he with he | he <;> cases he

/-- **C103, collected times** `run_often.py` runs a program that has been built with the feature, any number of
times, and no run panics. Then it collects the times of the main computations of the successful runs, in their
order: not the time of a lower bound, and nothing of a run that has failed, which it does not report.
(`PyFloat` is the contract of `float`.) -/
theorem C103_collect {readPy : List Char → Option (XNum ℚ)} (hp : PyFloat readPy) {fmt : XNum ℚ → List Char}
    (hf : Display fmt) {files : List Char → Option (List Char)} {args : List (List Char)} (hh : ¬HelpRequest args)
    (hm : @Readable _ binary64.ops readF64 files args) {runs : List Measured}
    (hr : ∀ r ∈ runs, r.Ok fmt files args) :
    collect readPy "elapsed seconds:".toList (runs.map (·.stdout)) = .ok (runs.filterMap (·.time)) := by
  refine collect_eq fun r h => ?_
  obtain ⟨ls, h1, h2, h3, -, -⟩ := measured_text hh hm (hr r h)
  obtain ⟨s, hs⟩ : ∃ s, "elapsed seconds:".toList = 'e' :: s := ⟨_, rfl⟩
  rw [h1, split_bench hf h2, hs, firstField_eq (picks_time hp hf (by rw [← hs]; decide +kernel))]
  · rw [← timesOf_eq, h3]
  · intro b hb x hx
    refine h2 b hb x ?_
    cases b with
    | result l => cases hx
    | elapsed t => exact hx

/-- the summary of a list of numbers -/
theorem runOften_eq {readPy : List Char → Option α} {mean : List α → α} {sort : List α → List α} {start : List Char}
    {outs : List (List Char)} {vs : List α} (h : collect readPy start outs = .ok vs) :
    (vs = [] → runOften readPy mean sort start outs = .error .arith) ∧
    (vs ≠ [] → ∀ m, (sort vs)[vs.length / 2]? = some m →
      runOften readPy mean sort start outs = .ok ⟨vs, mean vs, m⟩) := by
  unfold runOften
  rw [h, rm_bind_ok]
  constructor
  · rintro rfl; rfl
  · intro hv m hm
    rw [if_neg (by simpa using hv)]
    unfold idx
    rw [hm]
    rfl

/-- **C103, summary** If no run is successful, the script fails with a division by zero. Otherwise (and if all
times are finite) it writes the times, what it has computed as their mean, and a median: one of the times,
such that more than half of the times are not above it, and at least half are not below it. (For an even number of
times this is the upper one of the two in the middle.) -/
theorem C103_summary {readPy : List Char → Option (XNum ℚ)} (hp : PyFloat readPy) {fmt : XNum ℚ → List Char}
    (hf : Display fmt) {mean : List (XNum ℚ) → XNum ℚ} {sort : List (XNum ℚ) → List (XNum ℚ)} (hs : Sorts sort)
    {files : List Char → Option (List Char)} {args : List (List Char)} (hh : ¬HelpRequest args)
    (hm : @Readable _ binary64.ops readF64 files args) {runs : List Measured}
    (hr : ∀ r ∈ runs, r.Ok fmt files args) {times : List ℚ} (ht : runs.filterMap (·.time) = times.map .fin) :
    (times = [] → runOften readPy mean sort "elapsed seconds:".toList (runs.map (·.stdout)) = .error .arith) ∧
    (times ≠ [] → ∃ m ∈ times,
      runOften readPy mean sort "elapsed seconds:".toList (runs.map (·.stdout)) =
        .ok ⟨times.map .fin, mean (times.map .fin), .fin m⟩ ∧
      times.length < 2 * times.countP (· ≤ m) ∧ times.length ≤ 2 * times.countP (m ≤ ·)) := by
  have hc := C103_collect hp hf hh hm hr
  rw [ht] at hc
  obtain ⟨k1, k2⟩ := runOften_eq (mean := mean) (sort := sort) hc
  constructor
  · rintro rfl; exact k1 rfl
  · intro hne
    obtain ⟨s, h1, h2, h3⟩ := hs times
    have hpos : 0 < times.length := List.length_pos_iff.mpr hne
    have hlt : times.length / 2 < s.length := by rw [h2.length_eq]; omega
    refine ⟨s[times.length / 2], h2.mem_iff.mp (List.getElem_mem hlt), ?_, ?_, ?_⟩
    · refine k2 (by simpa using hne) _ ?_
      rw [h1, List.length_map, List.getElem?_map, List.getElem?_eq_getElem hlt]
      rfl
    · rw [← h2.countP_eq]
      have : (s.take (times.length / 2 + 1)).countP (· ≤ s[times.length / 2]) = times.length / 2 + 1 := by
        rw [List.countP_eq_length.mpr, List.length_take]
        · omega
        · intro a ha
          obtain ⟨i, hi, rfl⟩ := List.mem_iff_getElem.mp ha
          rw [List.length_take] at hi
          rw [List.getElem_take, decide_eq_true_eq]
          rcases Nat.lt_or_ge i (times.length / 2) with h | h
          · exact List.pairwise_iff_getElem.mp h3 _ _ _ _ h
          · have : i = times.length / 2 := by omega
            subst this
            exact le_refl _
      have := (List.take_sublist (times.length / 2 + 1) s).countP_le (p := (· ≤ s[times.length / 2]))
      omega
    · rw [← h2.countP_eq]
      have : (s.drop (times.length / 2)).countP (s[times.length / 2] ≤ ·) = times.length - times.length / 2 := by
        rw [List.countP_eq_length.mpr, List.length_drop, h2.length_eq]
        intro a ha
        obtain ⟨i, hi, rfl⟩ := List.mem_iff_getElem.mp ha
        rw [List.length_drop] at hi
        rw [List.getElem_drop, decide_eq_true_eq]
        rcases Nat.eq_zero_or_pos i with h | h
        · subst h
          exact le_refl _
        · exact List.pairwise_iff_getElem.mp h3 _ _ _ _ (by omega)
      have := (List.drop_sublist (times.length / 2) s).countP_le (p := (s[times.length / 2] ≤ ·))
      omega

/-- what a run without the feature prints -/
theorem plain_text {fmt : XNum ℚ → List Char} {files : List Char → Option (List Char)}
    {args : List (List Char)} (hh : ¬HelpRequest args)
    (hm : @Readable _ binary64.ops readF64 files args) {r : Measured} (h : r.Plain fmt files args) :
    ∃ ls, r.stdout = outputText fmt ls ∧ (∀ l ∈ ls, ∀ x, l.number = some x → DoubleVal x) ∧
      (r.exit = .success → ∃ cmd path s i, CommandLine args cmd path ∧ files path = some s ∧
        @parseFromXml _ binary64.ops readF64 s = .ok i ∧ @Runs _ binary64.ops r.env i.graph cmd (.ok ls)) ∧
      (r.exit ≠ .success → ls = []) := by
  obtain ⟨h1, h3, h4⟩ := h
  have h4 := h4 (asksHelp_iff.mpr hh)
  have none : ∀ {e}, r.stdout = [] ∧ r.exit = e → e ≠ .success →
      ∃ ls, r.stdout = outputText fmt ls ∧ (∀ l ∈ ls, ∀ x, l.number = some x → DoubleVal x) ∧
      (r.exit = .success → ∃ cmd path s i, CommandLine args cmd path ∧ files path = some s ∧
        @parseFromXml _ binary64.ops readF64 s = .ok i ∧ @Runs _ binary64.ops r.env i.graph cmd (.ok ls)) ∧
      (r.exit ≠ .success → ls = []) := by
    intro e h he
    exact ⟨[], h.1, by simp, fun h' => absurd (h.2 ▸ h') he, fun _ => rfl⟩
  cases hp : parseArgs args with
  | none => rw [hp] at h4; exact none h4 (by simp)
  | some q =>
    obtain ⟨cmd, path⟩ := q
    rw [hp] at h4
    have hcl := parseArgs_iff.mp hp
    simp only [FileRuns] at h4
    cases hfile : files path with
    | none => rw [hfile] at h4; exact none h4 (by simp)
    | some s =>
      rw [hfile] at h4
      simp only at h4
      cases hx : @parseFromXml _ binary64.ops readF64 s with
      | err => rw [hx] at h4; exact none h4 (by simp)
      | panic e => rw [hx] at h4; exact none h4 (by simp)
      | unmodelled => exact absurd hx (hm cmd path s hcl hfile)
      | ok i =>
        rw [hx] at h4
        obtain ⟨out, k1, k2⟩ := @prints_out _ binary64.ops _ _ _ _ _ _ h4
        cases out with
        | error e => exact absurd k2 (h3 e)
        | ok ls =>
          obtain ⟨k2, k3⟩ : r.stdout = ls.flatMap (lineText fmt) ∧ r.exit = .success := k2
          refine ⟨ls, by rw [outputText_eq]; exact k2, ?_, fun _ => ⟨cmd, path, s, i, hcl, hfile, hx, k1⟩,
            fun h => absurd k3 h⟩
          exact @runs_closed _ binary64.ops _ double_closed r.env h1.oneTreeShape h1.nnShape i.graph cmd _ k1

/-- what a run prints, with or without the feature -/
theorem run_text {fmt : XNum ℚ → List Char} {files : List Char → Option (List Char)}
    {args : List (List Char)} (hh : ¬HelpRequest args)
    (hm : @Readable _ binary64.ops readF64 files args) {r : Measured}
    (h : r.Ok fmt files args ∨ r.Plain fmt files args) :
    ∃ ls, r.stdout = benchText fmt ls ∧ (∀ b ∈ ls, ∀ x, b.number = some x → DoubleVal x) ∧
      (r.exit = .success → ∃ cmd path s i, CommandLine args cmd path ∧ files path = some s ∧
        @parseFromXml _ binary64.ops readF64 s = .ok i ∧ @Runs _ binary64.ops r.env i.graph cmd (.ok (resultsOf ls))) ∧
      (r.exit ≠ .success → ls = []) := by
  rcases h with h | h
  · by_cases he : r.exit = .success
    · obtain ⟨k1, -, -⟩ := (@C103_program _ binary64.ops readF64 fmt r.env r.t files args hh hm).1 _ _ h.2.2.2
      obtain ⟨cmd, path, s, x, i, ls, hcl, hfile, -, -, hx, hr, ht, -⟩ := k1 he
      exact ⟨ls, ht, measured_double h hr, fun _ => ⟨cmd, path, s, i, hcl, hfile, hx,
        (@C103_results _ binary64.ops r.env r.t i.graph cmd).1 _ hr⟩, fun h => absurd he h⟩
    · obtain ⟨ls, h1, h2, -, -, h5⟩ := measured_text hh hm h
      exact ⟨ls, h1, h2, fun h => absurd h he, h5⟩
  · obtain ⟨ls, h1, h2, h3, h4⟩ := plain_text hh hm h
    refine ⟨ls.map .result, by rw [benchText_result]; exact h1, ?_, fun he => ?_, fun he => ?_⟩
    · intro b hb
      obtain ⟨l, hl, rfl⟩ := List.mem_map.mp hb
      exact h2 l hl
    · obtain ⟨cmd, path, s, i, k1, k2, k3, k4⟩ := h3 he
      exact ⟨cmd, path, s, i, k1, k2, k3, by rw [resultsOf_map]; exact k4⟩
    · rw [h4 he]; rfl

/-- **C103, without the feature** If the program has been built without the feature, `run_often.py` finds no times
and fails with a division by zero. -/
theorem C103_without {readPy : List Char → Option (XNum ℚ)} (hp : PyFloat readPy) {fmt : XNum ℚ → List Char}
    (hf : Display fmt) {mean : List (XNum ℚ) → XNum ℚ} {sort : List (XNum ℚ) → List (XNum ℚ)}
    {files : List Char → Option (List Char)} {args : List (List Char)} (hh : ¬HelpRequest args)
    (hm : @Readable _ binary64.ops readF64 files args) {runs : List Measured}
    (hr : ∀ r ∈ runs, r.Plain fmt files args) :
    runOften readPy mean sort "elapsed seconds:".toList (runs.map (·.stdout)) = .error .arith := by
  refine (runOften_eq (vs := []) ?_).1 rfl
  rw [collect_eq (v := fun _ => none)]
  · simp
  · intro r h
    obtain ⟨ls, h1, h2, -, -⟩ := plain_text hh hm (hr r h)
    obtain ⟨s, hs⟩ : ∃ s, "elapsed seconds:".toList = 'e' :: s := ⟨_, rfl⟩
    rw [h1, ← benchText_result, split_bench hf, hs,
      firstField_eq (picks_time hp hf (by rw [← hs]; decide +kernel)), List.filterMap_eq_nil_iff.mpr]
    · rfl
    · intro b hb
      obtain ⟨l, -, rfl⟩ := List.mem_map.mp hb
      rfl
    · intro b hb x hx
      obtain ⟨l, -, rfl⟩ := List.mem_map.mp hb
      cases hx
    · intro b hb
      obtain ⟨l, hl, rfl⟩ := List.mem_map.mp hb
      exact h2 l hl

theorem weight_line [FloatOps α] {env : Env α} {g : Graph α} {p : Parallelism} {lb : Option LowerBoundAlgorithm}
    {ls : List (Line α)} (h : Runs env g (.approx .christofides p lb) (.ok ls)) :
    ∃ w rest, ls = .christofidesWeight w :: rest ∧
      Runs env g (.approx .christofides p none) (.ok [.christofidesWeight w]) := by
  obtain ⟨r, h1, h2⟩ := approxRun_bound.mp (show ApproxRun env g .christofides p lb (.ok ls) from h)
  have h1' := h1
  simp only [ApproxRun] at h1
  split at h1
  · rw [h1] at h2; cases h2
  · obtain ⟨res, -, h1⟩ := h1
    cases res with
    | error e => rw [h1] at h2; cases h2
    | ok sol =>
      have hw : withBound env g p none (.ok [Line.christofidesWeight sol.1]) = .ok [Line.christofidesWeight sol.1] := rfl
      have h1 : r = .ok [Line.christofidesWeight sol.1] := h1.trans hw
      subst h1
      refine ⟨sol.1, ?_⟩
      unfold withBound at h2
      simp only [rm_bind_ok] at h2
      cases lb with
      | none => exact ⟨[], Except.ok.inj h2, h1'⟩
      | some b =>
        simp only at h2
        cases hb : lowerBoundRun env g b p with
        | error e => rw [hb] at h2; cases h2
        | ok l' => rw [hb] at h2; exact ⟨l', Except.ok.inj h2, h1'⟩

theorem bound_lines [FloatOps α] {env : Env α} {g : Graph α} {p : Parallelism} {b : LowerBoundAlgorithm}
    {ls : List (Line α)} (h : lowerBoundRun env g b p = .ok ls) : ∀ x, .christofidesWeight x ∉ ls := by
  unfold lowerBoundRun at h
  obtain ⟨g', -, h⟩ := bind_ok h
  obtain ⟨m, -, h⟩ := bind_ok h
  intro x hx
  cases b <;> cases p <;> obtain ⟨w, -, h⟩ := bind_ok h <;> rw [← Except.ok.inj h] at hx <;> simp at hx

theorem no_weight_line [FloatOps α] {env : Env α} {g : Graph α} {cmd : Command} {ls : List (Line α)}
    (hc : ∀ p lb, cmd ≠ .approx .christofides p lb) (h : Runs env g cmd (.ok ls)) :
    ∀ x, .christofidesWeight x ∉ ls := by
  cases cmd with
  | exact a p =>
    simp only [Runs, ExactRun] at h
    intro x hx
    split at h
    · cases h
    · cases p with
      | singleThreaded =>
        obtain ⟨r, -, rfl⟩ := map_ok h.symm
        simp at hx
      | multiThreaded =>
        obtain ⟨r, -, h⟩ := h
        rw [Except.ok.inj h] at hx
        simp at hx
  | lowerBound a p => exact bound_lines (Eq.symm h)
  | approx a p lb =>
    cases a with
    | christofides => exact absurd rfl (hc p lb)
    | nearestNeighbour =>
      obtain ⟨r, h1, h2⟩ := approxRun_bound.mp (show ApproxRun env g .nearestNeighbour p lb (.ok ls) from h)
      simp only [ApproxRun] at h1
      intro x hx
      split at h1
      · rw [h1] at h2; cases h2
      · obtain ⟨res, -, h1⟩ := h1
        cases res with
        | error e => rw [h1] at h2; cases h2
        | ok sol =>
          have hw : withBound env g p none (.ok [Line.nnWeight sol.1, .nnTour sol.2]) =
            .ok [Line.nnWeight sol.1, .nnTour sol.2] := rfl
          have h1 : r = .ok [Line.nnWeight sol.1, .nnTour sol.2] := h1.trans hw
          subst h1
          unfold withBound at h2
          simp only [rm_bind_ok] at h2
          cases lb with
          | none => rw [Except.ok.inj h2] at hx; simp at hx
          | some b =>
            simp only at h2
            cases hb : lowerBoundRun env g b p with
            | error e => rw [hb] at h2; cases h2
            | ok l' =>
              rw [hb] at h2
              rw [Except.ok.inj h2] at hx
              rcases List.mem_append.mp hx with hx | hx
              · simp at hx
              · exact bound_lines hb x hx

theorem weightsOf_results {ls : List (BLine α)} {x : α} {rest : List (Line α)}
    (h : resultsOf ls = .christofidesWeight x :: rest) : (weightsOf ls).head? = some x := by
  induction ls with
  | nil => cases h
  | cons b ls ih =>
    cases b with
    | elapsed t => exact ih h
    | result l =>
      obtain rfl : l = .christofidesWeight x := (List.cons.inj h).1
      rfl

theorem weightsOf_none {ls : List (BLine α)} (h : ∀ x, .christofidesWeight x ∉ resultsOf ls) : weightsOf ls = [] := by
  rw [weightsOf_eq, List.filterMap_eq_nil_iff]
  intro b hb
  cases hp : pickWeight b with
  | none => rfl
  | some x =>
    have : b = .result (.christofidesWeight x) := by
      cases b with
      | elapsed t => cases hp
      | result l => cases l <;> first | (cases hp; rfl) | cases hp
    subst this
    exact (h x (List.mem_filterMap.mpr ⟨_, hb, rfl⟩)).elim

/-- did the run succeed? -/
def Measured.good (r : Measured) : Bool :=
  match r.exit with
  | .success => true
  | _ => false

/-- **C103, lengths** The script for Christofides' algorithm runs `walky approx christofides` any number of times,
with or without the feature and with or without a lower bound, and no run panics. Then it collects
exactly the lengths that the successful runs have computed, in their order. -/
theorem C103_weights {readPy : List Char → Option (XNum ℚ)} (hp : PyFloat readPy) {fmt : XNum ℚ → List Char}
    (hf : Display fmt) {files : List Char → Option (List Char)} {args : List (List Char)} (hh : ¬HelpRequest args)
    (hm : @Readable _ binary64.ops readF64 files args) {p : Parallelism} {lb : Option LowerBoundAlgorithm}
    {path : List Char} (hcl : CommandLine args (.approx .christofides p lb) path) {s : List Char}
    (hs : files path = some s) {x : Xml} {i : Instance (XNum ℚ)} (hx : Document x s) (hi : Encodes readF64 x i)
    {runs : List Measured} (hr : ∀ r ∈ runs, r.Ok fmt files args ∨ r.Plain fmt files args) :
    ∃ ws, collect readPy "Christofides solution weight:".toList (runs.map (·.stdout)) = .ok ws ∧
      List.Forall₂ (fun (r : Measured) w => @Runs _ binary64.ops r.env i.graph (.approx .christofides p none)
        (.ok [.christofidesWeight w])) (runs.filter (·.good)) ws := by
  have key : ∀ r ∈ runs, ∃ v, firstField readPy "Christofides solution weight:".toList (pySplit '\n' r.stdout) = .ok v ∧
      ((r.good = false ∧ v = none) ∨ ∃ w, r.good = true ∧ v = some w ∧
        @Runs _ binary64.ops r.env i.graph (.approx .christofides p none) (.ok [.christofidesWeight w])) := by
    intro r h
    obtain ⟨ls, h1, h2, h3, h4⟩ := run_text hh hm (hr r h)
    obtain ⟨t, ht⟩ : ∃ s, "Christofides solution weight:".toList = 'C' :: s := ⟨_, rfl⟩
    refine ⟨(weightsOf ls).head?, ?_, ?_⟩
    · rw [h1, split_bench hf h2, ht, firstField_eq (picks_weight hp hf (by rw [← ht]; decide +kernel))]
      · rfl
      · intro b hb x hx
        refine h2 b hb x ?_
        cases b with
        | elapsed t => cases hx
        | result l => cases l <;> first | (cases hx; rfl) | cases hx
    · by_cases he : r.exit = .success
      · obtain ⟨cmd, path', s', i', k1, k2, k3, k4⟩ := h3 he
        obtain ⟨rfl, rfl⟩ := C96_unique k1 hcl
        rw [hs] at k2
        obtain rfl := Option.some.inj k2
        have : i' = i := by
          obtain ⟨c1, c2, -⟩ := @C91_texts _ binary64.ops readF64 s
          by_cases hd : @doConditionsHold _ binary64.ops i.graph = .ok true
          · have := (c1 i).mpr ⟨⟨x, hx, hi⟩, hd⟩
            rw [k3] at this
            exact Parsed.ok.inj this
          · obtain ⟨e, he⟩ := c2.mpr ⟨x, i, hx, hi, hd⟩
            rw [k3] at he
            cases he
        subst this
        obtain ⟨w, rest, hw, hrun⟩ := @weight_line _ binary64.ops _ _ _ _ _ k4
        exact Or.inr ⟨w, by simp [Measured.good, he], weightsOf_results hw, hrun⟩
      · refine Or.inl ⟨?_, by rw [h4 he]; rfl⟩
        unfold Measured.good
        split
        · next e => exact absurd e he
        · rfl
  choose! v hv hw using key
  refine ⟨runs.filterMap v, collect_eq hv, ?_⟩
  clear hr hv
  induction runs with
  | nil => exact .nil
  | cons r runs ih =>
    have ih := ih fun r h => hw r (by simp [h])
    rcases hw r (by simp) with ⟨h1, h2⟩ | ⟨w, h1, h2, h3⟩
    · rw [List.filter_cons_of_neg (by simp [h1]), List.filterMap_cons, h2]
      exact ih
    · rw [List.filter_cons_of_pos h1, List.filterMap_cons, h2]
      exact .cons h3 ih

/-- **C103, no lengths** With any other command, the script for Christofides' algorithm finds nothing and fails with
a division by zero. -/
theorem C103_no_weights {readPy : List Char → Option (XNum ℚ)} (hp : PyFloat readPy) {fmt : XNum ℚ → List Char}
    (hf : Display fmt) {mean : List (XNum ℚ) → XNum ℚ} {sort : List (XNum ℚ) → List (XNum ℚ)}
    {files : List Char → Option (List Char)} {args : List (List Char)} (hh : ¬HelpRequest args)
    (hm : @Readable _ binary64.ops readF64 files args)
    (hc : ∀ p lb path, ¬CommandLine args (.approx .christofides p lb) path)
    {runs : List Measured} (hr : ∀ r ∈ runs, r.Ok fmt files args ∨ r.Plain fmt files args) :
    runOften readPy mean sort "Christofides solution weight:".toList (runs.map (·.stdout)) = .error .arith := by
  refine (runOften_eq (vs := []) ?_).1 rfl
  rw [collect_eq (v := fun _ => none)]
  · simp
  · intro r h
    obtain ⟨ls, h1, h2, h3, h4⟩ := run_text hh hm (hr r h)
    have hls : weightsOf ls = [] := by
      by_cases he : r.exit = .success
      · obtain ⟨cmd, path, s, i, k1, -, -, k4⟩ := h3 he
        refine weightsOf_none (@no_weight_line _ binary64.ops _ _ _ _ ?_ k4)
        rintro p lb rfl
        exact hc p lb path k1
      · rw [h4 he]; rfl
    obtain ⟨t, ht⟩ : ∃ s, "Christofides solution weight:".toList = 'C' :: s := ⟨_, rfl⟩
    rw [weightsOf_eq] at hls
    rw [h1, split_bench hf h2, ht, firstField_eq (picks_weight hp hf (by rw [← ht]; decide +kernel)), hls]
    · rfl
    · intro b hb x hx
      exact absurd (hls ▸ List.mem_filterMap.mpr ⟨b, hb, hx⟩) (by simp)

/-- three outputs: of an exact run, of an approximation with a bound, and of a run that has failed -/
example : collect readF64 "elapsed seconds:".toList
    ["Best Cost: 4\nBest Permutation: [0, 1, 2]\nelapsed seconds: 0.5\n".toList,
      "Christofides solution weight: 4\nelapsed seconds: 0.25\nMST lower bound: 2\nelapsed seconds: 7\n".toList,
      []] = .ok [.fin (1 / 2), .fin (1 / 4)] ∧
    collect readF64 "Christofides solution weight:".toList
      ["Christofides solution weight: 4\nelapsed seconds: 0.25\nMST lower bound: 2\nelapsed seconds: 7\n".toList] =
      .ok [.fin 4] := by decide +kernel

/-- the contract of `float` is satisfied by the function that reads Rust's numbers -/
example : PyFloat readF64 := pyFloat_readF64

/-- the lines of an output -/
example : benchText (fun k : Nat => Nat.toDigits 10 k)
      [.result (.christofidesWeight 4), .elapsed 1, .result (.mstBound 2), .elapsed 7] =
    "Christofides solution weight: 4\nelapsed seconds: 1\nMST lower bound: 2\nelapsed seconds: 7\n".toList := by
  decide +kernel

/-! ## C104 -/

theorem results_bound [FloatOps α] (env : MpiEnv α) (t : Nat → Nat → α) (m : Mat α) (r : Nat)
    (lb : Option LowerBoundAlgorithm) : (benchBoundAfter env t m r lb).results = mpiBoundAfter env m r lb := by
  cases lb with
  | none => rfl
  | some b => exact results_timed _ _

theorem map_zipIdx_results {β : Type} (l : List β) (f : β × Nat → BOut α) (g : β × Nat → Out α)
    (h : ∀ x, (f x).results = g x) : (l.zipIdx.map f).map BOut.results = l.zipIdx.map g := by
  rw [List.map_map]
  exact List.map_congr_left fun x _ => h x

/-- **C104** With the feature `benchmarking`, the processes of a job compute what they compute without it: the
possible outcomes are the same on every rank, except that the times are printed in addition. -/
theorem C104_results [FloatOps α] {env : MpiEnv α} {t : Nat → Nat → α} {g : Graph α} {c : MpiCommand} :
    (∀ outs, MpiBenchRuns env t g c outs → MpiRuns env g c (outs.map BOut.results)) ∧
    ∀ os, MpiRuns env g c os → ∃ outs, MpiBenchRuns env t g c outs ∧ outs.map BOut.results = os := by
  have hnil : ∀ (n : Nat) (e : RM Unit), (List.replicate n (⟨[], e⟩ : BOut α)).map BOut.results =
      List.replicate n ⟨[], e⟩ := by
    intro n e
    rw [List.map_replicate]; rfl
  have fin : ∀ (B : List (BOut α) → Prop) (M : List (Out α) → Prop) (b : List (BOut α)) (o : List (Out α)),
      (∀ x, B x ↔ x = b) → (∀ x, M x ↔ x = o) → b.map BOut.results = o →
      (∀ outs, B outs → M (outs.map BOut.results)) ∧ ∀ os, M os → ∃ outs, B outs ∧ outs.map BOut.results = os := by
    intro B M b o hB hM h
    constructor
    · intro outs ho
      rw [(hB _).mp ho, h]; exact (hM _).mpr rfl
    · intro os ho
      exact ⟨b, (hB _).mpr rfl, by rw [(hM _).mp ho]; exact h⟩
  unfold MpiBenchRuns MpiRuns
  cases (do naFromGraph (← parseChecked g) : RM (Mat α)) with
  | error e => exact fin _ _ _ _ (fun _ => Iff.rfl) (fun _ => Iff.rfl) (hnil _ _)
  | ok m =>
    simp only
    cases c with
    | exact a =>
      simp only
      constructor
      · rintro outs ⟨os, h, rfl⟩
        rw [map_zipIdx_results os _ (fun x => x.1) (fun x => results_timed _ _), List.zipIdx_map_fst]
        exact h
      · intro os h
        refine ⟨_, ⟨os, h, rfl⟩, ?_⟩
        rw [map_zipIdx_results os _ (fun x => x.1) (fun x => results_timed _ _)]
        exact List.zipIdx_map_fst _ _
    | approx a lb =>
      cases a with
      | christofides =>
        simp only [mpiApprox]
        cases christofidesMpi env.dbg m env.rng env.shufs env.size with
        | error e => exact fin _ _ _ _ (fun _ => Iff.rfl) (fun _ => Iff.rfl) (hnil _ _)
        | ok r =>
          refine fin _ _ _ _ (fun _ => Iff.rfl) (fun _ => Iff.rfl) ?_
          rw [List.map_map]
          refine List.map_congr_left fun k _ => ?_
          simp only [Function.comp]
          split
          · rw [results_andThen, results_bound, results_timed]
          · rfl
      | nearestNeighbour =>
        simp only [mpiApprox]
        cases nnMpi env.nnShape env.size m with
        | error e => exact fin _ _ _ _ (fun _ => Iff.rfl) (fun _ => Iff.rfl) (hnil _ _)
        | ok rs =>
          refine fin _ _ _ _ (fun _ => Iff.rfl) (fun _ => Iff.rfl) ?_
          refine map_zipIdx_results _ _ _ fun x => ?_
          rw [results_andThen, results_bound, results_timed]
    | lowerBound a =>
      cases a with
      | oneTree =>
        simp only [mpiLowerBound]
        cases oneTreeLbMpi env.oneTreeShape env.size m with
        | error e => exact fin _ _ _ _ (fun _ => Iff.rfl) (fun _ => Iff.rfl) (hnil _ _)
        | ok w =>
          refine fin _ _ _ _ (fun _ => Iff.rfl) (fun _ => Iff.rfl) ?_
          rw [List.map_map]
          refine List.map_congr_left fun k _ => ?_
          simp only [Function.comp]
          split
          · rw [results_timed]
          · rfl
      | mst =>
        refine fin _ _ _ _ (fun _ => Iff.rfl) (fun _ => Iff.rfl) ?_
        rw [List.map_map]
        exact List.map_congr_left fun k _ => results_timed _ _
      | mstQueue =>
        refine fin _ _ _ _ (fun _ => Iff.rfl) (fun _ => Iff.rfl) ?_
        rw [List.map_map]
        exact List.map_congr_left fun k _ => results_timed _ _

/-- the times that rank `r` prints: with nearest neighbour, the exact algorithms and the minimum spanning trees
every rank prints, otherwise only the root -/
def rankTimes (t : Nat → Nat → α) (r : Nat) : MpiCommand → List α
  | .exact _ => [t r 0]
  | .approx .nearestNeighbour none => [t r 0]
  | .approx .nearestNeighbour (some _) => [t r 0, t r 1]
  | .approx .christofides none => if r = 0 then [t 0 0] else []
  | .approx .christofides (some _) => if r = 0 then [t 0 0, t 0 1] else []
  | .lowerBound .oneTree => if r = 0 then [t 0 0] else []
  | .lowerBound _ => [t r 0]

theorem timesOf_append (l k : List (BLine α)) : timesOf (l ++ k) = timesOf l ++ timesOf k :=
  List.filterMap_append

theorem timesOf_result (l : List (Line α)) : timesOf (l.map .result) = [] := by
  unfold timesOf
  rw [List.filterMap_eq_nil_iff]
  intro b hb
  obtain ⟨l, -, rfl⟩ := List.mem_map.mp hb
  rfl

theorem timesOf_timed (t : α) (o : Out α) (h : (o.timed t).exit = .ok ()) : timesOf (o.timed t).lines = [t] := by
  obtain ⟨l, e⟩ := o
  cases e with
  | error e => cases h
  | ok u =>
    simp only [Out.timed, timed]
    rw [timesOf_append, timesOf_result]
    rfl

theorem timesOf_bound [FloatOps α] {env : MpiEnv α} {t : Nat → Nat → α} {m : Mat α} {r : Nat}
    {lb : Option LowerBoundAlgorithm} (h : (benchBoundAfter env t m r lb).exit = .ok ()) :
    timesOf (benchBoundAfter env t m r lb).lines = lb.elim [] fun _ => [t r 1] := by
  cases lb with
  | none => rfl
  | some b => exact timesOf_timed _ _ h

theorem nnMpi_length [FloatOps α] {shape : Nat → List (α × Nat) → RTree (α × Nat)} {size : Nat} {m : Mat α}
    {rs : List (Solution α)} (hrs : nnMpi shape size m = .ok rs) : rs.length = size := by
  simp only [nnMpi] at hrs
  obtain ⟨ls, -, hrs⟩ := bind_ok hrs
  obtain ⟨us, h2, hrs⟩ := bind_ok hrs
  have hl := mapM_length h2
  rw [List.length_range] at hl
  cases us with
  | nil => rw [← Except.ok.inj hrs]; exact hl
  | cons r0 us =>
    simp only at hrs
    split at hrs
    · obtain ⟨win, -, hrs⟩ := bind_ok hrs
      rw [← Except.ok.inj hrs, List.length_map, hl]
    · cases hrs

/-- **C104, ranks** A job that is successful on a rank has printed exactly these times on this rank. -/
theorem C104_ranks [FloatOps α] {env : MpiEnv α} {t : Nat → Nat → α} {g : Graph α} {c : MpiCommand}
    {outs : List (BOut α)} (h : MpiBenchRuns env t g c outs) :
    outs.length = env.size ∧
      ∀ r o, outs[r]? = some o → o.exit = .ok () → timesOf o.lines = rankTimes t r c := by
  have herr : ∀ (e : Panic), outs = List.replicate env.size ⟨[], .error e⟩ → outs.length = env.size ∧
      ∀ r o, outs[r]? = some o → o.exit = .ok () → timesOf o.lines = rankTimes t r c := by
    rintro e rfl
    refine ⟨List.length_replicate, fun r o hr ho => ?_⟩
    rw [List.eq_of_mem_replicate (List.mem_of_getElem? hr)] at ho
    cases ho
  have hrange : ∀ f : Nat → BOut α, outs = (List.range env.size).map f →
      (∀ r, (f r).exit = .ok () → timesOf (f r).lines = rankTimes t r c) → outs.length = env.size ∧
      ∀ r o, outs[r]? = some o → o.exit = .ok () → timesOf o.lines = rankTimes t r c := by
    rintro f rfl hf
    refine ⟨by simp, fun r o hr ho => ?_⟩
    rw [List.getElem?_map] at hr
    obtain ⟨k, hk, rfl⟩ := Option.map_eq_some_iff.mp hr
    rw [List.getElem?_range (by have := (List.getElem?_eq_some_iff.mp hk).1; simpa using this)] at hk
    obtain rfl := Option.some.inj hk
    exact hf _ ho
  have hzip : ∀ {β : Type} (l : List β) (f : β → Nat → BOut α), l.length = env.size →
      outs = l.zipIdx.map (fun x => f x.1 x.2) →
      (∀ b r, (f b r).exit = .ok () → timesOf (f b r).lines = rankTimes t r c) → outs.length = env.size ∧
      ∀ r o, outs[r]? = some o → o.exit = .ok () → timesOf o.lines = rankTimes t r c := by
    rintro β l f hl rfl hf
    refine ⟨by simp [hl], fun r o hr ho => ?_⟩
    rw [List.getElem?_map, List.getElem?_zipIdx] at hr
    obtain ⟨x, hx, rfl⟩ := Option.map_eq_some_iff.mp hr
    obtain ⟨b, -, rfl⟩ := Option.map_eq_some_iff.mp hx
    simp only [Nat.zero_add] at ho ⊢
    exact hf b r ho
  have hthen : ∀ {a b : BOut α} {x y : List α}, (a.andThen b).exit = .ok () → (a.exit = .ok () → timesOf a.lines = x) →
      (b.exit = .ok () → timesOf b.lines = y) → timesOf (a.andThen b).lines = x ++ y := by
    intro a b x y he ha hb
    obtain ⟨l, e⟩ := a
    cases e with
    | error e => cases he
    | ok u => simp only [BOut.andThen] at he ⊢; rw [timesOf_append, ha rfl, hb he]
  unfold MpiBenchRuns at h
  split at h
  · exact herr _ h
  · next m hm =>
    cases c with
    | exact a =>
      obtain ⟨os, h1, h2⟩ := h
      refine hzip os (fun o r => o.timed (t r 0)) ?_ h2 fun o r he => timesOf_timed _ _ he
      unfold MpiExactRun at h1
      cases a with
      | v0 => obtain ⟨r, -, rfl⟩ := h1; exact List.length_replicate
      | v1 => obtain ⟨r, -, rfl⟩ := h1; exact List.length_replicate
      | _ => rw [h1]; exact List.length_replicate
    | approx a lb =>
      cases a with
      | christofides =>
        simp only at h
        split at h
        · refine hrange _ h fun r he => ?_
          by_cases hr : r = 0
          · subst hr
            simp only [if_true] at he ⊢
            rw [hthen he (timesOf_timed _ _) timesOf_bound]
            cases lb <;> rfl
          · simp only [if_neg hr]
            cases lb <;> simp only [rankTimes, if_neg hr] <;> rfl
        · exact herr _ h
      | nearestNeighbour =>
        simp only at h
        split at h
        · next rs hrs =>
          refine hzip rs (fun x r => BOut.andThen (Out.timed (t r 0) ⟨[Line.nnWeight x.1, Line.nnTour x.2], .ok ()⟩)
            (benchBoundAfter env t m r lb)) (nnMpi_length hrs) h fun x r he => ?_
          rw [hthen he (timesOf_timed _ _) timesOf_bound]
          cases lb <;> rfl
        · exact herr _ h
    | lowerBound a =>
      cases a with
      | oneTree =>
        simp only at h
        split at h
        · refine hrange _ h fun r he => ?_
          by_cases hr : r = 0
          · subst hr
            simp only [if_true] at he ⊢
            exact timesOf_timed _ _ he
          · simp only [if_neg hr, rankTimes]; rfl
        · exact herr _ h
      | mst => exact hrange _ h fun r he => timesOf_timed _ _ he
      | mstQueue => exact hrange _ h fun r he => timesOf_timed _ _ he

/-- A job that is measured: what it does not determine itself, what the clocks of the ranks say, and what they
print. -/
structure MeasuredJob where
  env : MpiEnv (XNum ℚ)
  t : Nat → Nat → XNum ℚ
  outs : List (BOut (XNum ℚ))

/-- all lines that are printed -/
def MeasuredJob.lines (j : MeasuredJob) : List (BLine (XNum ℚ)) := j.outs.flatMap (·.lines)

/-- **C104, measurements** The outputs of any number of successful jobs with the same arguments have been written to
one file, together with other lines that do not begin like a time, line by line and in any order.
`get_measurements` finds the times of all jobs: one for each rank of a job for nearest neighbour, the exact
algorithms and the minimum spanning trees (and a second one for each rank if nearest neighbour is followed by a
bound), but only those of the root for Christofides and the 1-tree bound. -/
theorem C104_measurements {readPy : List Char → Option (XNum ℚ)} (hp : PyFloat readPy) {fmt : XNum ℚ → List Char}
    (hf : Display fmt) {g : Graph (XNum ℚ)} {c : MpiCommand} {jobs : List MeasuredJob}
    (hj : ∀ j ∈ jobs, (∀ r k, DoubleVal (j.t r k)) ∧ @MpiBenchRuns _ binary64.ops j.env j.t g c j.outs ∧
      ∀ o ∈ j.outs, o.exit = .ok ())
    {others file : List (List Char)} (ho : ∀ l ∈ others, ¬"elapsed seconds: ".toList <+: l)
    (hfile : file.Perm (others ++ (jobs.flatMap (·.lines)).map (BLine.text fmt))) :
    ∃ vs, getMeasurements readPy "elapsed seconds: ".toList file = .ok vs ∧
      vs.Perm (jobs.flatMap fun j => (List.range j.env.size).flatMap fun r => rankTimes j.t r c) := by
  have hjob : ∀ j ∈ jobs, timesOf j.lines = (List.range j.env.size).flatMap fun r => rankTimes j.t r c := by
    intro j h
    obtain ⟨-, h2, h3⟩ := hj j h
    obtain ⟨k1, k2⟩ := @C104_ranks _ binary64.ops _ _ _ _ _ h2
    unfold MeasuredJob.lines timesOf
    rw [List.filterMap_flatMap]
    have : j.outs.map (fun o => timesOf o.lines) = (List.range j.env.size).map fun r => rankTimes j.t r c := by
      refine List.ext_getElem (by simp [k1]) fun r r1 r2 => ?_
      rw [List.getElem_map, List.getElem_map, List.getElem_range]
      rw [List.length_map] at r1
      exact k2 r _ (List.getElem?_eq_getElem r1) (h3 _ (List.getElem_mem r1))
    rw [List.flatMap_def, List.flatMap_def]
    exact congrArg List.flatten this
  have hdouble : ∀ j ∈ jobs, ∀ x ∈ timesOf j.lines, DoubleVal x := by
    intro j h x hx
    rw [hjob j h] at hx
    obtain ⟨r, -, hx⟩ := List.mem_flatMap.mp hx
    have hd := (hj j h).1
    have : ∃ r k, x = j.t r k := by
      unfold rankTimes at hx
      split at hx
      · exact ⟨_, _, List.mem_singleton.mp hx⟩
      · exact ⟨_, _, List.mem_singleton.mp hx⟩
      · rcases List.mem_cons.mp hx with hx | hx
        · exact ⟨_, _, hx⟩
        · exact ⟨_, _, List.mem_singleton.mp hx⟩
      · split at hx
        · exact ⟨_, _, List.mem_singleton.mp hx⟩
        · cases hx
      · split at hx
        · rcases List.mem_cons.mp hx with hx | hx
          · exact ⟨_, _, hx⟩
          · exact ⟨_, _, List.mem_singleton.mp hx⟩
        · cases hx
      · split at hx
        · exact ⟨_, _, List.mem_singleton.mp hx⟩
        · cases hx
      · exact ⟨_, _, List.mem_singleton.mp hx⟩
    obtain ⟨r, k, rfl⟩ := this
    exact hd r k
  obtain ⟨s, hs⟩ : ∃ s, "elapsed seconds: ".toList = 'e' :: s := ⟨_, rfl⟩
  have hpick := picks_time (s := s) hp hf (by rw [hs])
  rw [← hs] at hpick
  obtain ⟨vs, h1, h2⟩ := measurements_perm hpick (ls := jobs.flatMap (·.lines)) (fun b hb x hx => by
      obtain ⟨j, hj', hb⟩ := List.mem_flatMap.mp hb
      refine hdouble j hj' x ?_
      rw [timesOf_eq]
      exact List.mem_filterMap.mpr ⟨b, hb, hx⟩)
    (fun l hl => Bool.eq_false_iff.mpr fun h => ho l hl (List.isPrefixOf_iff_prefix.mp h)) hfile
  refine ⟨vs, h1, h2.trans (List.Perm.of_eq ?_)⟩
  rw [List.filterMap_flatMap, List.flatMap_def, List.flatMap_def]
  refine congrArg List.flatten (List.map_congr_left fun j h => ?_)
  rw [← timesOf_eq]
  exact hjob j h

/-- the length of a Christofides tour in a line -/
def lineWeight : Line α → Option α
  | .christofidesWeight x => some x
  | _ => none

theorem weightsOf_lines (ls : List (BLine α)) : weightsOf ls = (resultsOf ls).filterMap lineWeight := by
  induction ls with
  | nil => rfl
  | cons b ls ih =>
    cases b with
    | elapsed t => exact ih
    | result l =>
      cases l with
      | christofidesWeight x => exact congrArg (x :: ·) ih
      | bestCost x => exact ih
      | bestPermutation x => exact ih
      | nnWeight x => exact ih
      | nnTour x => exact ih
      | oneTreeBound x => exact ih
      | mstBound x => exact ih

theorem boundAfter_weights [FloatOps α] (env : MpiEnv α) (m : Mat α) (r : Nat) (lb : Option LowerBoundAlgorithm) :
    (mpiBoundAfter env m r lb).lines.filterMap lineWeight = [] := by
  have : ∀ b, (mpiMst env m r b).lines.filterMap lineWeight = [] := by
    intro b
    unfold mpiMst Out.print
    split <;> rfl
  cases lb with
  | none => rfl
  | some b =>
    cases b with
    | oneTree => rfl
    | mst => exact this false
    | mstQueue => exact this true

/-- **C104, lengths** The outputs of any number of successful jobs of `approx christofides` (with or without the
feature: the results are as in the model without it) are in one file, together with other lines. The
`get_measurements` of Christofides finds exactly the length that the root of each job has computed. -/
theorem C104_weights {readPy : List Char → Option (XNum ℚ)} (hp : PyFloat readPy) {fmt : XNum ℚ → List Char}
    (hf : Display fmt) {g : Graph (XNum ℚ)} {lb : Option LowerBoundAlgorithm} {jobs : List MeasuredJob}
    (hj : ∀ j ∈ jobs, j.env.Ok ∧ 1 ≤ j.env.size ∧
      @MpiRuns _ binary64.ops j.env g (.approx .christofides lb) (j.outs.map BOut.results) ∧
      ∀ o ∈ j.outs, o.exit = .ok ())
    {others file : List (List Char)} (ho : ∀ l ∈ others, ¬"Christofides solution weight: ".toList <+: l)
    (hfile : file.Perm (others ++ (jobs.flatMap (·.lines)).map (BLine.text fmt))) :
    ∃ vs ws, getMeasurements readPy "Christofides solution weight: ".toList file = .ok vs ∧ vs.Perm ws ∧
      List.Forall₂ (fun (j : MeasuredJob) w => @MpiRuns _ binary64.ops j.env g (.approx .christofides none)
        (@MpiEnv.rootAnd _ j.env ⟨[.christofidesWeight w], .ok ()⟩ ⟨[], .ok ()⟩)) jobs ws := by
  have key : ∀ j ∈ jobs, ∃ w, weightsOf j.lines = [w] ∧ DoubleVal w ∧
      @MpiRuns _ binary64.ops j.env g (.approx .christofides none)
        (@MpiEnv.rootAnd _ j.env ⟨[.christofidesWeight w], .ok ()⟩ ⟨[], .ok ()⟩) := by
    intro j h
    obtain ⟨h1, h2, h3, h4⟩ := hj j h
    have hno : ∀ e, j.outs.map BOut.results ≠ @MpiEnv.all _ j.env ⟨[], .error e⟩ := by
      intro e he
      have : (⟨[], .error e⟩ : Out (XNum ℚ)) ∈ j.outs.map BOut.results := by
        rw [he]; exact List.mem_replicate.mpr ⟨by omega, rfl⟩
      obtain ⟨o, ho, h⟩ := List.mem_map.mp this
      have := h4 o ho
      rw [show o.exit = (BOut.results o).exit from rfl, h] at this
      cases this
    have h3' := h3
    unfold MpiRuns at h3 ⊢
    split at h3
    · exact absurd h3 (hno _)
    · next m hm =>
      simp only [mpiApprox] at h3 ⊢
      split at h3
      · next r hr =>
        have hw : weightsOf j.lines = [r.1] := by
          have : j.outs.map (fun o => weightsOf o.lines) =
              (j.outs.map BOut.results).map fun o => o.lines.filterMap lineWeight := by
            rw [List.map_map]
            exact List.map_congr_left fun o _ => weightsOf_lines o.lines
          unfold MeasuredJob.lines
          rw [weightsOf_eq, List.filterMap_flatMap, List.flatMap_def]
          refine (congrArg List.flatten this).trans ?_
          rw [h3]
          unfold MpiEnv.rootAnd
          obtain ⟨n, hn⟩ : ∃ n, j.env.size = n + 1 := ⟨j.env.size - 1, by omega⟩
          rw [hn, List.range_succ_eq_map, List.map_map, List.map_cons, List.flatten_cons, List.map_map]
          have hz : ((List.range n).map (((fun o : Out (XNum ℚ) => o.lines.filterMap lineWeight) ∘ fun r_1 =>
              if r_1 = 0 then
                (Out.andThen ⟨[Line.christofidesWeight r.1], .ok ()⟩ (@mpiBoundAfter _ binary64.ops j.env m 0 lb))
              else ⟨[], .ok ()⟩) ∘ Nat.succ)).flatten = [] := by
            rw [List.flatten_eq_nil_iff]
            intro l hl
            obtain ⟨k, -, rfl⟩ := List.mem_map.mp hl
            rfl
          rw [hz, List.append_nil]
          have := @boundAfter_weights _ binary64.ops j.env m 0 lb
          simp only [Function.comp, if_true, Out.andThen]
          rw [List.filterMap_append, this]
          rfl
        refine ⟨r.1, hw, ?_, ?_⟩
        · have hmem : r.1 ∈ weightsOf j.lines := by rw [hw]; simp
          rw [weightsOf_lines] at hmem
          obtain ⟨l, hl, hx⟩ := List.mem_filterMap.mp hmem
          obtain ⟨b, hb, hbl⟩ := List.mem_filterMap.mp hl
          obtain ⟨o, ho, hbo⟩ := List.mem_flatMap.mp hb
          refine (C99_numbers h1 h3' (List.mem_map.mpr ⟨o, ho, rfl⟩) (l := l)
            (List.mem_filterMap.mpr ⟨b, hbo, hbl⟩) ?_).1
          cases l <;> first | (cases hx; rfl) | cases hx
        · rfl
      · exact absurd h3 (hno _)
  choose! w hw1 hw2 hw3 using key
  obtain ⟨s, hs⟩ : ∃ s, "Christofides solution weight: ".toList = 'C' :: s := ⟨_, rfl⟩
  have hpick := picks_weight (s := s) hp hf (by rw [hs])
  rw [← hs] at hpick
  obtain ⟨vs, h1, h2⟩ := measurements_perm hpick (ls := jobs.flatMap (·.lines)) (fun b hb x hx => by
      obtain ⟨j, hj', hb⟩ := List.mem_flatMap.mp hb
      have : x ∈ weightsOf j.lines := List.mem_filterMap.mpr ⟨b, hb, hx⟩
      rw [hw1 j hj', List.mem_singleton] at this
      rw [this]
      exact hw2 j hj')
    (fun l hl => Bool.eq_false_iff.mpr fun h => ho l hl (List.isPrefixOf_iff_prefix.mp h)) hfile
  refine ⟨vs, jobs.map w, h1, h2.trans (List.Perm.of_eq ?_), ?_⟩
  · rw [List.filterMap_flatMap, List.flatMap_def]
    have : jobs.map (fun j => j.lines.filterMap pickWeight) = jobs.map fun j => [w j] :=
      List.map_congr_left fun j h => hw1 j h
    rw [this]
    clear * -
    induction jobs with
    | nil => rfl
    | cons j jobs ih => rw [List.map_cons, List.flatten_cons, ih]; rfl
  · clear hfile h2 hw1 hw2 hj
    induction jobs with
    | nil => exact .nil
    | cons j jobs ih => exact .cons (hw3 j (by simp)) (ih fun j h => hw3 j (by simp [h]))

/-- a file with the outputs of two jobs on two ranks -/
example : getMeasurements readF64 "elapsed seconds: ".toList
    ["run 1/2\n".toList, "Nearest Neighbour solution weight: 4\n".toList, "elapsed seconds: 0.5\n".toList,
      "Nearest Neighbour solution: [0, 1, 2]\n".toList, "elapsed seconds: 0.25\n".toList, "run 2/2\n".toList,
      "elapsed seconds: 2\n".toList, "elapsed seconds: 1e-3\n".toList] =
    .ok [.fin (1 / 2), .fin (1 / 4), .fin 2, round64 (1 / 1000)] := by decide +kernel

end Walky.Props
