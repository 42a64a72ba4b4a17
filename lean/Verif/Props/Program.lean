import Verif.Lemmas.Output
import Verif.Props.Parser
import Verif.Props.Generated
import Verif.Props.RobustCli

/-! # Properties C95 – C97: the program from its arguments and the input file to its output -/

namespace Walky.Props

open FloatOps XNum Spec

variable {α : Type}

/-! ## C96 -/

/-- **C96** The arguments are understood exactly if they say which command to run on which file: the name of
the subcommand, then the algorithm and the path in this order, and anywhere between them the options of the
subcommand in any order and spelling, each at most once, with the name of a value. Options that are missing
have their defaults. -/
theorem C96_arguments {args : List (List Char)} {cmd : Command} {path : List Char} :
    parseArgs args = some (cmd, path) ↔ CommandLine args cmd path := parseArgs_iff

/-- **C96, unambiguous** Arguments have at most one meaning. -/
theorem C96_unique {args : List (List Char)} {cmd cmd' : Command} {path path' : List Char}
    (h : CommandLine args cmd path) (h' : CommandLine args cmd' path') : cmd = cmd' ∧ path = path' := by
  have := parseArgs_iff.mpr h
  rw [parseArgs_iff.mpr h'] at this
  obtain ⟨h1, h2⟩ := Prod.mk.inj (Option.some.inj this)
  exact ⟨h1.symm, h2.symm⟩

/-- `walky approx -l mst nearest-neighbour --parallelism=multi-threaded f` -/
example : parseArgs ["approx".toList, "-l".toList, "mst".toList, "nearest-neighbour".toList,
    "--parallelism=multi-threaded".toList, "f".toList] =
    some (.approx .nearestNeighbour .multiThreaded (some .mst), "f".toList) := by decide +kernel

/-- `walky exact v3 -- -f` -/
example : parseArgs ["exact".toList, "v3".toList, "--".toList, "-f".toList] =
    some (.exact .v3 .singleThreaded, "-f".toList) := by decide +kernel

/-- an option twice; an option of another subcommand; no path -/
example : parseArgs ["exact".toList, "v3".toList, "-pmulti-threaded".toList, "-pmulti-threaded".toList, "f".toList] =
    none ∧ parseArgs ["exact".toList, "v3".toList, "-l".toList, "mst".toList, "f".toList] = none ∧
    parseArgs ["exact".toList, "v3".toList] = none := by decide +kernel

/-! ## C97 -/

/-- **C97** The text on stdout determines its lines: no two outputs with different numbers, tours or lines look
the same. (`Display` is the contract of printing doubles with `{}`.) -/
theorem C97_output {fmt : XNum ℚ → List Char} (hf : Display fmt) {l k : List (Line (XNum ℚ))}
    (hl : ∀ a ∈ l, ∀ x, a.number = some x → DoubleVal x) (hk : ∀ a ∈ k, ∀ x, a.number = some x → DoubleVal x)
    (h : outputText fmt l = outputText fmt k) : l = k := lines_of_text hf hl hk h

/-- **C97, doubles** In double precision every number in the output is a double or a special value, so that
C97 applies, and the numbers that a program reads from the output are the numbers that walky has
computed. -/
theorem C97_numbers {env : Env (XNum ℚ)} (henv : env.Ok) {g : Graph (XNum ℚ)} {cmd : Command}
    {lines : List (Line (XNum ℚ))} (hr : @Runs _ binary64.ops env g cmd (.ok lines)) {l : Line (XNum ℚ)}
    (hl : l ∈ lines) {x : XNum ℚ} (hx : l.number = some x) :
    DoubleVal x ∧ ∀ fmt, Display fmt → readF64 (fmt x) = some x := by
  have := @runs_closed _ binary64.ops _ double_closed env henv.oneTreeShape henv.nnShape g cmd lines hr l hl x hx
  exact ⟨this, fun fmt hf => readF64_displayed hf this⟩

/-- a line -/
example : lineText (fun _ => "1.5".toList) (Line.nnWeight (1 : Nat)) ++
    lineText (fun _ => "1.5".toList) (Line.nnTour (α := Nat) [2, 0, 10]) =
    "Nearest Neighbour solution weight: 1.5\nNearest Neighbour solution: [2, 0, 10]\n".toList := by
  decide +kernel

/-! ## C95 -/

/-- **C95** A run of the program with arguments that are no request for help. Wrong arguments: nothing is
printed. Otherwise the arguments say which command to run on which file. If it cannot be read, or is not a
document that encodes an instance (and not outside of the model of the parser), nothing is printed and the
program fails. If it is a document that encodes an instance which violates `do_conditions_hold`, nothing is printed
and the program panics. If it is a document that encodes an accepted instance, the outcome is an outcome of the
command on the graph of this instance, and no error other than a panic occurs. -/
theorem C95_program [FloatOps α] {readF : List Char → Option α} {fmt : α → List Char} {env : Env α}
    {files : List Char → Option (List Char)} {args : List (List Char)} {stdout : List Char} {exit : Exit}
    (hh : ¬HelpRequest args) (h : ProgramRuns readF fmt env files args stdout exit) :
    ((¬∃ cmd path, CommandLine args cmd path) → stdout = [] ∧ exit = .usage) ∧
    ∀ cmd path, CommandLine args cmd path →
      (files path = none → stdout = [] ∧ exit = .failure) ∧
      ∀ s, files path = some s →
        (parseFromXml readF s ≠ .unmodelled ∨ (∃ x, Document x s ∧ NoMixed x) →
          (∀ x i, Document x s → ¬Encodes readF x i) → stdout = [] ∧ exit = .failure) ∧
        ∀ x i, Document x s → Encodes readF x i →
          (doConditionsHold i.graph ≠ .ok true → stdout = [] ∧ ∃ e, exit = .panic e) ∧
          (doConditionsHold i.graph = .ok true → ∃ out, Runs env i.graph cmd out ∧
            (∀ lines, out = .ok lines → stdout = outputText fmt lines ∧ exit = .success) ∧
            ∀ e, out = .error e → exit = .panic e) := by
  have h := h (asksHelp_iff.mpr hh)
  constructor
  · intro hno
    cases hp : parseArgs args with
    | none => rw [hp] at h; exact h
    | some r => exact absurd ⟨r.1, r.2, parseArgs_iff.mp hp⟩ hno
  · intro cmd path hcl
    rw [parseArgs_iff.mpr hcl] at h
    simp only [FileRuns] at h
    constructor
    · intro hn
      rw [hn] at h
      exact h
    · intro s hs
      rw [hs] at h
      simp only at h
      obtain ⟨c1, c2, c3⟩ := C91_texts (readF := readF) (s := s)
      constructor
      · intro hm hno
        rw [(c3 ?_).mpr hno] at h
        · exact h
        · rcases hm with hm | ⟨x, hx, hm⟩
          · exact hm
          · rw [((C91_parse (readF := readF) hx).2.2 hm).mpr fun i => hno x i hx]
            exact fun e => by cases e
      · intro x i hx hi
        constructor
        · intro hd
          obtain ⟨e, he⟩ := c2.mpr ⟨x, i, hx, hi, hd⟩
          rw [he] at h
          exact ⟨h.1, e, h.2⟩
        · intro hd
          rw [(c1 i).mpr ⟨⟨x, hx, hi⟩, hd⟩] at h
          obtain ⟨out, h1, h2⟩ := prints_out h
          refine ⟨out, h1, ?_, ?_⟩
          · rintro lines rfl; rw [outputText_eq]; exact h2
          · rintro e rfl; exact h2

/-- the output of `walky exact` -/
def exactText (cost : List Char) (tour : List Nat) : List Char :=
  "Best Cost: ".toList ++ cost ++ "\nBest Permutation: ".toList ++ tourText tour ++ "\n".toList

theorem exactText_eq (fmt : α → List Char) (x : α) (q : List Nat) :
    outputText fmt [Line.bestCost x, .bestPermutation q] = exactText (fmt x) q := by
  have e : ∀ (a b b' t p : List Char), b' = '\n' :: b →
      (a ++ t) ++ '\n' :: ((b ++ p) ++ ['\n']) = a ++ t ++ b' ++ p ++ ['\n'] := by
    rintro a b _ t p rfl
    simp
  exact e _ _ _ (fmt x) (tourText q) (by decide +kernel)

/-- the program on a file that contains a good instance -/
theorem program_good {s : Nat} (hs : s ≤ 2 ^ 40) {fmt : XNum ℚ → List Char} (hf : Display fmt) {text : List Char}
    {i : Instance (XNum ℚ)} (hi : @parseFromXml _ binary64.ops readF64 text = .ok i) {d : Nat → Nat → ℝ}
    (h : GoodInstance s i.graph d) (hn : 3 ≤ i.graph.length) (hsize : i.graph.length ≤ 2 ^ 25)
    {opt : ℝ} (hopt : (∃ p, IsTour i.graph.length p ∧ tourCost d p = opt) ∧
      ∀ p, IsTour i.graph.length p → opt ≤ tourCost d p)
    {env : Env (XNum ℚ)} {files : List Char → Option (List Char)} {args : List (List Char)} {path : List Char}
    {cmd : Command} (henv : env.Ok) (hfile : files path = some text) (hh : ¬HelpRequest args)
    (hcl : CommandLine args cmd path) :
    (∃ stdout exit, @ProgramRuns _ binary64.ops readF64 fmt env files args stdout exit) ∧
    ∀ stdout exit, @ProgramRuns _ binary64.ops readF64 fmt env files args stdout exit →
      ((∀ lb, cmd ≠ .approx .christofides .multiThreaded lb) → exit = .success) ∧
      (exit = .success ∨ ∃ e, exit = .panic e) ∧
      (exit = .success → ∃ lines : List (Line (XNum ℚ)), stdout = outputText fmt lines ∧
        ∀ l ∈ lines, (@Trusted _ binary64.ops env i.graph cmd l → NearLine s i.graph.length opt l) ∧
          ∀ x, l.number = some x → readF64 (fmt x) = some x) ∧
      ∀ a p, cmd = .exact a p →
        ∃ t q w, stdout = exactText t q ∧ readF64 t = some (.fin w) ∧
          ExactNear i.graph.length d env.hash a p w q ∧
          (a ∈ [ExactAlgorithm.v0, .v1] → p = .singleThreaded →
            |(w : ℝ) - tourCost d q| ≤ ((growth (i.graph.length + s) : ℚ) - 1) * tourCost d q ∧
            (2 - (growth (i.graph.length + s) : ℚ)) * opt ≤ (w : ℝ) ∧
            (w : ℝ) ≤ (growth (i.graph.length + s) : ℚ) * opt) := by
  have hprog : ∀ stdout exit, @ProgramRuns _ binary64.ops readF64 fmt env files args stdout exit ↔
      @FileRuns _ binary64.ops readF64 fmt env (some text) cmd stdout exit := by
    intro stdout exit
    unfold ProgramRuns
    rw [parseArgs_iff.mpr hcl, asksHelp_iff.mpr hh]
    simp only [hfile, forall_const]
  simp only [hprog, FileRuns, hi]
  constructor
  · exact @prints_exists _ binary64.ops _ _ _ _ (C100_outcome (R := binary64) h.acc (by omega) henv cmd)
  intro stdout exit hpr
  obtain ⟨out, hout, hrun⟩ := @prints_out _ binary64.ops _ _ _ _ _ _ hpr
  obtain ⟨⟨opt', o1, o2, -⟩, s3⟩ := success_good hs h hn hsize
  have e : opt' = opt := by
    obtain ⟨⟨p, hp, rfl⟩, hmin⟩ := o1
    obtain ⟨⟨p', hp', rfl⟩, hmin'⟩ := hopt
    exact le_antisymm (hmin p' hp') (hmin' p hp)
  rw [e] at o2
  obtain ⟨o3, o4⟩ := o2 env henv
  refine ⟨?_, ?_, ?_, ?_⟩
  · intro hcmd
    obtain ⟨lines, rfl⟩ := (s3 env henv cmd hcmd).2 out hout
    exact hrun.2
  · cases out with
    | ok lines => exact Or.inl hrun.2
    | error e => exact Or.inr ⟨e, hrun⟩
  · intro hex
    cases out with
    | error e => simp only at hrun; rw [hrun] at hex; cases hex
    | ok lines =>
      exact ⟨lines, hrun.1.trans (outputText_eq fmt lines).symm, fun l hl => ⟨o3 cmd lines hout l hl, fun x hx =>
        (C97_numbers henv hout hl hx).2 fmt hf⟩⟩
  · rintro a p rfl
    obtain ⟨q, w, rfl, hnear⟩ := (exact_good h hn hsize env henv.cpus a p).2 out hout
    refine ⟨fmt (.fin w), q, w, ?_, ?_, hnear, ?_⟩
    · rw [hrun.1, ← outputText_eq, exactText_eq]
    · exact (C97_numbers henv hout (l := .bestCost (.fin w)) (by simp) rfl).2 fmt hf
    · rintro ha rfl
      obtain ⟨q', w', e, -, w2, w3, w4⟩ := o4 a ha _ hout
      have e := Except.ok.inj e
      simp only [List.cons.injEq, Line.bestCost.injEq, XNum.fin.injEq, Line.bestPermutation.injEq, and_true] at e
      obtain ⟨rfl, rfl⟩ := e
      exact ⟨w2, w3, w4⟩

/-- **C95, generated instances (partial)** The input file is what `gen_matrix_fast` prints, whatever random
numbers it draws, for at least three and at most `2 ^ 25` points. There is a length `opt` of a shortest tour for
the true Euclidean distances of the points, and for every command line with this file, all random numbers and
schedules:
* The program has an outcome.
* If two points are equal, walky prints nothing and fails or panics.
* Otherwise every command succeeds (except, perhaps, `approx christofides` on several threads); a run that is
  successful prints lines as described in `NearLine`, whose numbers can be read from the text; nothing is claimed
  about the value of a Christofides length on several threads in a release build whose matching
  repeats an edge (`Trusted`).
* `walky exact` with v0 or v1 on one thread prints a tour and a number, which are optimal up to the relative
  rounding errors of C88; with all other algorithms and several threads they are as described in `ExactNear`.
Missing: that `approx christofides` succeeds on several threads and prints the length of a tour, which is false in
general (`C41_par_can_hang`, `C41_par_release_wrong`). -/
theorem C95_generated_partial {fmt : XNum ℚ → List Char} (hf : Display fmt) (ks : List (Nat × Nat))
    (hk : ∀ k ∈ ks, k.1 < 2 ^ 53 ∧ k.2 < 2 ^ 53) (hn : 3 ≤ ks.length) (hsize : ks.length ≤ 2 ^ 25) :
    ∃ pts : List (ℚ × ℚ), randomPoints ks = finPoints pts ∧ pts.length = ks.length ∧
    ∃ opt, ((∃ p, IsTour ks.length p ∧ tourCost (pointsDist pts) p = opt) ∧
        ∀ p, IsTour ks.length p → opt ≤ tourCost (pointsDist pts) p) ∧
      ∀ (env : Env (XNum ℚ)) (files : List Char → Option (List Char)) args path cmd, env.Ok →
      files path = some (@genXml _ binary64.ops fmt (@genMatrix _ binary64.ops sqrt64 (randomPoints ks))) →
      ¬HelpRequest args → CommandLine args cmd path →
      (∃ stdout exit, @ProgramRuns _ binary64.ops readF64 fmt env files args stdout exit) ∧
      ∀ stdout exit, @ProgramRuns _ binary64.ops readF64 fmt env files args stdout exit →
      (¬pts.Nodup → stdout = [] ∧ (exit = .failure ∨ ∃ e, exit = .panic e)) ∧
      (pts.Nodup →
        ((∀ lb, cmd ≠ .approx .christofides .multiThreaded lb) → exit = .success) ∧
        (exit = .success ∨ ∃ e, exit = .panic e) ∧
        (exit = .success → ∃ lines : List (Line (XNum ℚ)), stdout = outputText fmt lines ∧
          ∀ l ∈ lines, (@Trusted _ binary64.ops env
            (@genGraph _ binary64.ops (@genMatrix _ binary64.ops sqrt64 (randomPoints ks))) cmd l →
            NearLine 8 ks.length opt l) ∧ ∀ x, l.number = some x → readF64 (fmt x) = some x) ∧
        ∀ a p, cmd = .exact a p →
          ∃ t q w, stdout = exactText t q ∧ readF64 t = some (.fin w) ∧
            ExactNear ks.length (pointsDist pts) env.hash a p w q ∧
            (a ∈ [ExactAlgorithm.v0, .v1] → p = .singleThreaded →
              |(w : ℝ) - tourCost (pointsDist pts) q| ≤
                ((growth (ks.length + 8) : ℚ) - 1) * tourCost (pointsDist pts) q ∧
              (2 - (growth (ks.length + 8) : ℚ)) * opt ≤ (w : ℝ) ∧
              (w : ℝ) ≤ (growth (ks.length + 8) : ℚ) * opt)) := by
  obtain ⟨pts, h1, h2, -, h4, -, h6⟩ := C92_generator hf ks hk (hsize.trans (by decide))
  obtain ⟨pts', k1, k2, k3⟩ := C88_generated_partial ks hk hn (hsize.trans (by decide))
  obtain ⟨pts1, r1, r2, r3⟩ := C98_exact_generated ks hk hn hsize
  obtain ⟨pts2, s1, s2, s3⟩ := C98_success_generated ks hk hn hsize
  have hpts : ∀ l : List (ℚ × ℚ), randomPoints ks = finPoints l → l = pts := by
    intro l hl
    rw [h1] at hl
    refine (List.map_injective_iff.mpr ?_ hl).symm
    rintro ⟨a, b⟩ ⟨c, d⟩ h
    obtain ⟨e1, e2⟩ := Prod.mk.inj h
    exact Prod.ext (XNum.fin.inj e1) (XNum.fin.inj e2)
  rw [hpts _ k1] at k3
  rw [hpts _ r1] at r3
  rw [hpts _ s1] at s3
  obtain ⟨q0, hq0⟩ := exists_shortest (pointsDist pts) ks.length
  refine ⟨pts, h1, h2, tourCost (pointsDist pts) q0, ⟨⟨q0, hq0.1, rfl⟩, hq0.2⟩, ?_⟩
  intro env files args path cmd henv hfile hh hcl
  have hprog : ∀ stdout exit, @ProgramRuns _ binary64.ops readF64 fmt env files args stdout exit ↔
      @FileRuns _ binary64.ops readF64 fmt env (some (@genXml _ binary64.ops fmt
        (@genMatrix _ binary64.ops sqrt64 (randomPoints ks)))) cmd stdout exit := by
    intro stdout exit
    unfold ProgramRuns
    rw [parseArgs_iff.mpr hcl, asksHelp_iff.mpr hh]
    simp only [hfile, forall_const]
  simp only [hprog, FileRuns]
  by_cases hnd : pts.Nodup
  swap
  · rcases h6 hnd with he | ⟨e, he⟩
    · rw [he]
      exact ⟨⟨_, _, rfl, rfl⟩, fun stdout exit hrun =>
        ⟨fun _ => ⟨hrun.1, Or.inl hrun.2⟩, fun h => absurd h hnd⟩⟩
    · rw [he]
      exact ⟨⟨_, _, rfl, rfl⟩, fun stdout exit hrun =>
        ⟨fun _ => ⟨hrun.1, Or.inr ⟨e, hrun.2⟩⟩, fun h => absurd h hnd⟩⟩
  rw [h4 (by omega) hnd]
  simp only
  have hg : (genInstance (@genGraph _ binary64.ops (@genMatrix _ binary64.ops sqrt64 (randomPoints ks)))).graph =
      @genGraph _ binary64.ops (@genMatrix _ binary64.ops sqrt64 (randomPoints ks)) := rfl
  rw [hg]
  constructor
  · have hlen : (@genGraph _ binary64.ops (@genMatrix _ binary64.ops sqrt64 (randomPoints ks))).length =
        ks.length := by
      have := @genGraph_length _ binary64.ops sqrt64 (randomPoints ks)
      rw [this, h1]
      simp [finPoints, h2]
    exact @prints_exists _ binary64.ops _ _ _ _ (C100_outcome (R := binary64)
      (((@C91_texts _ binary64.ops _ _).1 _).mp (h4 (by omega) hnd)).2 (by rw [hg, hlen]; omega) henv cmd)
  intro stdout exit hpr
  obtain ⟨out, hout, hrun⟩ := @prints_out _ binary64.ops _ _ _ _ _ _ hpr
  refine ⟨fun h => absurd hnd h, fun _ => ?_⟩
  obtain ⟨⟨opt, o1, o2, -⟩, -⟩ := k3 hnd
  have hlen : (@genGraph _ binary64.ops (@genMatrix _ binary64.ops sqrt64 (randomPoints ks))).length =
      ks.length := by
    have := @genGraph_length _ binary64.ops sqrt64 (randomPoints ks)
    rw [this, h1]
    simp [finPoints, h2]
  rw [hlen] at o1 o2
  have hopt : opt = tourCost (pointsDist pts) q0 := by
    obtain ⟨⟨p, hp, rfl⟩, hmin⟩ := o1
    exact le_antisymm (hmin q0 hq0.1) (hq0.2 p hp)
  rw [← hopt]
  obtain ⟨o3, o4⟩ := o2 env henv
  refine ⟨?_, ?_, ?_, ?_⟩
  · intro hcmd
    obtain ⟨lines, rfl⟩ := (s3 hnd env henv cmd hcmd).2 out hout
    exact hrun.2
  · cases out with
    | ok lines => exact Or.inl hrun.2
    | error e => exact Or.inr ⟨e, hrun⟩
  · intro hex
    cases out with
    | error e => simp only at hrun; rw [hrun] at hex; cases hex
    | ok lines =>
      exact ⟨lines, hrun.1.trans (outputText_eq fmt lines).symm, fun l hl => ⟨o3 cmd lines hout l hl, fun x hx =>
        (C97_numbers henv hout hl hx).2 fmt hf⟩⟩
  · rintro a p rfl
    obtain ⟨q, w, rfl, hnear⟩ := (r3 hnd env henv.cpus a p).2 out hout
    refine ⟨fmt (.fin w), q, w, ?_, ?_, hnear, ?_⟩
    · rw [hrun.1, ← outputText_eq, exactText_eq]
    · exact (C97_numbers henv hout (l := .bestCost (.fin w)) (by simp) rfl).2 fmt hf
    · rintro ha rfl
      obtain ⟨q', w', e, -, w2, w3, w4⟩ := o4 a ha _ hout
      have e := Except.ok.inj e
      simp only [List.cons.injEq, Line.bestCost.injEq, XNum.fin.injEq, Line.bestPermutation.injEq, and_true] at e
      obtain ⟨rfl, rfl⟩ := e
      exact ⟨w2, w3, w4⟩

/-! ## C100 -/

/-- **C100** (program) Any arithmetic, arguments and files. The program always has an outcome. If the file is a
document that encodes an accepted instance, whatever its numbers are, every run of `walky exact` on it ends
successfully and prints a number, that is not NaN, and either a tour of all cities or nothing – then the number
is infinity. -/
theorem C100_program {K : Type} [Field K] [LinearOrder K] {R : Rounding K} {readF : List Char → Option (XNum K)}
    {fmt : XNum K → List Char} {env : Env (XNum K)} (henv : env.Ok) (files : List Char → Option (List Char))
    (args : List (List Char)) :
    (∃ stdout exit, @ProgramRuns _ R.ops readF fmt env files args stdout exit) ∧
    ∀ stdout exit, @ProgramRuns _ R.ops readF fmt env files args stdout exit → ¬HelpRequest args →
      ∀ a p path s x i, CommandLine args (.exact a p) path → files path = some s → Document x s →
        Encodes readF x i → @doConditionsHold _ R.ops i.graph = .ok true →
        exit = .success ∧ ∃ v q, stdout = outputText fmt [.bestCost v, .bestPermutation q] ∧ v ≠ .nan ∧
          ((q = [] ∧ v = .inf) ∨ IsTour i.graph.length q) := by
  have hlen : ∀ {x : Xml} {i : Instance (XNum K)}, Encodes readF x i → 1 ≤ i.graph.length := by
    rintro x i ⟨_, _, _, -, -, -, -, -, -, -, y, -, tag, attrs, ch, -, hne, h⟩
    rw [← h.length_eq]
    exact List.length_pos_iff.mpr hne
  constructor
  · unfold ProgramRuns
    cases hh : asksHelp args with
    | true => exact ⟨[], .success, by simp⟩
    | false =>
      simp only [forall_const]
      cases hp : parseArgs args with
      | none => exact ⟨_, _, rfl, rfl⟩
      | some r =>
        simp only [FileRuns]
        cases hf : files r.2 with
        | none => exact ⟨_, _, rfl, rfl⟩
        | some text =>
          simp only
          cases hx : @parseFromXml _ R.ops readF text with
          | err => exact ⟨_, _, rfl, rfl⟩
          | panic e => exact ⟨_, _, rfl, rfl⟩
          | unmodelled => exact ⟨[], .success, trivial⟩
          | ok i =>
            obtain ⟨⟨x, -, hi⟩, hacc⟩ := ((@C91_texts _ R.ops _ _).1 _).mp hx
            exact @prints_exists _ R.ops _ _ _ _ (C100_outcome hacc (hlen hi) henv r.1)
  · intro stdout exit hrun hh a p path s x i hcl hs hx hi hacc
    obtain ⟨out, h1, h2, -⟩ :=
      ((((@C95_program _ R.ops readF fmt env files args stdout exit hh hrun).2 _ _ hcl).2 s hs).2 x i hx hi).2 hacc
    obtain ⟨v, q, rfl, k⟩ := (C100_exact hacc (hlen hi) henv a p).2 out h1
    obtain ⟨e1, e2⟩ := h2 _ rfl
    exact ⟨e2, v, q, e1, k⟩

/-- a file with infinite costs, which is accepted -/
example : @parseFromXml _ binary64.ops readF64
      (pyXml (fun _ => "inf".toList) ([[.inf, .inf], [.inf, .inf]] : List (List (XNum ℚ)))) =
    .ok (genInstance [[⟨1, .inf⟩], [⟨0, .inf⟩]]) := by decide +kernel

end Walky.Props
