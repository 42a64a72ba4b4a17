import Verif.Model.Plot
import Verif.Lemmas.Sqrt64
import Verif.Props.Accuracy
import Verif.Props.Benchmark

/-!
# From the MPI jobs to the points of the plots (C119)
-/

set_option linter.unusedSectionVars false

namespace Walky.Props

open XNum Spec

variable {α : Type}

/-! ## Names of files -/

private theorem reLit_append (lit s : List Char) : reLit lit (lit ++ s) = some s := by
  unfold reLit
  rw [if_pos (List.isPrefixOf_iff_prefix.mpr (List.prefix_append _ _)), List.drop_left]

private theorem reLit_some {lit s t : List Char} (h : reLit lit s = some t) : s = lit ++ t := by
  unfold reLit at h
  split at h
  · next h1 =>
    obtain ⟨u, rfl⟩ := List.isPrefixOf_iff_prefix.mp h1
    rw [List.drop_left] at h
    rw [Option.some.inj h]
  · cases h

private theorem reInt_append {ds : List Char} (h0 : ds ≠ []) (hd : ∀ c ∈ ds, c.isDigit = true) {s : List Char}
    (hs : ∀ c ∈ s.head?, c.isDigit = false) : reInt (ds ++ s) = some (digitsValue ds, s) := by
  have h1 : s.takeWhile Char.isDigit = [] ∧ s.dropWhile Char.isDigit = s := by
    cases s with
    | nil => exact ⟨rfl, rfl⟩
    | cons c t =>
      have := hs c rfl
      simp [this]
  unfold reInt
  rw [List.takeWhile_append_of_pos hd, List.dropWhile_append_of_pos hd, h1.1, h1.2, List.append_nil,
    readDigits_ok h0 hd]

private theorem reInt_some {s t : List Char} {n : Nat} (h : reInt s = some (n, t)) :
    ∃ ds, s = ds ++ t ∧ ds ≠ [] ∧ (∀ c ∈ ds, c.isDigit = true) ∧ n = digitsValue ds := by
  unfold reInt at h
  split at h
  · next m hm =>
    obtain ⟨h1, h2, h3⟩ := readDigits_iff.mp hm
    have h4 := Prod.mk.inj (Option.some.inj h)
    refine ⟨s.takeWhile Char.isDigit, ?_, h1, h2, h4.1 ▸ h3⟩
    rw [← h4.2, List.takeWhile_append_dropWhile]
  · cases h

/-- A text of the form `output_⟨digits⟩_nodes_⟨digits⟩_taskspernode.txt`, and the two numbers. -/
def OutputName (s : List Char) (nodes tasks : Nat) : Prop :=
  ∃ ds es, s = "output_".toList ++ (ds ++ ("_nodes_".toList ++ (es ++ "_taskspernode.txt".toList))) ∧
    (ds ≠ [] ∧ ∀ c ∈ ds, c.isDigit = true) ∧ (es ≠ [] ∧ ∀ c ∈ es, c.isDigit = true) ∧
    nodes = digitsValue ds ∧ tasks = digitsValue es

private theorem matchName_iff {s : List Char} {n t : Nat} :
    matchName s = some (n, t) ↔ ∃ u v, s = u ++ v ∧ OutputName u n t := by
  constructor
  · intro h
    unfold matchName at h
    simp only [bind, Option.bind_eq_some_iff] at h
    obtain ⟨s1, h1, ⟨n', s2⟩, h2, s3, h3, ⟨t', s4⟩, h4, s5, h5, h6⟩ := h
    have h7 := Prod.mk.inj (Option.some.inj h6)
    simp only at h3 h5
    obtain ⟨ds, e2, d1, d2, d3⟩ := reInt_some h2
    obtain ⟨es, e4, f1, f2, f3⟩ := reInt_some h4
    refine ⟨_, s5, ?_, ds, es, rfl, ⟨d1, d2⟩, ⟨f1, f2⟩, h7.1 ▸ d3, h7.2 ▸ f3⟩
    rw [reLit_some h1, e2, reLit_some h3, e4, reLit_some h5]
    simp only [List.append_assoc]
  · rintro ⟨u, v, rfl, ds, es, rfl, ⟨d1, d2⟩, ⟨f1, f2⟩, rfl, rfl⟩
    unfold matchName
    simp only [List.append_assoc]
    rw [reLit_append]
    have e1 := reInt_append d1 d2 (s := "_nodes_".toList ++ (es ++ ("_taskspernode.txt".toList ++ v))) (by
      intro c hc
      have : c = '_' := (Option.some.inj hc).symm
      rw [this]; decide)
    have e2 := reInt_append f1 f2 (s := "_taskspernode.txt".toList ++ v) (by
      intro c hc
      have : c = '_' := (Option.some.inj hc).symm
      rw [this]; decide)
    simp only [bind, Option.bind_some, e1]
    rw [reLit_append]
    simp only [Option.bind_some, e2]
    rw [reLit_append]
    rfl

/-- **C119, names** A file is used exactly if its name contains a text of the form
`output_⟨digits⟩_nodes_⟨digits⟩_taskspernode.txt`, and its numbers are then those of such a text. -/
theorem C119_names (s : List Char) :
    (∀ n t, extractNodes s = some (n, t) → ∃ a u v, s = a ++ (u ++ v) ∧ OutputName u n t) ∧
    (extractNodes s = none → ∀ a u v n t, s = a ++ (u ++ v) → ¬OutputName u n t) := by
  induction s with
  | nil =>
    refine ⟨fun n t h => ?_, fun h a u v n t e hu => ?_⟩
    · obtain ⟨u, v, e, hu⟩ := matchName_iff.mp h
      exact ⟨[], u, v, e, hu⟩
    · have e' := List.append_eq_nil_iff.mp e.symm
      have := matchName_iff.mpr ⟨u, v, e'.2.symm, hu⟩
      rw [extractNodes] at h
      rw [h] at this
      cases this
  | cons c s ih =>
    rw [extractNodes]
    cases hm : matchName (c :: s) with
    | some r =>
      refine ⟨fun n t h => ?_, fun h => by cases h⟩
      rw [Option.some.inj h] at hm
      obtain ⟨u, v, e, hu⟩ := matchName_iff.mp hm
      exact ⟨[], u, v, e, hu⟩
    | none =>
      refine ⟨fun n t h => ?_, fun h a u v n t e hu => ?_⟩
      · obtain ⟨a, u, v, e, hu⟩ := ih.1 n t h
        exact ⟨c :: a, u, v, by rw [e]; rfl, hu⟩
      · cases a with
        | nil =>
          rw [matchName_iff.mpr ⟨u, v, e, hu⟩] at hm
          cases hm
        | cons d a => exact ih.2 h a u v n t (List.cons.inj e).2 hu

/-- **C119, names of the jobs** From the name of the file in which a job writes, the script reads the numbers of nodes
and of tasks per node of this job. -/
theorem C119_name_of_job (nodes tasks : Nat) : extractNodes (outputFile nodes tasks) = some (nodes, tasks) := by
  have h : matchName (outputFile nodes tasks) = some (nodes, tasks) := matchName_iff.mpr
    ⟨outputFile nodes tasks, [], by rw [List.append_nil], showUsize nodes, showUsize tasks, rfl,
      ⟨showUsize_ne _, fun c hc => showUsize_digit hc⟩, ⟨showUsize_ne _, fun c hc => showUsize_digit hc⟩,
      (digitsValue_showUsize _).symm, (digitsValue_showUsize _).symm⟩
  obtain ⟨c, s, e⟩ : ∃ c s, outputFile nodes tasks = c :: s := ⟨_, _, rfl⟩
  rw [e] at h ⊢
  rw [extractNodes, h]

/-- `re.search` also finds the form inside of other names; files of the other scripts are not used. -/
example : extractNodes "old-output_04_nodes_16_taskspernode.txt.bak".toList = some (4, 16) ∧
    extractNodes "output_4_nodes_taskspernode.txt".toList = none := by decide +kernel

/-! ## Medians -/

/-- At least half of the numbers are not above `x`, and at least half of them are not below `x`. -/
def IsMedian (l : List (XNum ℚ)) (x : XNum ℚ) : Prop :=
  l.length ≤ 2 * l.countP (fun y => XNum.le y x) ∧ l.length ≤ 2 * l.countP (fun y => XNum.le x y)

/-- a time that the clock can measure: a double, not too large -/
def IsTime (x : XNum ℚ) : Prop := ∃ q, x = fin q ∧ IsDouble q ∧ |q| ≤ pow2 1000

private theorem isDouble_double {x : ℚ} (h : IsDouble x) (hx : |x| ≤ pow2 1000) : IsDouble (2 * x) := by
  obtain ⟨z, q, e, h1, h2, -⟩ := h
  refine ⟨z, q + 1, ?_, h1, by omega, ?_⟩
  · rw [e, pow2_eq, pow2_eq, zpow_add_one₀ (by norm_num)]
    ring
  · rw [abs_mul, abs_of_pos (by norm_num : (0 : ℚ) < 2)]
    have e1 : pow2 1024 = 2 * (2 ^ 23 * pow2 1000) := by decide +kernel
    have := pow2_pos 1000
    rw [e1]
    nlinarith

/-- the mean of two doubles lies between them -/
private theorem mean64 {a b : ℚ} (ha : IsDouble a) (hb : IsDouble b) (ha' : |a| ≤ pow2 1000) (hb' : |b| ≤ pow2 1000)
    (hab : a ≤ b) : ∃ y, @FloatOps.half _ binary64.ops (@FloatOps.add _ binary64.ops (fin a) (fin b)) = fin y ∧
      a ≤ y ∧ y ≤ b := by
  have e1 : pow2 1023 = 2 ^ 23 * pow2 1000 := by decide +kernel
  have hp := pow2_pos 1000
  have hb1 : |a + b| ≤ pow2 1023 := by
    have := abs_add_le a b
    nlinarith
  obtain ⟨s, hs, -, -⟩ := round64_mixed hb1
  have h1 := round64_ge hs (isDouble_double ha ha') (by linarith)
  have h2 := round64_le hs (isDouble_double hb hb') (by linarith)
  have hb2 : |s / 2| ≤ pow2 1023 := by
    rw [abs_le] at ha' hb' ⊢
    constructor <;> nlinarith [ha'.1, hb'.2]
  obtain ⟨y, hy, -, -⟩ := round64_mixed hb2
  refine ⟨y, ?_, round64_ge hy ha (by linarith), round64_le hy hb (by linarith)⟩
  show @FloatOps.half _ binary64.ops (round64 (a + b)) = fin y
  rw [hs]
  exact hy

private theorem count_le {s : List ℚ} (hs : s.Pairwise (· ≤ ·)) {i : Nat} (hi : i < s.length) {y : ℚ}
    (hy : s[i] ≤ y) : i + 1 ≤ s.countP (· ≤ y) := by
  have h1 : (s.take (i + 1)).countP (· ≤ y) = i + 1 := by
    rw [List.countP_eq_length.mpr, List.length_take]
    · omega
    · intro a ha
      obtain ⟨j, hj, rfl⟩ := List.mem_iff_getElem.mp ha
      rw [List.length_take] at hj
      rw [List.getElem_take]
      have : s[j] ≤ s[i] := by
        rcases Nat.lt_or_ge j i with h | h
        · exact List.pairwise_iff_getElem.mp hs j i (by omega) hi h
        · have : j = i := by omega
          subst this; exact le_refl _
      simpa using this.trans hy
  calc i + 1 = _ := h1.symm
    _ ≤ _ := (List.take_sublist _ _).countP_le

private theorem count_ge {s : List ℚ} (hs : s.Pairwise (· ≤ ·)) {i : Nat} (hi : i < s.length) {y : ℚ}
    (hy : y ≤ s[i]) : s.length - i ≤ s.countP (y ≤ ·) := by
  have h1 : (s.drop i).countP (y ≤ ·) = s.length - i := by
    rw [List.countP_eq_length.mpr, List.length_drop]
    intro a ha
    obtain ⟨j, hj, rfl⟩ := List.mem_iff_getElem.mp ha
    rw [List.length_drop] at hj
    rw [List.getElem_drop]
    have : s[i] ≤ s[i + j] := by
      rcases Nat.eq_zero_or_pos j with h | h
      · subst h; exact le_refl _
      · exact List.pairwise_iff_getElem.mp hs i (i + j) hi (by omega) (by omega)
    simpa using hy.trans this
  calc s.length - i = _ := h1.symm
    _ ≤ _ := (List.drop_sublist _ _).countP_le

/-- **C119, medians** `statistics.median` of one or more times is a median. -/
theorem C119_median {sort : List (XNum ℚ) → List (XNum ℚ)} (hs : Sorts sort) {l : List (XNum ℚ)} (hl : l ≠ [])
    (ht : ∀ x ∈ l, IsTime x) : ∃ y, @pyMedian _ binary64.ops sort l = .ok (fin y) ∧ IsMedian l (fin y) := by
  obtain ⟨q, rfl, hq⟩ : ∃ q : List ℚ, l = q.map fin ∧ ∀ x ∈ q, IsDouble x ∧ |x| ≤ pow2 1000 := by
    clear hl
    induction l with
    | nil => exact ⟨[], rfl, by simp⟩
    | cons x l ih =>
      obtain ⟨q, rfl, hq⟩ := ih fun y hy => ht y (by simp [hy])
      obtain ⟨x, rfl, h⟩ := ht x (by simp)
      exact ⟨x :: q, rfl, by simpa using ⟨h, hq⟩⟩
  obtain ⟨s, h1, h2, h3⟩ := hs q
  have hpos : 0 < q.length := by
    rw [List.length_pos_iff]; rintro rfl; exact hl rfl
  have hlen := h2.length_eq
  have hcount : ∀ y, s.length ≤ 2 * s.countP (· ≤ y) → s.length ≤ 2 * s.countP (y ≤ ·) →
      IsMedian (q.map fin) (fin y) := by
    intro y k1 k2
    rw [h2.countP_eq, hlen] at k1
    rw [h2.countP_eq, hlen] at k2
    unfold IsMedian
    rw [List.length_map, List.countP_map, List.countP_map]
    exact ⟨k1, k2⟩
  have hidx : ∀ {i : Nat} (hi : i < s.length), idx (s.map fin) i = .ok (fin s[i]) := by
    intro i hi
    unfold idx
    rw [List.getElem?_map, List.getElem?_eq_getElem hi]
    rfl
  have hmem : ∀ {i : Nat} (hi : i < s.length), IsDouble s[i] ∧ |s[i]| ≤ pow2 1000 :=
    fun hi => hq _ (h2.mem_iff.mp (List.getElem_mem hi))
  unfold pyMedian
  rw [h1]
  simp only [List.length_map]
  rw [if_neg (by omega)]
  by_cases hodd : s.length % 2 = 1
  · have hi : s.length / 2 < s.length := by omega
    rw [if_pos hodd, hidx hi]
    refine ⟨_, rfl, hcount _ ?_ ?_⟩
    · have := count_le h3 hi (le_refl _); omega
    · have := count_ge h3 hi (le_refl _); omega
  · have hi : s.length / 2 - 1 < s.length := by omega
    have hj : s.length / 2 < s.length := by omega
    rw [if_neg hodd, hidx hi, hidx hj]
    obtain ⟨y, e, y1, y2⟩ := mean64 (hmem hi).1 (hmem hj).1 (hmem hi).2 (hmem hj).2
      (List.pairwise_iff_getElem.mp h3 _ _ hi hj (by omega))
    refine ⟨y, ?_, hcount _ ?_ ?_⟩
    · simp only [rm_bind_ok, rm_pure]
      rw [e]
    · have := count_le h3 hi y1; omega
    · have := count_ge h3 hj y2; omega

/-! ## Points -/

/-- A file in which the jobs of one of the scripts `slurm_*.sh` have written: the numbers in the script, the jobs that it
has started, other lines (like `run 3/10`), and all lines of the file. -/
structure BenchFile where
  nodes : Nat
  tasks : Nat
  runs : Nat
  jobs : List MeasuredJob
  others : List (List Char)
  lines : List (List Char)

/-- The script has started the jobs of its loop on its processes, all of them have been successful, and their outputs are
in the file, line by line and in any order. -/
structure BenchFile.Ok (fmt : XNum ℚ → List Char) (g : Graph (XNum ℚ)) (c : MpiCommand) (f : BenchFile) : Prop where
  started : f.jobs.length = (benchmarkRuns f.runs).length
  processes : 1 ≤ f.nodes ∧ 1 ≤ f.tasks ∧ ∀ j ∈ f.jobs, j.env.size = jobProcesses f.nodes f.tasks
  clock : ∀ j ∈ f.jobs, ∀ r k, IsTime (j.t r k)
  success : ∀ j ∈ f.jobs, @MpiBenchRuns _ binary64.ops j.env j.t g c j.outs ∧ ∀ o ∈ j.outs, o.exit = .ok ()
  noTime : ∀ l ∈ f.others, ¬"elapsed seconds: ".toList <+: l
  content : f.lines.Perm (f.others ++ (f.jobs.flatMap (·.lines)).map (BLine.text fmt))

/-- what the clocks of all ranks of all jobs have measured (for Christofides and the 1-tree bound: those of the roots) -/
def BenchFile.times (c : MpiCommand) (f : BenchFile) : List (XNum ℚ) :=
  f.jobs.flatMap fun j => (List.range (f.nodes * f.tasks)).flatMap fun r => rankTimes j.t r c

/-- the number of times that a job with `p` processes prints -/
def timesPerJob (p : Nat) : MpiCommand → Nat
  | .exact _ => p
  | .approx .nearestNeighbour none => p
  | .approx .nearestNeighbour (some _) => 2 * p
  | .approx .christofides none => 1
  | .approx .christofides (some _) => 2
  | .lowerBound .oneTree => 1
  | .lowerBound _ => p

private theorem length_rankTimes (t : Nat → Nat → α) (c : MpiCommand) (p : Nat) (hp : 1 ≤ p) :
    ((List.range p).flatMap fun r => rankTimes t r c).length = timesPerJob p c := by
  have hall : ∀ (f : Nat → List α) (k : Nat), (∀ r, (f r).length = k) →
      ((List.range p).flatMap f).length = k * p := by
    intro f k h
    rw [List.length_flatMap]
    simp only [h, List.map_const', List.sum_replicate, List.length_range, smul_eq_mul, mul_comm]
  have hroot : ∀ l : List α, ((List.range p).flatMap fun r => if r = 0 then l else []).length = l.length := by
    intro l
    obtain ⟨n, rfl⟩ : ∃ n, p = n + 1 := ⟨p - 1, by omega⟩
    rw [List.range_succ_eq_map, List.flatMap_cons, List.flatMap_map]
    simp
  rcases c with a | ⟨_ | _, _ | b⟩ | (_ | _ | _) <;> simp only [rankTimes, timesPerJob]
  all_goals first
    | exact hroot _
    | (rw [hall _ 1 fun _ => rfl]; omega)
    | (rw [hall _ 2 fun _ => rfl])

/-- **C119, number of measurements** The script starts one job more than `NUMBER_OF_BENCHMARK_RUNS`; each of them
contributes one time, or one time for each process. -/
theorem C119_number {fmt : XNum ℚ → List Char} {g : Graph (XNum ℚ)} {c : MpiCommand} {f : BenchFile}
    (h : f.Ok fmt g c) : (f.times c).length = (f.runs + 1) * timesPerJob (f.nodes * f.tasks) c := by
  unfold BenchFile.times
  rw [List.length_flatMap]
  have hp : 1 ≤ f.nodes * f.tasks := Nat.mul_pos h.processes.1 h.processes.2.1
  simp only [length_rankTimes _ c _ hp, List.map_const', List.sum_replicate, smul_eq_mul]
  rw [h.started, benchmarkRuns, List.length_range]

private theorem matchFile_none {readPy : List Char → Option α} {start : List Char} {acc : List ((Nat × Nat) × List α)}
    {file : List Char × List (List Char)} (h : extractNodes file.1 = none) :
    matchFile readPy start acc file = .ok acc := by
  unfold matchFile
  rw [h]
  rfl

private theorem matchFile_some {readPy : List Char → Option α} {start : List Char} {acc : List ((Nat × Nat) × List α)}
    {file : List Char × List (List Char)} {np : Nat × Nat} (h : extractNodes file.1 = some np) {vs : List α}
    (hv : getMeasurements readPy start file.2 = .ok vs) :
    matchFile readPy start acc file = .ok (acc ++ [(np, vs)]) := by
  unfold matchFile
  rw [h]
  simp only [hv, rm_bind_ok, rm_pure]

private theorem foldlM_files {readPy : List Char → Option α} {start : List Char}
    {F : List Char × List (List Char) → Option ((Nat × Nat) × List α)} (dir : List (List Char × List (List Char)))
    (acc : List ((Nat × Nat) × List α))
    (h : ∀ file ∈ dir, (extractNodes file.1 = none ∧ F file = none) ∨ ∃ np vs, extractNodes file.1 = some np ∧
      getMeasurements readPy start file.2 = .ok vs ∧ F file = some (np, vs)) :
    dir.foldlM (matchFile readPy start) acc = .ok (acc ++ dir.filterMap F) := by
  induction dir generalizing acc with
  | nil => simp [pure, Except.pure]
  | cons file dir ih =>
    rw [List.foldlM_cons]
    rcases h file (by simp) with ⟨h1, h2⟩ | ⟨np, vs, h1, h2, h3⟩
    · rw [matchFile_none h1, rm_bind_ok, ih _ fun x hx => h x (by simp [hx]), List.filterMap_cons_none h2]
    · rw [matchFile_some h1 h2, rm_bind_ok, ih _ fun x hx => h x (by simp [hx]), List.filterMap_cons_some h3,
        List.append_assoc]
      rfl

private theorem mapM_points {β γ : Type} {f : β → RM γ} {G : β → γ} {l : List β} (h : ∀ x ∈ l, f x = .ok (G x)) :
    l.mapM f = .ok (l.map G) := by
  induction l with
  | nil => rfl
  | cons x l ih =>
    rw [List.mapM_cons, h x (by simp), rm_bind_ok, ih fun y hy => h y (by simp [hy]), rm_bind_ok, rm_pure]
    rfl

private theorem sortPoints_perm (l : List (Nat × α)) : (sortPoints l).Perm l := List.mergeSort_perm _ _

private theorem sortPoints_sorted (l : List (Nat × α)) : (sortPoints l).Pairwise fun a b => a.1 ≤ b.1 := by
  have := List.pairwise_mergeSort (le := fun a b : Nat × α => decide (a.1 ≤ b.1))
    (fun a b c => by simp only [decide_eq_true_eq]; exact Nat.le_trans)
    (fun a b => by simpa using Nat.le_total a.1 b.1) l
  exact this.imp fun h => by simpa using h

private theorem IsMedian.perm {l k : List (XNum ℚ)} (h : l.Perm k) {x : XNum ℚ} (hx : IsMedian l x) : IsMedian k x := by
  unfold IsMedian at hx ⊢
  rw [← h.length_eq, ← h.countP_eq, ← h.countP_eq]
  exact hx

private theorem rankTimes_mem {t : Nat → Nat → α} {r : Nat} {c : MpiCommand} {x : α} (h : x ∈ rankTimes t r c) :
    ∃ r k, x = t r k := by
  unfold rankTimes at h
  split at h
  · exact ⟨_, _, List.mem_singleton.mp h⟩
  · exact ⟨_, _, List.mem_singleton.mp h⟩
  · rcases List.mem_cons.mp h with h | h
    · exact ⟨_, _, h⟩
    · exact ⟨_, _, List.mem_singleton.mp h⟩
  · split at h
    · exact ⟨_, _, List.mem_singleton.mp h⟩
    · cases h
  · split at h
    · rcases List.mem_cons.mp h with h | h
      · exact ⟨_, _, h⟩
      · exact ⟨_, _, List.mem_singleton.mp h⟩
    · cases h
  · split at h
    · exact ⟨_, _, List.mem_singleton.mp h⟩
    · cases h
  · exact ⟨_, _, List.mem_singleton.mp h⟩

/-- the measurements of a file -/
private theorem BenchFile.Ok.measure {readPy : List Char → Option (XNum ℚ)} (hp : PyFloat readPy)
    {fmt : XNum ℚ → List Char} (hf : Display fmt) {g : Graph (XNum ℚ)} {c : MpiCommand} {f : BenchFile}
    (h : f.Ok fmt g c) : ∃ vs, getMeasurements readPy "elapsed seconds: ".toList f.lines = .ok vs ∧
      vs.Perm (f.times c) := by
  obtain ⟨vs, h1, h2⟩ := C104_measurements hp hf (jobs := f.jobs) (g := g) (c := c)
    (fun j hj => ⟨fun r k q e => by
      obtain ⟨q', e', hd, -⟩ := h.clock j hj r k
      rw [e'] at e
      rw [← fin.inj e]
      exact hd, (h.success j hj).1, (h.success j hj).2⟩) h.noTime h.content
  refine ⟨vs, h1, h2.trans (List.Perm.of_eq ?_)⟩
  unfold BenchFile.times
  rw [List.flatMap_def, List.flatMap_def]
  refine congrArg List.flatten (List.map_congr_left fun j hj => ?_)
  rw [h.processes.2.2 j hj]
  rfl

private theorem BenchFile.Ok.isTime {fmt : XNum ℚ → List Char} {g : Graph (XNum ℚ)} {c : MpiCommand} {f : BenchFile}
    (h : f.Ok fmt g c) : ∀ x ∈ f.times c, IsTime x := by
  intro x hx
  obtain ⟨j, hj, hx⟩ := List.mem_flatMap.mp hx
  obtain ⟨r, -, hx⟩ := List.mem_flatMap.mp hx
  obtain ⟨r, k, rfl⟩ := rankTimes_mem hx
  exact h.clock j hj r k

private theorem BenchFile.Ok.ne {fmt : XNum ℚ → List Char} {g : Graph (XNum ℚ)} {c : MpiCommand} {f : BenchFile}
    (h : f.Ok fmt g c) : f.times c ≠ [] := by
  have h1 := C119_number h
  have hp : 1 ≤ f.nodes * f.tasks := Nat.mul_pos h.processes.1 h.processes.2.1
  have h2 : 1 ≤ timesPerJob (f.nodes * f.tasks) c := by
    unfold timesPerJob
    split <;> omega
  intro e
  rw [e] at h1
  have : 1 ≤ (f.runs + 1) * timesPerJob (f.nodes * f.tasks) c := Nat.mul_pos (by omega) h2
  rw [← h1] at this
  exact absurd this (by simp)

/-- **C119, points** The script finds in the directory the files of any number of successful benchmarks of a command, and
other files whose names it does not recognise, in any order. Then it draws for each benchmark a point above the number
of its processes, and the height of the point is a median of the times of the benchmark. The benchmarks with one
process per node are in the first curve, in the second one those with several processes per node, and a benchmark on one node is
always in the second one; so each benchmark is in a curve. The points of a curve are ordered by the number of
processes. -/
theorem C119_points {readPy : List Char → Option (XNum ℚ)} (hp : PyFloat readPy) {fmt : XNum ℚ → List Char}
    (hf : Display fmt) {sort : List (XNum ℚ) → List (XNum ℚ)} (hs : Sorts sort) {g : Graph (XNum ℚ)}
    {c : MpiCommand} {benchmarks : List BenchFile} (hb : ∀ f ∈ benchmarks, f.Ok fmt g c)
    {rest dir : List (List Char × List (List Char))} (hr : ∀ file ∈ rest, extractNodes file.1 = none)
    (hdir : dir.Perm (benchmarks.map (fun f => (outputFile f.nodes f.tasks, f.lines)) ++ rest)) :
    ∃ single multi, @plotPoints _ binary64.ops readPy sort "elapsed seconds: ".toList dir = .ok (single, multi) ∧
      single.Pairwise (fun a b => a.1 ≤ b.1) ∧ multi.Pairwise (fun a b => a.1 ≤ b.1) ∧
      ∃ height : BenchFile → ℚ, (∀ f ∈ benchmarks, IsMedian (f.times c) (fin (height f))) ∧
        single.Perm ((benchmarks.filter fun f => f.tasks = 1).map fun f => (f.nodes * f.tasks, fin (height f))) ∧
        multi.Perm ((benchmarks.filter fun f => f.nodes = 1 ∨ f.tasks ≠ 1).map fun f =>
          (f.nodes * f.tasks, fin (height f))) := by
  let F : List Char × List (List Char) → Option ((Nat × Nat) × List (XNum ℚ)) := fun file =>
    match extractNodes file.1, getMeasurements readPy "elapsed seconds: ".toList file.2 with
    | some np, .ok vs => some (np, vs)
    | _, _ => none
  let vs : BenchFile → List (XNum ℚ) := fun f =>
    match getMeasurements readPy "elapsed seconds: ".toList f.lines with
    | .ok vs => vs
    | .error _ => []
  have hvs : ∀ f ∈ benchmarks, getMeasurements readPy "elapsed seconds: ".toList f.lines = .ok (vs f) ∧
      (vs f).Perm (f.times c) := by
    intro f hf'
    obtain ⟨l, h1, h2⟩ := (hb f hf').measure hp hf
    have : vs f = l := by simp only [vs, h1]
    rw [this]
    exact ⟨h1, h2⟩
  let xs : List ((Nat × Nat) × List (XNum ℚ)) := dir.filterMap F
  have hxs : xs.Perm (benchmarks.map fun f => ((f.nodes, f.tasks), vs f)) := by
    refine (hdir.filterMap F).trans (List.Perm.of_eq ?_)
    rw [List.filterMap_append, List.filterMap_map]
    have h2 : rest.filterMap F = [] := by
      rw [List.filterMap_eq_nil_iff]
      intro file h
      simp only [F, hr file h]
    rw [h2, List.append_nil, ← List.filterMap_eq_map]
    refine List.filterMap_congr fun f hf' => ?_
    simp only [F, Function.comp_apply, C119_name_of_job, (hvs f hf').1]
  have hfind : findMatchedFiles readPy "elapsed seconds: ".toList dir = .ok xs := by
    refine (foldlM_files (F := F) dir [] fun file h => ?_).trans (by rw [List.nil_append])
    rcases List.mem_append.mp (hdir.mem_iff.mp h) with h | h
    · obtain ⟨f, hf', rfl⟩ := List.mem_map.mp h
      refine Or.inr ⟨_, _, C119_name_of_job _ _, (hvs f hf').1, ?_⟩
      simp only [F, C119_name_of_job, (hvs f hf').1]
    · refine Or.inl ⟨hr file h, ?_⟩
      simp only [F, hr file h]
  let med : List (XNum ℚ) → ℚ := fun l =>
    match @pyMedian _ binary64.ops sort l with
    | .ok (fin y) => y
    | _ => 0
  have hmed : ∀ f ∈ benchmarks, @pyMedian _ binary64.ops sort (vs f) = .ok (fin (med (vs f))) ∧
      IsMedian (f.times c) (fin (med (vs f))) := by
    intro f hf'
    have hv := (hvs f hf').2
    obtain ⟨y, h1, h2⟩ := C119_median hs (l := vs f) (fun e => (hb f hf').ne (by
        rw [e] at hv; exact hv.nil_eq.symm)) (fun x hx => (hb f hf').isTime x (hv.mem_iff.mp hx))
    have : med (vs f) = y := by
      simp only [med, h1]
    rw [this]
    exact ⟨h1, h2.perm hv⟩
  have hmem : ∀ x ∈ xs, @pyMedian _ binary64.ops sort x.2 = .ok (fin (med x.2)) := by
    intro x hx
    obtain ⟨f, hf', rfl⟩ := List.mem_map.mp (hxs.mem_iff.mp hx)
    exact (hmed f hf').1
  have e1 := mapM_points (l := xs.filter fun x => x.1.2 = 1)
    (f := fun x => (do return (x.1.1, ← @pyMedian _ binary64.ops sort x.2) : RM (Nat × XNum ℚ)))
    (G := fun x => (x.1.1, fin (med x.2))) (fun x hx => by
      rw [hmem x (List.mem_filter.mp hx).1]; rfl)
  have e2 := mapM_points (l := xs.filter fun x => !(x.1.1 > 1 ∧ x.1.2 = 1))
    (f := fun x => (do return (x.1.1 * x.1.2, ← @pyMedian _ binary64.ops sort x.2) : RM (Nat × XNum ℚ)))
    (G := fun x => (x.1.1 * x.1.2, fin (med x.2))) (fun x hx => by
      rw [hmem x (List.mem_filter.mp hx).1]; rfl)
  refine ⟨sortPoints ((xs.filter fun x => x.1.2 = 1).map fun x => (x.1.1, fin (med x.2))),
    sortPoints ((xs.filter fun x => !(x.1.1 > 1 ∧ x.1.2 = 1)).map fun x => (x.1.1 * x.1.2, fin (med x.2))),
    ?_, sortPoints_sorted _, sortPoints_sorted _, fun f => med (vs f), fun f hf' => (hmed f hf').2, ?_, ?_⟩
  · unfold plotPoints
    rw [hfind, rm_bind_ok, e1, rm_bind_ok, e2, rm_bind_ok, rm_pure]
  · refine (sortPoints_perm _).trans (((hxs.filter _).map _).trans (List.Perm.of_eq ?_))
    rw [List.filter_map, List.map_map]
    refine List.map_congr_left fun f hf' => ?_
    have : f.tasks = 1 := by simpa using (List.mem_filter.mp hf').2
    simp [this]
  · refine (sortPoints_perm _).trans (((hxs.filter _).map _).trans (List.Perm.of_eq ?_))
    rw [List.filter_map, List.map_map]
    have : benchmarks.filter ((fun x : (Nat × Nat) × List (XNum ℚ) => !(decide (x.1.1 > 1 ∧ x.1.2 = 1))) ∘
        fun f => ((f.nodes, f.tasks), vs f)) = benchmarks.filter fun f => f.nodes = 1 ∨ f.tasks ≠ 1 := by
      refine List.filter_congr fun f hf' => ?_
      have := (hb f hf').processes.1
      simp only [Function.comp_apply, ← decide_not, decide_eq_decide]
      omega
    rw [this]
    exact List.map_congr_left fun f hf' => rfl

/-- **C119, no measurement** If a file with a name of the form has no line with a time (for example because all its jobs have failed), the
script fails, and nothing is drawn, whatever is in the other files. -/
theorem C119_no_measurement [FloatOps α] {readPy : List Char → Option α} {sort : List α → List α} (h0 : sort [] = [])
    {start : List Char} {dir : List (List Char × List (List Char))} {file : List Char × List (List Char)}
    (hfile : file ∈ dir) {nodes tasks : Nat} (hn : extractNodes file.1 = some (nodes, tasks))
    (hl : ∀ l ∈ file.2, ¬start <+: l) : ∃ e, plotPoints readPy sort start dir = .error e := by
  have hg : getMeasurements readPy start file.2 = .ok [] := by
    unfold getMeasurements
    have : ∀ lines : List (List Char), (∀ l ∈ lines, ¬start <+: l) → lines.foldlM (fun acc line =>
        (if start.isPrefixOf line then do return acc ++ [← pyField readPy line] else return acc : RM (List α))) [] =
        .ok [] := by
      intro lines h
      induction lines with
      | nil => rfl
      | cons l lines ih =>
        rw [List.foldlM_cons, if_neg (fun e => h l (by simp) (List.isPrefixOf_iff_prefix.mp e)), rm_pure, rm_bind_ok]
        exact ih fun x hx => h x (by simp [hx])
    exact this _ hl
  have hmed : pyMedian sort ([] : List α) = .error .explicit := by
    unfold pyMedian
    rw [h0]
    rfl
  have hfind : ∀ (d : List (List Char × List (List Char))) (acc r : List ((Nat × Nat) × List α)),
      d.foldlM (matchFile readPy start) acc = .ok r →
      (∀ x ∈ acc, x ∈ r) ∧ (file ∈ d → ((nodes, tasks), []) ∈ r) := by
    intro d
    induction d with
    | nil =>
      intro acc r h
      rw [List.foldlM_nil, rm_pure] at h
      rw [← Except.ok.inj h]
      exact ⟨fun x hx => hx, by simp⟩
    | cons f d ih =>
      intro acc r h
      rw [List.foldlM_cons] at h
      cases he : extractNodes f.1 with
      | none =>
        rw [matchFile_none he, rm_bind_ok] at h
        obtain ⟨i1, i2⟩ := ih acc r h
        refine ⟨i1, fun hm => ?_⟩
        rcases List.mem_cons.mp hm with e | hm
        · rw [e, he] at hn; cases hn
        · exact i2 hm
      | some np =>
        cases hv : getMeasurements readPy start f.2 with
        | error e =>
          have : matchFile readPy start acc f = .error e := by
            unfold matchFile
            rw [he]
            simp only [hv, rm_bind_err]
          rw [this] at h
          cases h
        | ok v =>
          rw [matchFile_some he hv, rm_bind_ok] at h
          obtain ⟨i1, i2⟩ := ih _ r h
          refine ⟨fun x hx => i1 x (by simp [hx]), fun hm => ?_⟩
          rcases List.mem_cons.mp hm with e | hm
          · subst e
            rw [hn] at he
            rw [hg] at hv
            rw [← Option.some.inj he, ← Except.ok.inj hv] at i1
            exact i1 _ (by simp)
          · exact i2 hm
  unfold plotPoints
  cases hx : findMatchedFiles readPy start dir with
  | error e => exact ⟨e, rfl⟩
  | ok xs =>
    have hmem := (hfind dir [] xs hx).2 hfile
    rw [rm_bind_ok]
    by_cases ht : tasks = 1
    · obtain ⟨e, he⟩ := mapM_err (l := xs.filter fun x => x.1.2 = 1) (a := ((nodes, tasks), []))
        (f := fun x => (do return (x.1.1, ← pyMedian sort x.2) : RM (Nat × α))) (e := .explicit)
        (List.mem_filter.mpr ⟨hmem, by simpa using ht⟩) (by simp only [hmed]; rfl)
      exact ⟨e, by rw [he]; rfl⟩
    · obtain ⟨e, he⟩ := mapM_err (l := xs.filter fun x => !(x.1.1 > 1 ∧ x.1.2 = 1)) (a := ((nodes, tasks), []))
        (f := fun x => (do return (x.1.1 * x.1.2, ← pyMedian sort x.2) : RM (Nat × α))) (e := .explicit)
        (List.mem_filter.mpr ⟨hmem, by simp [ht]⟩) (by simp only [hmed]; rfl)
      cases h1 : (xs.filter fun x => x.1.2 = 1).mapM
          fun x => (do return (x.1.1, ← pyMedian sort x.2) : RM (Nat × α)) with
      | error e' => exact ⟨e', rfl⟩
      | ok l => exact ⟨e, by rw [rm_bind_ok, he]; rfl⟩

/-- the numbers of nodes and of tasks per node in the scripts `slurm_*.sh` of a directory -/
def slurmJobs : List (Nat × Nat) :=
  [(1, 1), (1, 2), (1, 4), (1, 8), (1, 16), (2, 16), (4, 16), (2, 1), (4, 1), (8, 1)]

/-- **C119, the scripts of the repository** If all benchmarks of a directory have been successful, the first curve has one point for each of
1, 2, 4 and 8 processes, and the second one for each of 1, 2, 4, 8, 16, 32 and 64 processes. -/
theorem C119_curves {readPy : List Char → Option (XNum ℚ)} (hp : PyFloat readPy) {fmt : XNum ℚ → List Char}
    (hf : Display fmt) {sort : List (XNum ℚ) → List (XNum ℚ)} (hs : Sorts sort) {g : Graph (XNum ℚ)}
    {c : MpiCommand} {benchmarks : List BenchFile} (hb : ∀ f ∈ benchmarks, f.Ok fmt g c)
    (hj : (benchmarks.map fun f => (f.nodes, f.tasks)).Perm slurmJobs)
    {rest dir : List (List Char × List (List Char))} (hr : ∀ file ∈ rest, extractNodes file.1 = none)
    (hdir : dir.Perm (benchmarks.map (fun f => (outputFile f.nodes f.tasks, f.lines)) ++ rest)) :
    ∃ single multi, @plotPoints _ binary64.ops readPy sort "elapsed seconds: ".toList dir = .ok (single, multi) ∧
      single.map Prod.fst = [1, 2, 4, 8] ∧ multi.map Prod.fst = [1, 2, 4, 8, 16, 32, 64] := by
  obtain ⟨single, multi, h1, h2, h3, height, -, h4, h5⟩ := C119_points hp hf hs hb hr hdir
  have key : ∀ {l : List (Nat × XNum ℚ)} {k : List Nat}, l.Pairwise (fun a b => a.1 ≤ b.1) →
      (l.map Prod.fst).Perm k → k.Pairwise (· ≤ ·) → l.map Prod.fst = k := by
    intro l k s p s'
    exact p.eq_of_pairwise (fun a b _ _ => Nat.le_antisymm) (List.pairwise_map.mpr s) s'
  refine ⟨single, multi, h1, key h2 ?_ (by decide), key h3 ?_ (by decide)⟩
  · have e := (hj.filter fun x => decide (x.2 = 1)).map fun x => x.1 * x.2
    rw [List.filter_map, List.map_map] at e
    refine ((h4.map _).trans (List.Perm.of_eq ?_)).trans (e.trans (by decide))
    rw [List.map_map]
    rfl
  · have e := (hj.filter fun x => decide (x.1 = 1 ∨ x.2 ≠ 1)).map fun x => x.1 * x.2
    rw [List.filter_map, List.map_map] at e
    refine ((h5.map _).trans (List.Perm.of_eq ?_)).trans (e.trans (by decide))
    rw [List.map_map]
    rfl

/-- There are such files for all numbers of nodes and tasks: the spanning tree of six cities, with eleven jobs. -/
example (fmt : XNum ℚ → List Char) (n t : Nat) : ∃ f : BenchFile, f.nodes = n + 1 ∧ f.tasks = t + 1 ∧
    f.jobs.length = 11 ∧ f.Ok fmt six (.lowerBound .mst) := by
  have hok : (match (do @naFromGraph _ binary64.ops (← @parseChecked _ binary64.ops six) : RM (Mat (XNum ℚ))) with
      | .ok m => match @primSeq _ binary64.ops m [] with
        | .ok _ => true
        | .error _ => false
      | .error _ => false) = true := by decide +kernel
  cases hm : (do @naFromGraph _ binary64.ops (← @parseChecked _ binary64.ops six) : RM (Mat (XNum ℚ))) with
  | error e => rw [hm] at hok; cases hok
  | ok m =>
    rw [hm] at hok
    cases ht : @primSeq _ binary64.ops m [] with
    | error e => simp only [ht] at hok; cases hok
    | ok tr =>
      let env : MpiEnv (XNum ℚ) := ⟨false, (n + 1) * (t + 1), fun _ _ => .empty, fun _ => .empty, fun _ _ _ => none,
        ⟨fun l => l, fun _ l => l⟩, fun _ _ l => l⟩
      let j : MeasuredJob := ⟨env, fun _ _ => fin 1,
        (List.range env.size).map fun k => (@mpiMst _ binary64.ops env m k false).timed (fin 1)⟩
      refine ⟨⟨n + 1, t + 1, 10, List.replicate 11 j, [],
        ((List.replicate 11 j).flatMap (·.lines)).map (BLine.text fmt)⟩, rfl, rfl, rfl, ?_⟩
      have hj : ∀ {P : MeasuredJob → Prop}, P j → ∀ j' ∈ List.replicate 11 j, P j' := fun h j' hj' => by
        rw [List.eq_of_mem_replicate hj']; exact h
      refine ⟨rfl, ⟨by simp, by simp, hj rfl⟩, hj fun r k => ⟨1, rfl, ?_, ?_⟩, hj ⟨?_, ?_⟩, by simp, List.Perm.refl _⟩
      · exact small_isDouble (by norm_num) (by norm_num) rfl
      · decide +kernel
      · unfold MpiBenchRuns
        rw [hm]
      · intro o ho
        obtain ⟨k, -, rfl⟩ := List.mem_map.mp ho
        show (Out.timed _ (Out.print _ (@primSeq _ binary64.ops m []))).exit = _
        rw [ht]
        rfl

/-- A directory with two benchmarks: two nodes with one process each, and one node with two processes. The heights are the means of the
two times in the middle. -/
example : @plotPoints _ binary64.ops readF64 (List.insertionSort fun a b => XNum.le a b) "elapsed seconds: ".toList
    [("parse.py".toList, []),
      (outputFile 2 1, ["run 0/1\n".toList, "elapsed seconds: 5\n".toList, "elapsed seconds: 1\n".toList,
        "elapsed seconds: 9\n".toList, "elapsed seconds: 2\n".toList]),
      (outputFile 1 2, ["elapsed seconds: 0.5\n".toList, "elapsed seconds: 0.25\n".toList])] =
    .ok ([(2, fin (7 / 2))], [(2, fin (3 / 8))]) := by decide +kernel

end Walky.Props
