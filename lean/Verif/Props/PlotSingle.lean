import Verif.Model.PlotSingle
import Verif.Props.Benchmark

/-!
# The benchmarks on a single node, from the instances to the curves of the plots (C120)
-/

set_option linter.unusedSectionVars false

namespace Walky.Props

open XNum Spec

variable {α : Type}

/-! ## Loops -/

private theorem mem_shellLoop {b s : Nat} (hs : 0 < s) {x : Nat} :
    ∀ {fuel i : Nat}, b + 1 ≤ fuel + i → (x ∈ shellLoop b s fuel i ↔ i ≤ x ∧ x ≤ b ∧ s ∣ x - i) := by
  intro fuel
  induction fuel with
  | zero => intro i h; simp only [shellLoop, List.not_mem_nil, false_iff]; omega
  | succ fuel ih =>
    intro i h
    unfold shellLoop
    split
    · rw [List.mem_cons, ih (by omega)]
      constructor
      · rintro (rfl | ⟨h1, h2, h3⟩)
        · exact ⟨le_refl _, by assumption, by simp⟩
        · refine ⟨by omega, h2, ?_⟩
          have : x - i = (x - (i + s)) + s := by omega
          rw [this]
          exact Dvd.dvd.add h3 (dvd_refl s)
      · rintro ⟨h1, h2, h3⟩
        by_cases hx : x = i
        · exact Or.inl hx
        · have h4 : s ≤ x - i := Nat.le_of_dvd (by omega) h3
          refine Or.inr ⟨by omega, h2, ?_⟩
          have : x - (i + s) = (x - i) - s := by omega
          rw [this]
          exact Nat.dvd_sub h3 (dvd_refl s)
    · simp only [List.not_mem_nil, false_iff]; omega

private theorem shellLoop_lt {b s : Nat} (hs : 0 < s) :
    ∀ {fuel i : Nat}, (shellLoop b s fuel i).Pairwise (· < ·) ∧ ∀ x ∈ shellLoop b s fuel i, i ≤ x := by
  intro fuel
  induction fuel with
  | zero => intro i; exact ⟨List.Pairwise.nil, by simp [shellLoop]⟩
  | succ fuel ih =>
    intro i
    unfold shellLoop
    split
    · refine ⟨List.pairwise_cons.mpr ⟨fun x hx => ?_, ih.1⟩, fun x hx => ?_⟩
      · have := ih.2 x hx; omega
      · rcases List.mem_cons.mp hx with rfl | hx
        · exact le_refl _
        · have := ih.2 x hx; omega
    · exact ⟨List.Pairwise.nil, by simp⟩

/-- **C120, loops** The loops of the scripts go through the numbers from `a` to `b` in steps of `s`, in ascending order;
the ranges of the Python scripts are the same. -/
theorem C120_loops {a b s : Nat} (hs : 0 < s) :
    (∀ x, x ∈ shellFor a b s ↔ a ≤ x ∧ x ≤ b ∧ s ∣ x - a) ∧ (shellFor a b s).Pairwise (· < ·) ∧
    pyRange a (b + 1) s = shellFor a b s := by
  refine ⟨fun x => mem_shellLoop hs (by omega), (shellLoop_lt hs).1, ?_⟩
  have : ∀ fuel i, pyLoop (b + 1) s fuel i = shellLoop b s fuel i := by
    intro fuel
    induction fuel with
    | zero => intro i; rfl
    | succ fuel ih => intro i; simp only [pyLoop, shellLoop, ih, Nat.lt_succ_iff]
  exact this _ _

/-! ## Instances -/

/-- the sizes that a benchmark measures -/
def Sized (b : StmtBench) (n : Nat) : Prop :=
  (100 ≤ n ∧ n ≤ 3000 ∧ 100 ∣ n) ∨ (b = .mst ∧ 4000 ≤ n ∧ n ≤ 10000 ∧ 1000 ∣ n)

/-- **C120, instances** `gen.sh` generates the instances with 3 to 212 cities, each one once. Together with `gen_big.sh`
the instances of all benchmarks with at most 3000 cities are there, also those of the exact solvers, which have 3 to
50. But `gen_xxl.sh` generates three of the seven large ones only. -/
theorem C120_instances :
    genSmall = List.range' 3 210 ∧
    (∀ b n, Sized b n → n ≤ 3000 → n ∈ genSmall ∨ n ∈ genBig) ∧
    (∀ n, 3 ≤ n → n ≤ 50 → n ∈ genSmall) ∧
    (∀ n, Sized .mst n ∧ 3000 < n ∧ n ∉ genXxl ↔ n = 4000 ∨ n = 5000 ∨ n = 6000 ∨ n = 10000) := by
  have h1 : genSmall = List.range' 3 210 := by decide +kernel
  have hm : ∀ n, n ∈ genSmall ↔ 3 ≤ n ∧ n < 213 := by
    intro n
    rw [h1, List.mem_range'_1]
  refine ⟨h1, fun b n h hn => ?_, fun n h2 h3 => (hm n).mpr ⟨h2, by omega⟩, fun n => ?_⟩
  · rcases h with ⟨h2, h3, h4⟩ | ⟨-, h2, -⟩
    · rcases Nat.lt_or_ge n 213 with h5 | h5
      · exact Or.inl ((hm n).mpr ⟨by omega, h5⟩)
      · refine Or.inr (((C120_loops (by decide)).1 n).mpr ⟨by omega, h3, ?_⟩)
        omega
    · omega
  · rw [genXxl, (C120_loops (by decide)).1 n]
    constructor
    · rintro ⟨h2 | ⟨-, h2, h3, h4⟩, h5, h6⟩ <;> omega
    · rintro (rfl | rfl | rfl | rfl) <;> exact ⟨Or.inr ⟨rfl, by omega, by omega, by omega⟩, by omega, by omega⟩

/-! ## Commands -/

/-- the command of a benchmark -/
def stmtCmd (b : StmtBench) (p : Parallelism) : Command :=
  match b with
  | .nn => .approx .nearestNeighbour p none
  | .oneTree => .lowerBound .oneTree p
  | .christofides => .approx .christofides p none
  | .mst => .lowerBound .mst p

/-- the name of a directory or a program, from the root -/
def FromRoot (s : List Char) : Prop := s.head? = some '/' ∧ ' ' ∉ s

/-- the instance with `n` cities in a directory -/
def instancePath (dir : List Char) (n : Nat) : List Char := dir ++ ("/".toList ++ (showUsize n ++ ".xml".toList))

private theorem split_word {w t : List Char} (hw : ' ' ∉ w) : pySplit ' ' (w ++ ' ' :: t) = w :: pySplit ' ' t := by
  induction w with
  | nil => simp [pySplit]
  | cons c w ih =>
    have h1 : c ≠ ' ' := fun h => hw (h ▸ List.mem_cons_self)
    have h2 := ih fun h => hw (List.mem_cons_of_mem _ h)
    rw [List.cons_append, pySplit, if_neg h1, h2]

private theorem split_last {w : List Char} (hw : ' ' ∉ w) : pySplit ' ' w = [w] := by
  induction w with
  | nil => rfl
  | cons c w ih =>
    have h1 : c ≠ ' ' := fun h => hw (h ▸ List.mem_cons_self)
    have h2 := ih fun h => hw (List.mem_cons_of_mem _ h)
    rw [pySplit, if_neg h1, h2]

private theorem words_cons {w t : List Char} (h0 : w ≠ []) (hw : ' ' ∉ w) :
    shellWords (w ++ ' ' :: t) = w :: shellWords t := by
  unfold shellWords
  rw [split_word hw, List.filter_cons_of_pos (by simpa using h0)]

private theorem words_space {t : List Char} : shellWords (' ' :: t) = shellWords t := by
  unfold shellWords
  rw [show pySplit ' ' (' ' :: t) = [] :: pySplit ' ' t from by simp [pySplit], List.filter_cons_of_neg (by simp)]

private theorem words_last {w : List Char} (h0 : w ≠ []) (hw : ' ' ∉ w) : shellWords w = [w] := by
  unfold shellWords
  rw [split_last hw, List.filter_cons_of_pos (by simpa using h0), List.filter_nil]

private theorem path_noSpace {dir : List Char} (h : FromRoot dir) (n : Nat) :
    ' ' ∉ instancePath dir n ∧ ∃ t, instancePath dir n = '/' :: t := by
  constructor
  · intro hm
    unfold instancePath at hm
    rcases List.mem_append.mp hm with hm | hm
    · exact h.2 hm
    · rcases List.mem_append.mp hm with hm | hm
      · revert hm; decide
      · rcases List.mem_append.mp hm with hm | hm
        · have := showUsize_digit hm
          revert this; decide
        · revert hm; decide
  · cases hd : dir with
    | nil => rw [hd] at h; exact absurd h.1 (by simp)
    | cons c t =>
      have h1 := h.1
      rw [hd, List.head?_cons] at h1
      rw [Option.some.inj h1]
      exact ⟨_, rfl⟩

private theorem root_ne {s : List Char} (h : FromRoot s) : s ≠ [] := by
  rintro rfl; exact absurd h.1 (by simp)

/-- the two words of a benchmark -/
private def word1 : StmtBench → List Char
  | .nn => "approx".toList
  | .oneTree => "lower-bound".toList
  | .christofides => "approx".toList
  | .mst => "lower-bound".toList

private def word2 : StmtBench → List Char
  | .nn => "nearest-neighbour".toList
  | .oneTree => "one-tree".toList
  | .christofides => "christofides".toList
  | .mst => "mst".toList

private theorem command_words {b : StmtBench} {program dir : List Char} (hp : FromRoot program) (hd : FromRoot dir)
    (n : Nat) (p : Parallelism) :
    shellWords (stmtCommand b program dir n (parWord p)) =
      [program, word1 b, word2 b, "-p".toList, parWord p, instancePath dir n] := by
  have e : stmtCommand b program dir n (parWord p) =
      program ++ ' ' :: (word1 b ++ ' ' :: (word2 b ++ ' ' :: ("-p".toList ++ ' ' :: (parWord p ++ ' ' ::
        instancePath dir n)))) := by
    have e1 : b.words = word1 b ++ ' ' :: word2 b := by cases b <;> decide
    have e2 : " ".toList = [' '] := by decide
    have e3 : " -p ".toList = ' ' :: ("-p".toList ++ [' ']) := by decide
    unfold stmtCommand instancePath
    rw [e1, e2, e3]
    simp only [List.append_assoc, List.cons_append, List.nil_append]
  obtain ⟨h1, t, h2⟩ := path_noSpace hd n
  rw [e, words_cons (root_ne hp) hp.2, words_cons (by cases b <;> decide) (by cases b <;> decide),
    words_cons (by cases b <;> decide) (by cases b <;> decide), words_cons (by decide) (by decide),
    words_cons (by cases p <;> decide) (by cases p <;> decide), words_last (by rw [h2]; simp) h1]

private theorem noDash_root {s t : List Char} (h : s = '/' :: t) : NoDash s := by
  intro u hu
  rw [h] at hu
  exact absurd (List.cons.inj hu).1 (by decide)

private theorem line_spelled {b : StmtBench} {dir : List Char} (hd : FromRoot dir) (n : Nat) (p : Parallelism)
    {opts : List Opt} (ho : Opt.parallelism ∈ opts) :
    Spelled opts [.pos (word2 b), .opt .parallelism (parWord p), .pos (instancePath dir n)]
      [word2 b, "-p".toList, parWord p, instancePath dir n] := by
  obtain ⟨h1, t, h2⟩ := path_noSpace hd n
  refine .pos ?_ (.short ho ?_ (.pos (noDash_root h2) .done))
  · cases b <;> intro u hu <;> exact absurd (List.cons.inj hu).1 (by decide)
  · cases p <;> intro u hu <;> exact absurd (List.cons.inj hu).1 (by decide)

/-- **C120, commands** The command that a script passes to `run_often.py` runs the program on the algorithm of the
benchmark with the given parallelism and the instance of the given size. -/
theorem C120_command {b : StmtBench} {program dir : List Char} (hp : FromRoot program) (hd : FromRoot dir)
    (n : Nat) (p : Parallelism) :
    ∃ args, shellWords (stmtCommand b program dir n (parWord p)) = program :: args ∧
      CommandLine args (stmtCmd b p) (instancePath dir n) ∧ ¬HelpRequest args := by
  obtain ⟨h1, t, h2⟩ := path_noSpace hd n
  refine ⟨_, command_words hp hd n p, ⟨by rw [h2]; simp, ?_⟩, ?_⟩
  · cases b
    · exact ⟨_, _, rfl, line_spelled (b := .nn) hd n p (by simp), rfl, Or.inr rfl, Or.inl ⟨rfl, rfl⟩⟩
    · exact ⟨_, _, rfl, line_spelled (b := .oneTree) hd n p (by simp), rfl, Or.inr rfl⟩
    · exact ⟨_, _, rfl, line_spelled (b := .christofides) hd n p (by simp), rfl, Or.inr rfl, Or.inl ⟨rfl, rfl⟩⟩
    · exact ⟨_, _, rfl, line_spelled (b := .mst) hd n p (by simp), rfl, Or.inr rfl⟩
  · rintro (⟨as, h⟩ | ⟨a, ha, h⟩)
    · have := (List.cons.inj h).1
      cases b <;> revert this <;> decide
    · have key : ∀ c s, a = c :: s → c ≠ '-' → False := by
        intro c s hc hne
        rcases h with h | h | ⟨u, h⟩ | ⟨u, h⟩ <;> rw [hc] at h <;> exact hne (List.cons.inj h).1
      simp only [List.mem_cons, List.not_mem_nil, or_false] at ha
      rcases ha with ha | ha | ha | ha | ha
      · cases b <;> exact key _ _ ha (by decide)
      · cases b <;> exact key _ _ ha (by decide)
      · rcases h with h | h | ⟨u, h⟩ | ⟨u, h⟩ <;> rw [ha] at h
        · revert h; decide
        · revert h; decide
        · exact absurd (List.cons.inj (List.cons.inj h).2).1 (by decide)
        · exact absurd (List.cons.inj (List.cons.inj h).2).1 (by decide)
      · cases p <;> exact key _ _ ha (by decide)
      · exact key _ _ (ha.trans h2) (by decide)

/-! ## Files of results -/

private theorem takeWhile_digits {ds t : List Char} {c : Char} (hd : ∀ x ∈ ds, x.isDigit = true) (hc : c.isDigit = false) :
    (ds ++ c :: t).takeWhile Char.isDigit = ds := by
  rw [List.takeWhile_append_of_pos hd]
  simp [hc]

private theorem resultFile_inj {n m : Nat} {p q : List Char} (h : resultFile n p = resultFile m q) : n = m ∧ p = q := by
  unfold resultFile at h
  have h1 := List.append_cancel_left h
  have e : ∀ t, "_".toList ++ t = '_' :: t := fun t => rfl
  rw [e, e] at h1
  have h2 := congrArg (List.takeWhile Char.isDigit) h1
  rw [takeWhile_digits (fun x hx => showUsize_digit hx) (by decide),
    takeWhile_digits (fun x hx => showUsize_digit hx) (by decide)] at h2
  have h3 := showUsize_inj h2
  subst h3
  have h4 := (List.cons.inj (List.append_cancel_left h1)).2
  exact ⟨rfl, List.append_cancel_right h4⟩

private theorem runJobs_apply {readPy : List Char → Option α} {mean : List α → α} {sort : List α → List α}
    {outs : List Char → List (List Char)} {jobs : List (List Char × List Char)} :
    ∀ {dir : Results α}, (jobs.map Prod.snd).Nodup →
      (∀ c f, (c, f) ∈ jobs → runJobs readPy mean sort outs dir jobs f =
        match runOften readPy mean sort "elapsed seconds:".toList (outs c) with
        | .ok s => some s
        | .error _ => dir f) ∧
      ∀ f, f ∉ jobs.map Prod.snd → runJobs readPy mean sort outs dir jobs f = dir f := by
  induction jobs with
  | nil => intro dir _; exact ⟨by simp, fun f _ => rfl⟩
  | cons j jobs ih =>
    intro dir hn
    rw [List.map_cons, List.nodup_cons] at hn
    obtain ⟨i1, i2⟩ := ih (dir := runJob readPy mean sort outs dir j) hn.2
    have e : ∀ f, runJobs readPy mean sort outs dir (j :: jobs) f =
      runJobs readPy mean sort outs (runJob readPy mean sort outs dir j) jobs f := fun f => rfl
    have other : ∀ f, f ≠ j.2 → runJob readPy mean sort outs dir j f = dir f := by
      intro f hf
      unfold runJob
      cases runOften readPy mean sort "elapsed seconds:".toList (outs j.1) with
      | ok s => exact if_neg hf
      | error e => rfl
    refine ⟨fun c f h => ?_, fun f h => ?_⟩
    · rw [e]
      rcases List.mem_cons.mp h with rfl | h
      · rw [i2 f hn.1]
        unfold runJob
        cases runOften readPy mean sort "elapsed seconds:".toList (outs c) with
        | ok s => exact if_pos rfl
        | error e => rfl
      · rw [i1 c f h, other f fun hf => hn.1 (hf ▸ List.mem_map_of_mem h)]
    · rw [List.map_cons, List.mem_cons, not_or] at h
      rw [e, i2 f h.2, other f h.1]

/-- the directory with the instance of a given size -/
def instanceDir (xml scratch : List Char) (n : Nat) : List Char := if n ≤ 3000 then xml else scratch

private theorem sized_iff {b : StmtBench} {n : Nat} :
    Sized b n ↔ n ∈ shellFor 100 3000 100 ∨ (b = .mst ∧ n ∈ shellFor 4000 10000 1000) := by
  rw [(C120_loops (by decide)).1 n, (C120_loops (by decide)).1 n]
  unfold Sized
  constructor
  · rintro (⟨h1, h2, h3⟩ | ⟨h0, h1, h2, h3⟩)
    · exact Or.inl ⟨h1, h2, by omega⟩
    · exact Or.inr ⟨h0, h1, h2, by omega⟩
  · rintro (⟨h1, h2, h3⟩ | ⟨h0, h1, h2, h3⟩)
    · exact Or.inl ⟨h1, h2, by omega⟩
    · exact Or.inr ⟨h0, h1, h2, by omega⟩

private theorem mem_stmtJobs {b : StmtBench} {program xml : List Char} {sizes : List Nat} {c f : List Char} :
    (c, f) ∈ stmtJobs b program xml sizes ↔ ∃ n ∈ sizes, ∃ p : Parallelism,
      c = stmtCommand b program xml n (parWord p) ∧ f = resultFile n (parWord p) := by
  have hp : ∀ w, w ∈ stmtPars ↔ ∃ p : Parallelism, w = parWord p := by
    intro w
    constructor
    · intro h
      rcases List.mem_cons.mp h with rfl | h
      · exact ⟨.singleThreaded, rfl⟩
      · exact ⟨.multiThreaded, List.mem_singleton.mp h⟩
    · rintro ⟨p, rfl⟩
      cases p
      · exact List.mem_cons_self
      · exact List.mem_cons_of_mem _ List.mem_cons_self
  unfold stmtJobs
  rw [List.mem_flatMap]
  refine exists_congr fun n => and_congr_right fun _ => ?_
  rw [List.mem_map]
  constructor
  · rintro ⟨w, hw, h⟩
    obtain ⟨p, rfl⟩ := (hp w).mp hw
    obtain ⟨h1, h2⟩ := Prod.mk.inj h
    exact ⟨p, h1.symm, h2.symm⟩
  · rintro ⟨p, rfl, rfl⟩
    exact ⟨_, (hp _).mpr ⟨p, rfl⟩, rfl⟩

/-- the large sizes -/
private def extra : StmtBench → List Nat
  | .mst => shellFor 4000 10000 1000
  | _ => []

private theorem jobs_eq {b : StmtBench} {program xml scratch : List Char} : b.jobs program xml scratch =
    stmtJobs b program xml (shellFor 100 3000 100) ++ stmtJobs b program scratch (extra b) := by
  cases b <;> rfl

private theorem mem_extra {b : StmtBench} {n : Nat} : n ∈ extra b ↔ b = .mst ∧ n ∈ shellFor 4000 10000 1000 := by
  cases b <;> simp [extra]

private theorem mem_jobs {b : StmtBench} {program xml scratch : List Char} {c f : List Char} :
    (c, f) ∈ b.jobs program xml scratch ↔ ∃ n p, Sized b n ∧
      c = stmtCommand b program (instanceDir xml scratch n) n (parWord p) ∧ f = resultFile n (parWord p) := by
  have small : ∀ {n}, n ∈ shellFor 100 3000 100 → instanceDir xml scratch n = xml := fun {n} h =>
    if_pos (((C120_loops (by decide)).1 n).mp h).2.1
  have large : ∀ {n}, n ∈ shellFor 4000 10000 1000 → instanceDir xml scratch n = scratch := fun {n} h =>
    if_neg (by have := (((C120_loops (by decide)).1 n).mp h).1; omega)
  rw [jobs_eq, List.mem_append, mem_stmtJobs, mem_stmtJobs]
  constructor
  · rintro (⟨n, hn, p, h1, h2⟩ | ⟨n, hn, p, h1, h2⟩)
    · exact ⟨n, p, sized_iff.mpr (Or.inl hn), by rw [small hn]; exact h1, h2⟩
    · have hn := mem_extra.mp hn
      exact ⟨n, p, sized_iff.mpr (Or.inr hn), by rw [large hn.2]; exact h1, h2⟩
  · rintro ⟨n, p, hn, h1, h2⟩
    rcases sized_iff.mp hn with hn | hn
    · exact Or.inl ⟨n, hn, p, by rw [← small hn]; exact h1, h2⟩
    · exact Or.inr ⟨n, mem_extra.mpr hn, p, by rw [← large hn.2]; exact h1, h2⟩

private theorem nodup_jobs {b : StmtBench} {program xml scratch : List Char} :
    ((b.jobs program xml scratch).map Prod.snd).Nodup := by
  have e : ∀ b' : StmtBench, ∀ dir sizes, (stmtJobs b' program dir sizes).map Prod.snd =
      sizes.flatMap fun n => stmtPars.map (resultFile n) := by
    intro b' dir sizes
    unfold stmtJobs
    rw [List.map_flatMap]
    simp only [List.map_map, Function.comp_def]
  have hall : (shellFor 100 3000 100 ++ extra b).Nodup := by cases b <;> decide +kernel
  have e2 : (b.jobs program xml scratch).map Prod.snd =
      (shellFor 100 3000 100 ++ extra b).flatMap fun n => stmtPars.map (resultFile n) := by
    rw [jobs_eq, List.map_append, e, e, List.flatMap_append]
  rw [e2, List.nodup_flatMap]
  refine ⟨fun n _ => ?_, hall.imp fun {n m} hne => ?_⟩
  · exact List.Nodup.map (fun p q h => (resultFile_inj h).2) (by decide)
  · intro f h1 h2
    obtain ⟨p, -, rfl⟩ := List.mem_map.mp h1
    obtain ⟨q, -, h⟩ := List.mem_map.mp h2
    exact hne (resultFile_inj h).1.symm

/-- A median: one of the times, more than half of them are not above it, at least half are not below it. -/
def UpperMedian (times : List ℚ) (m : ℚ) : Prop :=
  m ∈ times ∧ times.length < 2 * times.countP (· ≤ m) ∧ times.length ≤ 2 * times.countP (m ≤ ·)

/-- `run_often.py` is called by the scripts for every size and both kinds of parallelism. `runs n p` are the runs of the
program that it measures, `times n p` are the times of the successful ones, which are finite. No run panics. -/
structure StmtRuns (fmt : XNum ℚ → List Char) (files : List Char → Option (List Char)) (b : StmtBench)
    (program xml scratch : List Char) (outs : List Char → List (List Char)) (runs : Nat → Parallelism → List Measured)
    (times : Nat → Parallelism → List ℚ) : Prop where
  hprogram : FromRoot program
  hxml : FromRoot xml
  hscratch : FromRoot scratch
  houts : ∀ n p, Sized b n → outs (stmtCommand b program (instanceDir xml scratch n) n (parWord p)) =
    (runs n p).map (·.stdout)
  hok : ∀ n p, Sized b n → ∀ r ∈ runs n p,
    r.Ok fmt files (shellWords (stmtCommand b program (instanceDir xml scratch n) n (parWord p))).tail
  hreadable : ∀ n p, Sized b n → @Readable _ binary64.ops readF64 files
    (shellWords (stmtCommand b program (instanceDir xml scratch n) n (parWord p))).tail
  htimes : ∀ n p, Sized b n → (runs n p).filterMap (·.time) = (times n p).map .fin

/-- **C120, results** After the scripts of a benchmark, the file of a size and a parallelism contains the times of the
successful runs of that size and that parallelism, and their median. If there are none, the file is what
it has been before: in the benchmarks of `nn`, `1-tree` and `Christofides` it does not exist, in `MST` it
contains old results, if there are any. No other files are written. -/
theorem C120_results {readPy : List Char → Option (XNum ℚ)} (hp : PyFloat readPy) {fmt : XNum ℚ → List Char}
    (hf : Display fmt) {mean : List (XNum ℚ) → XNum ℚ} {sort : List (XNum ℚ) → List (XNum ℚ)} (hs : Sorts sort)
    {files : List Char → Option (List Char)} {b : StmtBench} {program xml scratch : List Char}
    {outs : List Char → List (List Char)} {runs : Nat → Parallelism → List Measured}
    {times : Nat → Parallelism → List ℚ} (h : StmtRuns fmt files b program xml scratch outs runs times)
    (dir : Results (XNum ℚ)) :
    (∀ n p, Sized b n → times n p ≠ [] → ∃ m, UpperMedian (times n p) m ∧
      runJobs readPy mean sort outs (b.start dir) (b.jobs program xml scratch) (resultFile n (parWord p)) =
        some ⟨(times n p).map .fin, mean ((times n p).map .fin), .fin m⟩) ∧
    (∀ n p, Sized b n → times n p = [] →
      runJobs readPy mean sort outs (b.start dir) (b.jobs program xml scratch) (resultFile n (parWord p)) =
        if b = .mst then dir (resultFile n (parWord p)) else none) ∧
    (∀ f, (∀ n p, Sized b n → f ≠ resultFile n (parWord p)) →
      runJobs readPy mean sort outs (b.start dir) (b.jobs program xml scratch) f =
        if b = .mst then dir f else none) := by
  have hstart : ∀ f, b.start dir f = if b = .mst then dir f else none := by
    intro f
    cases b <;> simp [StmtBench.start]
  obtain ⟨k1, k2⟩ := runJobs_apply (readPy := readPy) (mean := mean) (sort := sort) (outs := outs) (dir := b.start dir)
    (nodup_jobs (b := b) (program := program) (xml := xml) (scratch := scratch))
  have hdir : ∀ n, FromRoot (instanceDir xml scratch n) := by
    intro n
    unfold instanceDir
    split
    · exact h.hxml
    · exact h.hscratch
  have hsum : ∀ n p, Sized b n →
      (times n p = [] → runOften readPy mean sort "elapsed seconds:".toList ((runs n p).map (·.stdout)) =
        .error .arith) ∧
      (times n p ≠ [] → ∃ m ∈ times n p,
        runOften readPy mean sort "elapsed seconds:".toList ((runs n p).map (·.stdout)) =
          .ok ⟨(times n p).map .fin, mean ((times n p).map .fin), .fin m⟩ ∧
        (times n p).length < 2 * (times n p).countP (· ≤ m) ∧
        (times n p).length ≤ 2 * (times n p).countP (m ≤ ·)) := fun n p hn => by
    obtain ⟨args, h1, -, h3⟩ := C120_command (b := b) h.hprogram (hdir n) n p
    have h4 := h.hok n p hn
    have h5 := h.hreadable n p hn
    rw [h1, List.tail_cons] at h4 h5
    exact C103_summary hp hf (mean := mean) hs h3 h5 h4 (h.htimes n p hn)
  refine ⟨fun n p hn ht => ?_, fun n p hn ht => ?_, fun f hf' => ?_⟩
  · obtain ⟨m, m1, m2, m3⟩ := (hsum n p hn).2 ht
    refine ⟨m, ⟨m1, m3⟩, ?_⟩
    rw [k1 _ _ (mem_jobs.mpr ⟨n, p, hn, rfl, rfl⟩), h.houts n p hn, m2]
  · rw [k1 _ _ (mem_jobs.mpr ⟨n, p, hn, rfl, rfl⟩), h.houts n p hn, (hsum n p hn).1 ht, hstart]
  · rw [k2 f ?_, hstart]
    intro hm
    obtain ⟨⟨c, f'⟩, h1, rfl⟩ := List.mem_map.mp hm
    obtain ⟨n, p, hn, -, h2⟩ := mem_jobs.mp h1
    exact hf' n p hn h2

/-! ## Curves -/

private theorem readMedian_some {dir : Results α} {f : List Char} {s : Summary α} (h : dir f = some s) :
    readMedian dir f = .ok s.median := by
  unfold readMedian
  rw [h]
  rfl

private theorem readMedian_none {dir : Results α} {f : List Char} (h : dir f = none) :
    readMedian dir f = .error .explicit := by
  unfold readMedian
  rw [h]

private theorem addPoint_ok {dir : Results α} {suffix : List Char} {curve : Curve α} {n : Nat} {m : α}
    (h : readMedian dir ("result_".toList ++ (showUsize n ++ suffix)) = .ok m) :
    addPoint dir suffix curve n = .ok (curve.1 ++ [n], curve.2 ++ [m]) := by
  unfold addPoint
  rw [h, rm_bind_ok]
  rfl

private theorem single_name (n : Nat) : "result_".toList ++ (showUsize n ++ "_single-threaded.json".toList) =
    resultFile n (parWord .singleThreaded) := rfl

private theorem multi_name (n : Nat) : "result_".toList ++ (showUsize n ++ "_multi-threaded.json".toList) =
    resultFile n (parWord .multiThreaded) := rfl

private theorem queue_name (n : Nat) : "result_".toList ++ (showUsize n ++ "_.json".toList) = resultFile n [] := rfl

private theorem plot_ok {dir : Results α} {v : Nat → Parallelism → α} :
    ∀ {sizes : List Nat} {c : Curve α × Curve α},
      (∀ n ∈ sizes, ∀ p, readMedian dir (resultFile n (parWord p)) = .ok (v n p)) →
      sizes.foldlM (addPoints dir) c = .ok ((c.1.1 ++ sizes, c.1.2 ++ sizes.map (v · .singleThreaded)),
        (c.2.1 ++ sizes, c.2.2 ++ sizes.map (v · .multiThreaded))) := by
  intro sizes
  induction sizes with
  | nil => intro c _; simp [pure, Except.pure]
  | cons n sizes ih =>
    intro c h
    have h1 := h n List.mem_cons_self
    have e : addPoints dir c n = .ok ((c.1.1 ++ [n], c.1.2 ++ [v n .singleThreaded]),
        (c.2.1 ++ [n], c.2.2 ++ [v n .multiThreaded])) := by
      unfold addPoints
      rw [addPoint_ok ((congrArg _ (single_name n)).trans (h1 .singleThreaded)), rm_bind_ok,
        addPoint_ok ((congrArg _ (multi_name n)).trans (h1 .multiThreaded)), rm_bind_ok]
      rfl
    rw [List.foldlM_cons, e, rm_bind_ok, ih fun m hm => h m (List.mem_cons_of_mem _ hm)]
    simp

private theorem foldlM_fails {β γ : Type} {f : β → γ → RM β} {x : γ} (hx : ∀ acc, ∃ e, f acc x = .error e) :
    ∀ {l : List γ} {acc : β}, x ∈ l → ∃ e, l.foldlM f acc = .error e := by
  intro l
  induction l with
  | nil => intro acc h; simp at h
  | cons y l ih =>
    intro acc h
    rw [List.foldlM_cons]
    rcases List.mem_cons.mp h with rfl | h
    · obtain ⟨e, he⟩ := hx acc
      exact ⟨e, by rw [he]; rfl⟩
    · cases hy : f acc y with
      | error e => exact ⟨e, rfl⟩
      | ok acc' => exact ih h

private theorem plot_fails {dir : Results α} {sizes : List Nat} {n : Nat} (hn : n ∈ sizes) {p : Parallelism}
    (h : dir (resultFile n (parWord p)) = none) : ∃ e, plotResults dir sizes = .error e := by
  refine foldlM_fails (fun c => ?_) hn
  have hr := readMedian_none h
  unfold addPoints
  cases p with
  | singleThreaded =>
    refine ⟨.explicit, ?_⟩
    rw [addPoint, (congrArg _ (single_name n)).trans hr]
    rfl
  | multiThreaded =>
    cases addPoint dir "_single-threaded.json".toList c.1 n with
    | error e => exact ⟨e, rfl⟩
    | ok c' =>
      refine ⟨.explicit, ?_⟩
      rw [rm_bind_ok, addPoint, (congrArg _ (multi_name n)).trans hr]
      rfl

/-- the sizes in the plot of a benchmark -/
def Drawn (b : StmtBench) (n : Nat) : Prop := Sized b n ∧ (b = .oneTree → n ≤ 2500)

private theorem mem_plotSizes {b : StmtBench} {n : Nat} : n ∈ b.plotSizes ↔ Drawn b n := by
  unfold Drawn
  rw [sized_iff, (C120_loops (by decide)).1 n, (C120_loops (by decide)).1 n]
  cases b <;> unfold StmtBench.plotSizes <;>
    simp only [List.mem_append, (C120_loops (by decide : 0 < 100)).2.2, (C120_loops (by decide : 0 < 1000)).2.2,
      (C120_loops (by decide : 0 < 100)).1, (C120_loops (by decide : 0 < 1000)).1] <;> simp
  omega

private theorem plotSizes_lt (b : StmtBench) : b.plotSizes.Pairwise (· < ·) := by
  cases b <;> decide +kernel

/-- **C120, plots** If there is a successful run for every size in the plot and both kinds of parallelism,
`plot_results.py` succeeds. Both curves have one point for every size, in ascending order, whose value is the median of
the times of the successful runs of that size and that parallelism. (The plot of the 1-tree ends at 2500, the
larger sizes are measured, but not drawn.) Otherwise it fails, except for `MST`, where it may show old results
(`C120_results`). -/
theorem C120_plot {readPy : List Char → Option (XNum ℚ)} (hp : PyFloat readPy) {fmt : XNum ℚ → List Char}
    (hf : Display fmt) {mean : List (XNum ℚ) → XNum ℚ} {sort : List (XNum ℚ) → List (XNum ℚ)} (hs : Sorts sort)
    {files : List Char → Option (List Char)} {b : StmtBench} {program xml scratch : List Char}
    {outs : List Char → List (List Char)} {runs : Nat → Parallelism → List Measured}
    {times : Nat → Parallelism → List ℚ} (h : StmtRuns fmt files b program xml scratch outs runs times)
    (dir : Results (XNum ℚ)) :
    ((∀ n p, Drawn b n → times n p ≠ []) → ∃ ns : List Nat, ∃ med : Nat → Parallelism → ℚ,
      (∀ n, n ∈ ns ↔ Drawn b n) ∧ ns.Pairwise (· < ·) ∧ (∀ n ∈ ns, ∀ p, UpperMedian (times n p) (med n p)) ∧
      plotResults (runJobs readPy mean sort outs (b.start dir) (b.jobs program xml scratch)) b.plotSizes =
        .ok ((ns, ns.map fun n => .fin (med n .singleThreaded)), (ns, ns.map fun n => .fin (med n .multiThreaded)))) ∧
    (b ≠ .mst → ∀ n p, Drawn b n → times n p = [] →
      ∃ e, plotResults (runJobs readPy mean sort outs (b.start dir) (b.jobs program xml scratch)) b.plotSizes =
        .error e) := by
  obtain ⟨k1, k2, -⟩ := C120_results hp hf (mean := mean) hs h dir
  constructor
  · intro ht
    have : ∀ n p, ∃ m, Drawn b n → UpperMedian (times n p) m ∧
        runJobs readPy mean sort outs (b.start dir) (b.jobs program xml scratch) (resultFile n (parWord p)) =
        some ⟨(times n p).map .fin, mean ((times n p).map .fin), .fin m⟩ := by
      intro n p
      by_cases hn : Drawn b n
      · obtain ⟨m, hm⟩ := k1 n p hn.1 (ht n p hn)
        exact ⟨m, fun _ => hm⟩
      · exact ⟨0, fun h => absurd h hn⟩
    choose med hmed using this
    refine ⟨b.plotSizes, med, fun n => mem_plotSizes, plotSizes_lt b,
      fun n hn p => (hmed n p (mem_plotSizes.mp hn)).1, ?_⟩
    have := plot_ok (v := fun n p => XNum.fin (med n p)) (c := (([], []), ([], [])))
      (fun n hn p => readMedian_some (hmed n p (mem_plotSizes.mp hn)).2)
    simpa [plotResults] using this
  · intro hb n p hn ht
    have h1 := k2 n p hn.1 ht
    rw [if_neg hb] at h1
    exact plot_fails (mem_plotSizes.mpr hn) h1

/-- **C120, missing instances** Without the instance of a size no run of that size is successful. -/
theorem C120_missing {fmt : XNum ℚ → List Char} {files : List Char → Option (List Char)} {b : StmtBench}
    {program xml scratch : List Char} {outs : List Char → List (List Char)} {runs : Nat → Parallelism → List Measured}
    {times : Nat → Parallelism → List ℚ} (h : StmtRuns fmt files b program xml scratch outs runs times) {n : Nat}
    (hn : Sized b n) (hm : files (instancePath (instanceDir xml scratch n) n) = none) (p : Parallelism) :
    times n p = [] := by
  have hdir : FromRoot (instanceDir xml scratch n) := by
    unfold instanceDir
    split
    · exact h.hxml
    · exact h.hscratch
  obtain ⟨args, h1, h2, h3⟩ := C120_command (b := b) h.hprogram hdir n p
  have h4 := h.hok n p hn
  have h5 := h.hreadable n p hn
  rw [h1, List.tail_cons] at h4 h5
  have : (runs n p).filterMap (·.time) = [] := by
    rw [List.filterMap_eq_nil_iff]
    intro r hr
    cases he : r.exit with
    | success =>
      obtain ⟨k1, -, -⟩ := (@C103_program _ binary64.ops readF64 fmt r.env r.t files args h3 h5).1 _ _ (h4 r hr).2.2.2
      obtain ⟨cmd, path, s, x, i, ls, hcl, hfile, -⟩ := k1 he
      obtain ⟨-, rfl⟩ := C96_unique hcl h2
      rw [hm] at hfile
      cases hfile
    | failure => simp only [Measured.time, he]
    | usage => simp only [Measured.time, he]
    | panic e => simp only [Measured.time, he]
  rw [h.htimes n p hn] at this
  exact List.map_eq_nil_iff.mp this

/-- **C120, large instances** Only the instances of the scripts `gen*.sh` are there, and there are no old results. Then
the plot of `MST` fails. -/
theorem C120_large {readPy : List Char → Option (XNum ℚ)} (hp : PyFloat readPy) {fmt : XNum ℚ → List Char}
    (hf : Display fmt) {mean : List (XNum ℚ) → XNum ℚ} {sort : List (XNum ℚ) → List (XNum ℚ)} (hs : Sorts sort)
    {files : List Char → Option (List Char)} {program xml scratch : List Char}
    {outs : List Char → List (List Char)} {runs : Nat → Parallelism → List Measured}
    {times : Nat → Parallelism → List ℚ} (h : StmtRuns fmt files .mst program xml scratch outs runs times)
    (hg : ∀ n, files (instancePath scratch n) ≠ none → n ∈ genXxl) :
    ∃ e, plotResults (runJobs readPy mean sort outs (fun _ => none) (StmtBench.jobs .mst program xml scratch))
      StmtBench.mst.plotSizes = .error e := by
  have h4 : Sized .mst 4000 := Or.inr ⟨rfl, by decide, by decide, by decide⟩
  obtain ⟨-, k2, -⟩ := C120_results hp hf (mean := mean) hs h fun _ => none
  refine plot_fails (n := 4000) (p := .singleThreaded) (mem_plotSizes.mpr ⟨h4, by simp⟩) ?_
  have hm : files (instancePath (instanceDir xml scratch 4000) 4000) = none := by
    by_contra hne
    exact absurd (hg 4000 hne) (by decide +kernel)
  exact (k2 4000 .singleThreaded h4 (C120_missing h h4 hm _)).trans (by simp)

/-! ## `MST/QUEUE`, `MST/plot_all.py` and `Exact/STMT` -/

private theorem queue_files {program xml scratch f : List Char}
    (h : f ∈ (queueJobs program xml scratch).map Prod.snd) : ∃ n, f = resultFile n [] := by
  unfold queueJobs at h
  rw [List.map_append, List.map_map, List.map_map, List.mem_append, List.mem_map, List.mem_map] at h
  rcases h with ⟨n, -, h⟩ | ⟨n, -, h⟩ <;> exact ⟨n, h.symm⟩

private theorem queue_nodup {program xml scratch : List Char} :
    ((queueJobs program xml scratch).map Prod.snd).Nodup := by
  have e : (queueJobs program xml scratch).map Prod.snd =
      (shellFor 100 3000 100 ++ shellFor 4000 10000 1000).map (resultFile · []) := by
    unfold queueJobs
    rw [List.map_append, List.map_map, List.map_map, List.map_append]
    rfl
  rw [e]
  exact List.Nodup.map (fun n m h => (resultFile_inj h).1) (by decide +kernel)

/-- **C120, queue** The plot of `MST/QUEUE` reads files that its scripts never write: they are called without a
parallelism. Whatever the program prints, without files from elsewhere the plot fails. -/
theorem C120_queue {readPy : List Char → Option α} {mean : List α → α} {sort : List α → List α}
    {outs : List Char → List (List Char)} {program xml scratch : List Char} {dir : Results α} {n : Nat}
    (hn : n ∈ queuePlotSizes) {p : Parallelism} (hd : dir (resultFile n (parWord p)) = none) :
    ∃ e, plotResults (runJobs readPy mean sort outs dir (queueJobs program xml scratch)) queuePlotSizes = .error e := by
  refine plot_fails hn (p := p) ?_
  rw [(runJobs_apply queue_nodup).2 _ fun hm => ?_, hd]
  obtain ⟨m, h⟩ := queue_files hm
  have := (resultFile_inj h).2
  cases p <;> revert this <;> decide

/-- the command of the scripts of `MST/QUEUE` for a size -/
def queueCmdText (program xml scratch : List Char) (n : Nat) : List Char :=
  queueCommand program (if n ≤ 3000 then " ".toList else "  ".toList) (instanceDir xml scratch n) n

/-- **C120, command of the queue** The command of `MST/QUEUE` computes the bound with `mst-queue` in a single thread. -/
theorem C120_queue_command {program xml scratch : List Char} (hp : FromRoot program)
    (hx : FromRoot xml) (hs : FromRoot scratch) (n : Nat) :
    ∃ args, shellWords (queueCmdText program xml scratch n) = program :: args ∧
      CommandLine args (.lowerBound .mstQueue .singleThreaded) (instancePath (instanceDir xml scratch n) n) ∧
      ¬HelpRequest args := by
  have hd : FromRoot (instanceDir xml scratch n) := by
    unfold instanceDir
    split
    · exact hx
    · exact hs
  obtain ⟨h1, t, h2⟩ := path_noSpace hd n
  have hw : shellWords (queueCmdText program xml scratch n) =
      [program, "lower-bound".toList, "mst-queue".toList, instancePath (instanceDir xml scratch n) n] := by
    have e1 : " lower-bound mst-queue".toList = ' ' :: ("lower-bound".toList ++ ' ' :: "mst-queue".toList) := by decide
    have e2 : " ".toList = [' '] := by decide
    have e3 : "  ".toList = [' ', ' '] := by decide
    have e4 : queueCmdText program xml scratch n = program ++ ' ' :: ("lower-bound".toList ++ ' ' ::
        ("mst-queue".toList ++ ' ' :: ((if n ≤ 3000 then [] else [' ']) ++ instancePath (instanceDir xml scratch n) n))) := by
      unfold queueCmdText queueCommand instancePath
      rw [e1, e2, e3]
      split <;> simp only [List.append_assoc, List.cons_append, List.nil_append]
    have hl := words_last (by rw [h2]; simp) h1
    rw [e4, words_cons (root_ne hp) hp.2, words_cons (by decide) (by decide), words_cons (by decide) (by decide)]
    split
    · rw [List.nil_append, hl]
    · rw [List.cons_append, words_space, List.nil_append, hl]
  refine ⟨_, hw, ⟨by rw [h2]; simp, _, _, rfl, .pos ?_ (.pos (noDash_root h2) .done), rfl, Or.inl ⟨rfl, rfl⟩⟩, ?_⟩
  · intro u hu
    exact absurd (List.cons.inj hu).1 (by decide)
  · rintro (⟨as, h⟩ | ⟨a, ha, h⟩)
    · have := (List.cons.inj h).1
      revert this; decide
    · have key : ∀ c s, a = c :: s → c ≠ '-' → False := by
        intro c s hc hne
        rcases h with h | h | ⟨u, h⟩ | ⟨u, h⟩ <;> rw [hc] at h <;> exact hne (List.cons.inj h).1
      simp only [List.mem_cons, List.not_mem_nil, or_false] at ha
      rcases ha with ha | ha | ha
      · exact key _ _ ha (by decide)
      · exact key _ _ ha (by decide)
      · exact key _ _ (ha.trans h2) (by decide)

/-- the runs that the scripts of `MST/QUEUE` measure, as in `StmtRuns` -/
structure QueueRuns (fmt : XNum ℚ → List Char) (files : List Char → Option (List Char))
    (program xml scratch : List Char) (outs : List Char → List (List Char)) (runs : Nat → List Measured)
    (times : Nat → List ℚ) : Prop where
  hprogram : FromRoot program
  hxml : FromRoot xml
  hscratch : FromRoot scratch
  houts : ∀ n, Sized .mst n → outs (queueCmdText program xml scratch n) = (runs n).map (·.stdout)
  hok : ∀ n, Sized .mst n → ∀ r ∈ runs n, r.Ok fmt files (shellWords (queueCmdText program xml scratch n)).tail
  hreadable : ∀ n, Sized .mst n →
    @Readable _ binary64.ops readF64 files (shellWords (queueCmdText program xml scratch n)).tail
  htimes : ∀ n, Sized .mst n → (runs n).filterMap (·.time) = (times n).map .fin

private theorem mem_queueJobs {program xml scratch : List Char} {n : Nat} (hn : Sized .mst n) :
    (queueCmdText program xml scratch n, resultFile n []) ∈ queueJobs program xml scratch := by
  unfold queueJobs
  rw [List.mem_append, List.mem_map, List.mem_map]
  rcases sized_iff.mp hn with hn | ⟨-, hn⟩
  · have : n ≤ 3000 := (((C120_loops (by decide)).1 n).mp hn).2.1
    exact Or.inl ⟨n, hn, by simp only [queueCmdText, instanceDir, if_pos this]⟩
  · have : ¬n ≤ 3000 := by have := (((C120_loops (by decide)).1 n).mp hn).1; omega
    exact Or.inr ⟨n, hn, by simp only [queueCmdText, instanceDir, if_neg this]⟩

private theorem curve_ok {dir : Results α} {suffix : List Char} {v : Nat → α} :
    ∀ {sizes : List Nat} {c : Curve α},
      (∀ n ∈ sizes, readMedian dir ("result_".toList ++ (showUsize n ++ suffix)) = .ok (v n)) →
      sizes.foldlM (addPoint dir suffix) c = .ok (c.1 ++ sizes, c.2 ++ sizes.map v) := by
  intro sizes
  induction sizes with
  | nil => intro c _; simp [pure, Except.pure]
  | cons n sizes ih =>
    intro c h
    rw [List.foldlM_cons, addPoint_ok (h n List.mem_cons_self), rm_bind_ok,
      ih fun m hm => h m (List.mem_cons_of_mem _ hm)]
    simp

/-- **C120, `plot_all.py`** The plot of all spanning trees reads the results of both benchmarks where they are: if there
is a successful run for every size of each, there are three curves, all with the same sizes in ascending order, and the
values are the medians of the times of `mst` with one thread, of `mst` with several threads, and of `mst-queue`. -/
theorem C120_all {readPy : List Char → Option (XNum ℚ)} (hp : PyFloat readPy) {fmt : XNum ℚ → List Char}
    (hf : Display fmt) {mean : List (XNum ℚ) → XNum ℚ} {sort : List (XNum ℚ) → List (XNum ℚ)} (hs : Sorts sort)
    {files files' : List Char → Option (List Char)} {program xml scratch program' xml' scratch' : List Char}
    {outs outs' : List Char → List (List Char)} {runs : Nat → Parallelism → List Measured}
    {times : Nat → Parallelism → List ℚ} (h : StmtRuns fmt files .mst program xml scratch outs runs times)
    {runs' : Nat → List Measured} {times' : Nat → List ℚ}
    (h' : QueueRuns fmt files' program' xml' scratch' outs' runs' times') (dir dir' : Results (XNum ℚ))
    (ht : ∀ n p, Sized .mst n → times n p ≠ []) (ht' : ∀ n, Sized .mst n → times' n ≠ []) :
    ∃ ns : List Nat, ∃ med : Nat → Parallelism → ℚ, ∃ med' : Nat → ℚ,
      (∀ n, n ∈ ns ↔ Sized .mst n) ∧ ns.Pairwise (· < ·) ∧ (∀ n ∈ ns, ∀ p, UpperMedian (times n p) (med n p)) ∧
      (∀ n ∈ ns, UpperMedian (times' n) (med' n)) ∧
      plotAll (runJobs readPy mean sort outs dir (StmtBench.jobs .mst program xml scratch))
          (runJobs readPy mean sort outs' dir' (queueJobs program' xml' scratch')) =
        .ok (((ns, ns.map fun n => .fin (med n .singleThreaded)), (ns, ns.map fun n => .fin (med n .multiThreaded))),
          (ns, ns.map fun n => .fin (med' n))) := by
  obtain ⟨ns, med, n1, n2, n3, n4⟩ := (C120_plot hp hf (mean := mean) hs h dir).1 fun n p hn => ht n p hn.1
  have hD : ∀ n, Drawn .mst n ↔ Sized .mst n := fun n => ⟨fun h => h.1, fun h => ⟨h, by simp⟩⟩
  have : ∀ n, ∃ m, Sized .mst n → UpperMedian (times' n) m ∧
      runJobs readPy mean sort outs' dir' (queueJobs program' xml' scratch') (resultFile n []) =
        some ⟨(times' n).map .fin, mean ((times' n).map .fin), .fin m⟩ := by
    intro n
    by_cases hn : Sized .mst n
    · obtain ⟨args, h1, -, h3⟩ := C120_queue_command h'.hprogram h'.hxml h'.hscratch n
      have h4 := h'.hok n hn
      have h5 := h'.hreadable n hn
      rw [h1, List.tail_cons] at h4 h5
      obtain ⟨m, m1, m2, m3⟩ := (C103_summary hp hf (mean := mean) hs h3 h5 h4 (h'.htimes n hn)).2 (ht' n hn)
      refine ⟨m, fun _ => ⟨⟨m1, m3⟩, ?_⟩⟩
      rw [(runJobs_apply queue_nodup).1 _ _ (mem_queueJobs hn), h'.houts n hn, m2]
    · exact ⟨0, fun h => absurd h hn⟩
  choose med' hmed using this
  have hns : StmtBench.mst.plotSizes = ns := by
    have hp1 : StmtBench.mst.plotSizes.Perm ns := (List.perm_ext_iff_of_nodup
      ((plotSizes_lt .mst).imp fun h => Nat.ne_of_lt h) (n2.imp fun h => Nat.ne_of_lt h)).mpr
      fun n => mem_plotSizes.trans (n1 n).symm
    exact hp1.eq_of_pairwise (fun a b _ _ h1 h2 => absurd h1 (by omega)) (plotSizes_lt .mst) n2
  refine ⟨ns, med, med', fun n => (n1 n).trans (hD n), n2, n3,
    fun n hn => (hmed n ((hD n).mp ((n1 n).mp hn))).1, ?_⟩
  have hq := curve_ok (suffix := "_.json".toList) (v := fun n => XNum.fin (med' n)) (c := ([], [])) (sizes := ns)
    (fun n hn => (congrArg _ (queue_name n)).trans (readMedian_some (hmed n ((hD n).mp ((n1 n).mp hn))).2))
  have n4' : plotResults (runJobs readPy mean sort outs dir (StmtBench.jobs .mst program xml scratch))
    (pyRange 100 (3000 + 1) 100 ++ pyRange 4000 (10000 + 1) 1000) = _ := n4
  have hns' : pyRange 100 (3000 + 1) 100 ++ pyRange 4000 (10000 + 1) 1000 = ns := hns
  unfold plotAll
  simp only
  rw [n4', rm_bind_ok, hns', hq, rm_bind_ok]
  rfl

/-- **C120, exact solvers** `plot_results.py` reads files that the scripts write. But `plot_results_pt2.py` reads a file that
they do not write: it has another name. -/
theorem C120_exact :
    (∀ f ∈ exactRead, f ∈ exactWritten) ∧
    ∀ f, f ∈ exactRead2 ∧ f ∉ exactWritten ↔ f = "results_multithreaded.json".toList := by
  have h2 : exactRead2 = exactWritten.take 7 ++ ["results_multithreaded.json".toList] := by decide +kernel
  refine ⟨by decide +kernel, fun f => ⟨fun ⟨h, h'⟩ => ?_, fun h => ?_⟩⟩
  · rw [h2, List.mem_append] at h
    rcases h with h | h
    · exact absurd (List.mem_of_mem_take h) h'
    · exact List.mem_singleton.mp h
  · rw [h]; decide +kernel

/-! ## Examples -/

/-- what all runs print, with the numbers of a toy `float` -/
private def toyOut : List (List Char) :=
  ["elapsed seconds: 5\n".toList, "no time\n".toList, "elapsed seconds: 3\n".toList, "elapsed seconds: 4\n".toList]

/-- the curves of the 1-tree have 25 points, which are the medians -/
example : (plotResults (runJobs readDigits List.sum (List.insertionSort (· ≤ ·)) (fun _ => toyOut)
      (StmtBench.oneTree.start fun _ => none) (StmtBench.oneTree.jobs "/w".toList "/x".toList "/y".toList))
      StmtBench.oneTree.plotSizes).toOption.map (fun c => (c.1.1.length, c.1.2, c.2.2)) =
    some (25, List.replicate 25 4, List.replicate 25 4) := by decide +kernel

/-- In `MST` the old results of a size without a successful run are shown. -/
example : (plotResults (runJobs readDigits List.sum (List.insertionSort (· ≤ ·))
      (fun c => if "/200.xml".toList.isSuffixOf c then [] else toyOut)
      (StmtBench.mst.start fun _ => some ⟨[9], 9, 9⟩) (StmtBench.mst.jobs "/w".toList "/x".toList "/y".toList))
      StmtBench.mst.plotSizes).toOption.map (fun c => (c.1.1.take 3, c.1.2.take 3)) =
    some ([100, 200, 300], [4, 9, 4]) := by decide +kernel

/-- three cities with costs 5 -/
private def exText : List Char := @genXml _ binary64.ops (fun _ => "5".toList)
  [[.fin 0, .fin 5, .fin 5], [.fin 5, .fin 0, .fin 5], [.fin 5, .fin 5, .fin 0]]

private def exRun (fmt : XNum ℚ → List Char) : Measured :=
  ⟨env1, fun _ => .fin (1 / 2), benchText fmt [.result (.oneTreeBound (.fin 15)), .elapsed (.fin (1 / 2))], .success⟩

namespace Example

deriving instance DecidableEq for Line

end Example

private theorem exText_read : @parseFromXml _ binary64.ops readF64 exText =
    .ok (genInstance [[⟨1, .fin 5⟩, ⟨2, .fin 5⟩], [⟨0, .fin 5⟩, ⟨2, .fin 5⟩], [⟨0, .fin 5⟩, ⟨1, .fin 5⟩]]) := by
  decide +kernel

/-- the assumptions are satisfied: all instances are three cities, and every command has one run, which takes half a
second -/
example (fmt : XNum ℚ → List Char) : StmtRuns fmt (fun _ => some exText) .oneTree "/w".toList "/x".toList "/y".toList
    (fun _ => [(exRun fmt).stdout]) (fun _ _ => [exRun fmt]) (fun _ _ => [1 / 2]) := by
  have hw : FromRoot "/w".toList := by unfold FromRoot; decide
  have hx : FromRoot "/x".toList := by unfold FromRoot; decide
  have hy : FromRoot "/y".toList := by unfold FromRoot; decide
  have hd : ∀ n, FromRoot (instanceDir "/x".toList "/y".toList n) := by
    intro n
    unfold instanceDir
    split
    · exact hx
    · exact hy
  refine ⟨hw, hx, hy, fun n p _ => rfl, fun n p _ r hr => ?_, fun n p _ cmd path t h1 h2 => ?_, fun n p _ => rfl⟩
  · obtain rfl := List.mem_singleton.mp hr
    obtain ⟨args, h1, h2, h3⟩ := C120_command (b := .oneTree) hw (hd n) n p
    refine ⟨env1_ok, fun k q hq => ?_, fun e h => Exit.noConfusion h, ?_⟩
    · have h5 : round64 (1 / 2) = .fin q := by
        have h6 : XNum.fin (1 / 2) = .fin q := hq
        rw [← h6]
        decide +kernel
      exact (round64_fin h5).2
    · rw [h1, List.tail_cons]
      intro _
      rw [parseArgs_iff.mpr h2]
      simp only [exText_read]
      refine ⟨⟨[.result (.oneTreeBound (.fin 15)), .elapsed (.fin (1 / 2))], .ok ()⟩, ?_,
        (benchText_eq fmt _).symm ▸ rfl, rfl⟩
      have hb : @lowerBoundRun _ binary64.ops env1 (genInstance [[⟨1, .fin 5⟩, ⟨2, .fin 5⟩], [⟨0, .fin 5⟩, ⟨2, .fin 5⟩],
          [⟨0, .fin 5⟩, ⟨1, .fin 5⟩]]).graph .oneTree p = .ok [.oneTreeBound (.fin 15)] := by
        cases p <;> decide +kernel
      show _ = (Out.print id (@lowerBoundRun _ binary64.ops env1 _ _ _)).timed _
      rw [hb]
      rfl
  · obtain rfl := Option.some.inj h2
    rw [exText_read]
    simp

/-- the words of a command -/
example : shellWords (stmtCommand .nn "/w".toList "/x".toList 100 "multi-threaded".toList) =
    ["/w".toList, "approx".toList, "nearest-neighbour".toList, "-p".toList, "multi-threaded".toList,
      "/x/100.xml".toList] := by decide +kernel

end Walky.Props
