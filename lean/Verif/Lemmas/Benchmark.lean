import Verif.BenchmarkSpec
import Verif.Lemmas.Output
import Verif.Lemmas.PrintedMpi

/-! # Lemmas: measurements -/

namespace Walky

open Spec FloatOps

variable {α : Type}

/-! ## Python -/

theorem pySplit_ne (sep : Char) (s : List Char) : pySplit sep s ≠ [] := by
  cases s with
  | nil => simp [pySplit]
  | cons c t =>
    rw [pySplit]
    split
    · simp
    · split <;> simp

theorem pySplit_none {sep : Char} {s : List Char} (h : sep ∉ s) : pySplit sep s = [s] := by
  induction s with
  | nil => rfl
  | cons c t ih =>
    rw [pySplit, if_neg (fun e => h (by simp [e])), ih (fun e => h (by simp [e]))]

theorem pySplit_append {sep : Char} {s : List Char} (h : sep ∉ s) (t : List Char) :
    pySplit sep (s ++ sep :: t) = s :: pySplit sep t := by
  induction s with
  | nil => rw [List.nil_append, pySplit, if_pos rfl]
  | cons c s ih =>
    rw [List.cons_append, pySplit, if_neg (fun e => h (by simp [e])), ih (fun e => h (by simp [e]))]

theorem pyStrip_eq {s : List Char} (h : ∀ c ∈ s, pySpace c = false) : pyStrip s = s := by
  have : ∀ s : List Char, (∀ c ∈ s, pySpace c = false) → s.dropWhile pySpace = s := by
    intro s h
    cases s with
    | nil => rfl
    | cons c s => rw [List.dropWhile_cons_of_neg (by simp [h c (by simp)])]
  unfold pyStrip
  rw [this s h, this _ (fun c hc => h c (List.mem_reverse.mp hc)), List.reverse_reverse]

theorem pyStrip_space {s : List Char} (h : ∀ c ∈ s, pySpace c = false) : pyStrip (' ' :: s) = s := by
  have : pyStrip (' ' :: s) = pyStrip s := by
    unfold pyStrip
    rw [List.dropWhile_cons_of_pos (by decide)]
  rw [this, pyStrip_eq h]

theorem pyStrip_line {s : List Char} (h : ∀ c ∈ s, pySpace c = false) : pyStrip (' ' :: s ++ ['\n']) = s := by
  cases s with
  | nil => decide
  | cons c s =>
    unfold pyStrip
    rw [List.cons_append, List.dropWhile_cons_of_pos (by decide),
      List.cons_append, List.dropWhile_cons_of_neg (by simp [h c (by simp)]), ← List.cons_append,
      List.reverse_append, List.reverse_singleton, List.singleton_append, List.dropWhile_cons_of_pos (by decide)]
    have : ∀ s : List Char, (∀ c ∈ s, pySpace c = false) → s.dropWhile pySpace = s := by
      intro s h
      cases s with
      | nil => rfl
      | cons c s => rw [List.dropWhile_cons_of_neg (by simp [h c (by simp)])]
    rw [this _ (fun d hd => h d (List.mem_reverse.mp hd)), List.reverse_reverse]

/-! ## Printed numbers -/

/-- the characters that `Display` prints -/
theorem Spec.Display.chars {fmt : XNum ℚ → List Char} (hf : Display fmt) {x : XNum ℚ} (hx : DoubleVal x) {c : Char}
    (hc : c ∈ fmt x) : c.isDigit = true ∨ c ∈ "-+.eNainf".toList := by
  cases x with
  | nan => rw [hf.nan] at hc; right; revert hc; revert c; decide
  | ninf => rw [hf.ninf] at hc; right; revert hc; revert c; decide
  | inf => rw [hf.inf] at hc; right; revert hc; revert c; decide
  | fin q =>
    obtain ⟨n, h1, h2, -, -⟩ := hf.finite q (hx q rfl)
    rw [h1] at hc
    rcases h2.mem hc with h | h
    · exact Or.inl h
    · right
      clear hc
      revert h
      revert c
      decide

theorem Spec.Display.noSpace {fmt : XNum ℚ → List Char} (hf : Display fmt) {x : XNum ℚ} (hx : DoubleVal x) :
    ∀ c ∈ fmt x, pySpace c = false := by
  intro c hc
  rcases hf.chars hx hc with h | h
  · simp only [Char.isDigit, Bool.and_eq_true, decide_eq_true_eq] at h
    have h1 : 48 ≤ c.toNat := h.1
    have h2 : c.toNat ≤ 57 := h.2
    unfold pySpace
    generalize c.toNat = k at h1 h2
    interval_cases k <;> rfl
  · clear hc
    revert h
    revert c
    decide

theorem Spec.Display.noColon {fmt : XNum ℚ → List Char} (hf : Display fmt) {x : XNum ℚ} (hx : DoubleVal x) :
    ':' ∉ fmt x := by
  intro hc
  rcases hf.chars hx hc with h | h
  · exact absurd h (by decide)
  · exact absurd h (by decide)

theorem Spec.PyFloat.read {readPy : List Char → Option (XNum ℚ)} (hp : PyFloat readPy) {fmt : XNum ℚ → List Char}
    (hf : Display fmt) {x : XNum ℚ} (hx : DoubleVal x) : readPy (fmt x) = some x := by
  cases x with
  | nan => rw [hf.nan]; exact hp.nan
  | ninf => rw [hf.ninf]; exact hp.ninf
  | inf => rw [hf.inf]; exact hp.inf
  | fin q =>
    obtain ⟨n, h1, h2, -, h4⟩ := hf.finite q (hx q rfl)
    rw [h1, hp.finite n h2, h4]

theorem pyFloat_readF64 : PyFloat readF64 :=
  ⟨fun _ hn => readF64_numeral hn, by decide +kernel, by decide +kernel, by decide +kernel⟩

/-- a number after a label -/
theorem pyField_eq {readPy : List Char → Option (XNum ℚ)} (hp : PyFloat readPy) {fmt : XNum ℚ → List Char}
    (hf : Display fmt) {x : XNum ℚ} (hx : DoubleVal x) {label : List Char} (hl : ':' ∉ label) :
    pyField readPy (label ++ ':' :: ' ' :: fmt x) = .ok x ∧
    pyField readPy ((label ++ ':' :: ' ' :: fmt x) ++ ['\n']) = .ok x := by
  have h1 : ':' ∉ ' ' :: fmt x := by
    intro h
    rcases List.mem_cons.mp h with h | h
    · exact absurd h (by decide)
    · exact hf.noColon hx h
  have h2 : ':' ∉ ' ' :: fmt x ++ ['\n'] := by
    intro h
    rcases List.mem_append.mp h with h | h
    · exact h1 h
    · exact absurd h (by decide)
  constructor
  · unfold pyField
    rw [pySplit_append hl, pySplit_none h1]
    simp only [idx, List.getElem?_cons_succ, List.getElem?_cons_zero, rm_bind_ok]
    rw [pyStrip_space (hf.noSpace hx), hp.read hf hx]
    rfl
  · unfold pyField
    rw [List.append_assoc, List.cons_append, pySplit_append hl, pySplit_none h2]
    simp only [idx, List.getElem?_cons_succ, List.getElem?_cons_zero, rm_bind_ok]
    rw [pyStrip_line (hf.noSpace hx), hp.read hf hx]
    rfl

/-! ## Lines -/

def BLine.number : BLine α → Option α
  | .result l => l.number
  | .elapsed t => some t

theorem benchLine_result (fmt : α → List Char) (l : Line α) : benchLine fmt (.result l) = textOf fmt l := rfl

theorem benchLine_elapsed (fmt : α → List Char) (t : α) :
    benchLine fmt (.elapsed t) = "elapsed seconds: ".toList ++ fmt t := rfl

theorem text_eq (fmt : α → List Char) (b : BLine α) : b.text fmt = benchLine fmt b ++ ['\n'] := by
  cases b with
  | result l => rw [benchLine_result, textOf_eq]; exact lineText_eq fmt l
  | elapsed t => rfl

theorem benchText_eq (fmt : α → List Char) (ls : List (BLine α)) : ls.flatMap (BLine.text fmt) = benchText fmt ls := by
  induction ls with
  | nil => rfl
  | cons b ls ih => rw [List.flatMap_cons, ih, text_eq, benchText]; simp

theorem benchText_append (fmt : α → List Char) (ls ks : List (BLine α)) :
    benchText fmt (ls ++ ks) = benchText fmt ls ++ benchText fmt ks := by
  rw [← benchText_eq, List.flatMap_append, benchText_eq, benchText_eq]

theorem benchText_result (fmt : α → List Char) (ls : List (Line α)) :
    benchText fmt (ls.map .result) = outputText fmt ls := by
  induction ls with
  | nil => rfl
  | cons l ls ih => rw [List.map_cons, benchText, ih, outputText]; rfl

theorem newline_bench {fmt : XNum ℚ → List Char} (hf : Display fmt) {b : BLine (XNum ℚ)}
    (hb : ∀ x, b.number = some x → DoubleVal x) : '\n' ∉ benchLine fmt b := by
  cases b with
  | result l => rw [benchLine_result, textOf_eq]; exact newline_line hf hb
  | elapsed t =>
    rw [benchLine_elapsed]
    intro h
    rcases List.mem_append.mp h with h | h
    · exact absurd h (by decide)
    · exact hf.newline (hb t rfl) h

theorem split_bench {fmt : XNum ℚ → List Char} (hf : Display fmt) {ls : List (BLine (XNum ℚ))}
    (hb : ∀ b ∈ ls, ∀ x, b.number = some x → DoubleVal x) :
    pySplit '\n' (benchText fmt ls) = ls.map (benchLine fmt) ++ [[]] := by
  induction ls with
  | nil => rfl
  | cons b ls ih =>
    rw [benchText, pySplit_append (newline_bench hf (hb b (by simp))), ih (fun b h => hb b (by simp [h]))]
    rfl

/-- `start` selects the lines with a number `pick` -/
structure Picks (readPy : List Char → Option α) (fmt : α → List Char) (P : α → Prop) (start : List Char)
    (pick : BLine α → Option α) : Prop where
  ne : start ≠ []
  other : ∀ b, pick b = none → start.isPrefixOf (benchLine fmt b) = false ∧
    start.isPrefixOf (benchLine fmt b ++ ['\n']) = false
  hit : ∀ b x, pick b = some x → P x → start.isPrefixOf (benchLine fmt b) = true ∧
    start.isPrefixOf (benchLine fmt b ++ ['\n']) = true ∧ pyField readPy (benchLine fmt b) = .ok x ∧
    pyField readPy (benchLine fmt b ++ ['\n']) = .ok x

theorem firstField_eq {readPy : List Char → Option α} {fmt : α → List Char} {P : α → Prop} {start : List Char}
    {pick : BLine α → Option α} (h : Picks readPy fmt P start pick) {ls : List (BLine α)}
    (hP : ∀ b ∈ ls, ∀ x, pick b = some x → P x) :
    firstField readPy start (ls.map (benchLine fmt) ++ [[]]) = .ok (ls.filterMap pick).head? := by
  induction ls with
  | nil =>
    rw [List.map_nil, List.nil_append, firstField, if_neg, firstField]
    · rfl
    · have := h.ne
      cases start with
      | nil => exact absurd rfl this
      | cons c s => simp [List.isPrefixOf]
  | cons b ls ih =>
    rw [List.map_cons, List.cons_append, firstField]
    cases hb : pick b with
    | none =>
      rw [if_neg (by simp [(h.other b hb).1]), ih (fun b hb => hP b (by simp [hb])), List.filterMap_cons, hb]
    | some x =>
      obtain ⟨h1, -, h2, -⟩ := h.hit b x hb (hP b (by simp) x hb)
      rw [if_pos h1, h2, List.filterMap_cons, hb]
      rfl

theorem collect_eq {β : Type} {readPy : List Char → Option α} {start : List Char} {runs : List β}
    {text : β → List Char} {v : β → Option α}
    (h : ∀ r ∈ runs, firstField readPy start (pySplit '\n' (text r)) = .ok (v r)) :
    collect readPy start (runs.map text) = .ok (runs.filterMap v) := by
  have : ∀ acc : List α, (runs.map text).foldlM (fun acc out => do
      match ← firstField readPy start (pySplit '\n' out) with
      | some x => return acc ++ [x]
      | none => return acc : List α → List Char → RM (List α)) acc = .ok (acc ++ runs.filterMap v) := by
    induction runs with
    | nil => intro acc; simp
    | cons r runs ih =>
      intro acc
      rw [List.map_cons, List.foldlM_cons, h r (by simp), List.filterMap_cons]
      cases hv : v r with
      | none =>
        simp only [rm_bind_ok, rm_pure]
        exact ih (fun r hr => h r (by simp [hr])) acc
      | some x =>
        simp only [rm_bind_ok, rm_pure]
        refine (ih (fun r hr => h r (by simp [hr])) (acc ++ [x])).trans ?_
        simp
  exact this []

theorem getMeasurements_eq {readPy : List Char → Option α} {start : List Char} {v : List Char → Option α}
    {lines : List (List Char)} (h : ∀ l ∈ lines, (start.isPrefixOf l = false ∧ v l = none) ∨
      ∃ x, start.isPrefixOf l = true ∧ pyField readPy l = .ok x ∧ v l = some x) :
    getMeasurements readPy start lines = .ok (lines.filterMap v) := by
  have : ∀ acc : List α, lines.foldlM (fun acc line =>
      if start.isPrefixOf line then do return acc ++ [← pyField readPy line] else return acc :
        List α → List Char → RM (List α)) acc = .ok (acc ++ lines.filterMap v) := by
    induction lines with
    | nil => intro acc; simp
    | cons l lines ih =>
      intro acc
      rw [List.foldlM_cons, List.filterMap_cons]
      rcases h l (by simp) with ⟨h1, h2⟩ | ⟨x, h1, h2, h3⟩
      · rw [if_neg (by simp [h1]), h2, rm_pure, rm_bind_ok]
        exact ih (fun l hl => h l (by simp [hl])) acc
      · rw [if_pos h1, h2, h3, rm_bind_ok, rm_pure, rm_bind_ok, ih (fun l hl => h l (by simp [hl]))]
        simp
  exact this []

theorem measurements_perm {readPy : List Char → Option α} {fmt : α → List Char} {P : α → Prop} {start : List Char}
    {pick : BLine α → Option α} (h : Picks readPy fmt P start pick) {ls : List (BLine α)}
    (hP : ∀ b ∈ ls, ∀ x, pick b = some x → P x) {others file : List (List Char)}
    (ho : ∀ l ∈ others, start.isPrefixOf l = false) (hf : file.Perm (others ++ ls.map (BLine.text fmt))) :
    ∃ vs, getMeasurements readPy start file = .ok vs ∧ vs.Perm (ls.filterMap pick) := by
  let v : List Char → Option α := fun l =>
    if start.isPrefixOf l then
      match pyField readPy l with
      | .ok x => some x
      | .error _ => none
    else none
  have hb : ∀ b ∈ ls, (start.isPrefixOf (b.text fmt) = false ∧ v (b.text fmt) = none ∧ pick b = none) ∨
      ∃ x, start.isPrefixOf (b.text fmt) = true ∧ pyField readPy (b.text fmt) = .ok x ∧ v (b.text fmt) = some x ∧
        pick b = some x := by
    intro b hb
    rw [text_eq]
    cases hp : pick b with
    | none =>
      have := (h.other b hp).2
      exact Or.inl ⟨this, by simp only [v]; rw [if_neg (by simp [this])], rfl⟩
    | some x =>
      obtain ⟨-, h1, -, h2⟩ := h.hit b x hp (hP b hb x hp)
      exact Or.inr ⟨x, h1, h2, by simp only [v]; rw [if_pos h1, h2], rfl⟩
  have ho' : ∀ l ∈ others, v l = none := fun l hl => by simp only [v]; rw [if_neg (by simp [ho l hl])]
  refine ⟨file.filterMap v, getMeasurements_eq fun l hl => ?_, ?_⟩
  · rcases List.mem_append.mp (hf.mem_iff.mp hl) with hl | hl
    · exact Or.inl ⟨ho l hl, ho' l hl⟩
    · obtain ⟨b, hbm, rfl⟩ := List.mem_map.mp hl
      rcases hb b hbm with ⟨h1, h2, -⟩ | ⟨x, h1, h2, h3, -⟩
      · exact Or.inl ⟨h1, h2⟩
      · exact Or.inr ⟨x, h1, h2, h3⟩
  · refine (hf.filterMap v).trans ?_
    rw [List.filterMap_append, List.filterMap_eq_nil_iff.mpr ho', List.nil_append, List.filterMap_map]
    rw [List.filterMap_congr (g := pick)]
    intro b hbm
    rcases hb b hbm with ⟨-, h2, h3⟩ | ⟨x, -, -, h3, h4⟩
    · rw [h3]; exact h2
    · rw [h4]; exact h3

/-! ## The lines that are looked for -/

theorem isPrefixOf_ne {c d : Char} (h : c ≠ d) (s t : List Char) : (c :: s).isPrefixOf (d :: t) = false := by
  simp [List.isPrefixOf, h]

/-- the first character of a line -/
theorem head_line (fmt : α → List Char) (l : Line α) : ∃ c s, textOf fmt l = c :: s ∧ c ≠ 'e' ∧
    ((∀ x, l ≠ .christofidesWeight x) → c ≠ 'C') := by
  rw [textOf_eq]
  cases l with
  | christofidesWeight x => exact ⟨'C', _, rfl, by decide, fun h => absurd rfl (h x)⟩
  | bestCost x => exact ⟨'B', _, rfl, by decide, fun _ => by decide⟩
  | bestPermutation x => exact ⟨'B', _, rfl, by decide, fun _ => by decide⟩
  | nnWeight x => exact ⟨'N', _, rfl, by decide, fun _ => by decide⟩
  | nnTour x => exact ⟨'N', _, rfl, by decide, fun _ => by decide⟩
  | oneTreeBound x => exact ⟨'1', _, rfl, by decide, fun _ => by decide⟩
  | mstBound x => exact ⟨'M', _, rfl, by decide, fun _ => by decide⟩

def pickTime : BLine α → Option α
  | .result _ => none
  | .elapsed t => some t

def pickWeight : BLine α → Option α
  | .result (.christofidesWeight x) => some x
  | _ => none

theorem prefix_append {s l t : List Char} (h : s <+: l) : s.isPrefixOf (l ++ t) = true :=
  List.isPrefixOf_iff_prefix.mpr (h.trans (List.prefix_append l t))

theorem picks_time {readPy : List Char → Option (XNum ℚ)} (hp : PyFloat readPy) {fmt : XNum ℚ → List Char}
    (hf : Display fmt) {s : List Char} (hs : 'e' :: s <+: "elapsed seconds: ".toList) :
    Picks readPy fmt DoubleVal ('e' :: s) pickTime := by
  refine ⟨by simp, fun b hb => ?_, fun b x hb hx => ?_⟩
  · cases b with
    | elapsed t => cases hb
    | result l =>
      obtain ⟨c, t, h1, h2, -⟩ := head_line fmt l
      rw [benchLine_result, h1]
      exact ⟨isPrefixOf_ne h2.symm _ _, isPrefixOf_ne h2.symm _ _⟩
  · cases b with
    | result l => cases hb
    | elapsed t =>
      obtain rfl := Option.some.inj hb
      obtain ⟨h1, h2⟩ := pyField_eq hp hf hx (label := "elapsed seconds".toList) (by decide)
      rw [benchLine_elapsed]
      refine ⟨prefix_append hs, ?_, h1, h2⟩
      rw [List.append_assoc]
      exact prefix_append hs

theorem textOf_weight (fmt : α → List Char) (x : α) :
    textOf fmt (.christofidesWeight x) = "Christofides solution weight: ".toList ++ fmt x := rfl

theorem weight_label (s : List Char) : "Christofides solution weight".toList ++ ':' :: ' ' :: s =
    "Christofides solution weight: ".toList ++ s := by
  have : "Christofides solution weight: ".toList = "Christofides solution weight".toList ++ [':', ' '] := by
    decide +kernel
  rw [this, List.append_assoc]
  rfl

theorem picks_weight {readPy : List Char → Option (XNum ℚ)} (hp : PyFloat readPy) {fmt : XNum ℚ → List Char}
    (hf : Display fmt) {s : List Char} (hs : 'C' :: s <+: "Christofides solution weight: ".toList) :
    Picks readPy fmt DoubleVal ('C' :: s) pickWeight := by
  refine ⟨by simp, fun b hb => ?_, fun b x hb hx => ?_⟩
  · cases b with
    | elapsed t =>
      obtain ⟨r, hr⟩ : ∃ r, "elapsed seconds: ".toList = 'e' :: r := ⟨_, rfl⟩
      rw [benchLine_elapsed, hr]
      exact ⟨isPrefixOf_ne (by decide) _ _, isPrefixOf_ne (by decide) _ _⟩
    | result l =>
      obtain ⟨c, t, h1, -, h2⟩ := head_line fmt l
      have h2 := h2 (by rintro x rfl; cases hb)
      rw [benchLine_result, h1]
      exact ⟨isPrefixOf_ne h2.symm _ _, isPrefixOf_ne h2.symm _ _⟩
  · cases b with
    | elapsed t => cases hb
    | result l =>
      cases l with
      | christofidesWeight y =>
        obtain rfl := Option.some.inj hb
        obtain ⟨h1, h2⟩ := pyField_eq hp hf hx (label := "Christofides solution weight".toList) (by decide)
        rw [weight_label] at h1 h2
        rw [benchLine_result, textOf_weight]
        refine ⟨prefix_append hs, ?_, h1, h2⟩
        rw [List.append_assoc]
        exact prefix_append hs
      | bestCost y => cases hb
      | bestPermutation y => cases hb
      | nnWeight y => cases hb
      | nnTour y => cases hb
      | oneTreeBound y => cases hb
      | mstBound y => cases hb

theorem timesOf_eq (ls : List (BLine α)) : timesOf ls = ls.filterMap pickTime := by
  rfl

theorem weightsOf_eq (ls : List (BLine α)) : weightsOf ls = ls.filterMap pickWeight := by
  rfl

end Walky
