import Verif.Lemmas.Printed
import Verif.Lemmas.Prints
import Verif.Lemmas.Program

/-! # Lemmas: the output determines its lines -/

namespace Walky

open Spec FloatOps

/-! ## Lists of characters -/

/-- Up to the first separator, a text is determined. -/
theorem split_at_sep {β : Type} {c : β} {a b r s : List β} (ha : c ∉ a) (hb : c ∉ b)
    (h : a ++ c :: r = b ++ c :: s) : a = b ∧ r = s := by
  induction a generalizing b with
  | nil =>
    cases b with
    | nil => exact ⟨rfl, (List.cons.inj h).2⟩
    | cons y b => exact absurd (by rw [(List.cons.inj h).1]; simp) hb
  | cons x a ih =>
    cases b with
    | nil => exact absurd (by rw [(List.cons.inj h).1]; simp) ha
    | cons y b =>
      obtain ⟨h1, h2⟩ := List.cons.inj h
      obtain ⟨h3, h4⟩ := ih (fun h => ha (by simp [h])) (fun h => hb (by simp [h])) h2
      exact ⟨by rw [h1, h3], h4⟩

/-- Digits before something that is no digit are determined. -/
theorem split_digits {a b r s : List Char} (ha : ∀ c ∈ a, c.isDigit = true) (hb : ∀ c ∈ b, c.isDigit = true)
    (hr : ∃ c t, r = c :: t ∧ c.isDigit = false) (hs : ∃ c t, s = c :: t ∧ c.isDigit = false)
    (h : a ++ r = b ++ s) : a = b ∧ r = s := by
  induction a generalizing b with
  | nil =>
    cases b with
    | nil => exact ⟨rfl, h⟩
    | cons y b =>
      obtain ⟨c, t, rfl, hc⟩ := hr
      have := hb y (by simp)
      rw [← (List.cons.inj h).1, hc] at this
      cases this
  | cons x a ih =>
    cases b with
    | nil =>
      obtain ⟨c, t, rfl, hc⟩ := hs
      have := ha x (by simp)
      rw [(List.cons.inj h).1, hc] at this
      cases this
    | cons y b =>
      obtain ⟨h1, h2⟩ := List.cons.inj h
      obtain ⟨h3, h4⟩ := ih (fun c h => ha c (by simp [h])) (fun c h => hb c (by simp [h])) h2
      exact ⟨by rw [h1, h3], h4⟩

/-! ## Numbers and paths -/

theorem showUsize_inj {a b : Nat} (h : showUsize a = showUsize b) : a = b := by
  rw [← digitsValue_showUsize a, h, digitsValue_showUsize]

theorem sep_comma : ", ".toList = [',', ' '] := by decide
theorem sep_close : "]".toList = [']'] := by decide
theorem sep_open : "[".toList = ['['] := by decide
theorem sep_empty : "[]".toList = ['[', ']'] := by decide

theorem showRest_head (l : List Nat) : ∃ c t, showRest l = c :: t ∧ c.isDigit = false := by
  cases l with
  | nil => exact ⟨']', [], sep_close, by decide⟩
  | cons x l => exact ⟨',', _, by rw [showRest, sep_comma]; rfl, by decide⟩

theorem showRest_inj {a b : List Nat} (h : showRest a = showRest b) : a = b := by
  induction a generalizing b with
  | nil =>
    cases b with
    | nil => rfl
    | cons y b =>
      rw [showRest, showRest, sep_close, sep_comma] at h
      exact absurd (List.cons.inj h).1 (by decide)
  | cons x a ih =>
    cases b with
    | nil =>
      rw [showRest, showRest, sep_close, sep_comma] at h
      exact absurd (List.cons.inj h).1 (by decide)
    | cons y b =>
      rw [showRest, showRest, List.append_assoc, List.append_assoc] at h
      obtain ⟨h1, h2⟩ := split_digits (fun c hc => showUsize_digit hc) (fun c hc => showUsize_digit hc)
        (showRest_head a) (showRest_head b) (List.append_cancel_left h)
      rw [showUsize_inj h1, ih h2]

theorem showPath_inj {a b : List Nat} (h : showPath a = showPath b) : a = b := by
  have no : ∀ x l, showPath (x :: l) ≠ showPath [] := by
    intro x l h
    rw [showPath, showPath, sep_open, sep_empty] at h
    have h := (List.cons.inj h).2
    cases hx : showUsize x with
    | nil => exact showUsize_ne x hx
    | cons c t =>
      have h' : showUsize x ++ showRest l = [']'] := h
      rw [hx] at h'
      have := showUsize_digit (n := x) (c := c) (by rw [hx]; simp)
      rw [(List.cons.inj h').1] at this
      exact absurd this (by decide)
  cases a with
  | nil =>
    cases b with
    | nil => rfl
    | cons y b => exact absurd h.symm (no y b)
  | cons x a =>
    cases b with
    | nil => exact absurd h (no x a)
    | cons y b =>
      rw [showPath, showPath, List.append_assoc, List.append_assoc] at h
      obtain ⟨h1, h2⟩ := split_digits (fun c hc => showUsize_digit hc) (fun c hc => showUsize_digit hc)
        (showRest_head a) (showRest_head b) (List.append_cancel_left h)
      rw [showUsize_inj h1, showRest_inj h2]

theorem newline_showRest (l : List Nat) : '\n' ∉ showRest l := by
  induction l with
  | nil => decide
  | cons x l ih =>
    rw [showRest, sep_comma]
    intro h
    rcases List.mem_append.mp h with h | h
    · rcases List.mem_append.mp h with h | h
      · exact absurd h (by decide)
      · exact absurd (showUsize_digit h) (by decide)
    · exact ih h

theorem newline_showPath (l : List Nat) : '\n' ∉ showPath l := by
  cases l with
  | nil => decide
  | cons x l =>
    rw [showPath, sep_open]
    intro h
    rcases List.mem_append.mp h with h | h
    · rcases List.mem_append.mp h with h | h
      · exact absurd h (by decide)
      · exact absurd (showUsize_digit h) (by decide)
    · exact newline_showRest l h

theorem Spec.Display.newline {fmt : XNum ℚ → List Char} (hf : Display fmt) {x : XNum ℚ} (hx : DoubleVal x) :
    '\n' ∉ fmt x := by
  cases x with
  | nan => rw [hf.nan]; decide
  | ninf => rw [hf.ninf]; decide
  | inf => rw [hf.inf]; decide
  | fin q =>
    obtain ⟨n, h1, h2, -, -⟩ := hf.finite q (hx q rfl)
    rw [h1]
    intro hc
    rcases h2.mem hc with h | h
    · exact absurd h (by decide)
    · exact absurd h (by decide)

/-! ## Lines -/

variable {α : Type}

/-- the label of a line, and what follows it -/
def Line.label : Line α → List Char
  | .bestCost _ => "Best Cost: ".toList
  | .bestPermutation _ => "Best Permutation: ".toList
  | .christofidesWeight _ => "Christofides solution weight: ".toList
  | .nnWeight _ => "Nearest Neighbour solution weight: ".toList
  | .nnTour _ => "Nearest Neighbour solution: ".toList
  | .oneTreeBound _ => "1-tree lower bound: ".toList
  | .mstBound _ => "MST lower bound: ".toList

def Line.rest (fmt : α → List Char) : Line α → List Char
  | .bestPermutation p => showPath p
  | .nnTour p => showPath p
  | .bestCost x => fmt x
  | .christofidesWeight x => fmt x
  | .nnWeight x => fmt x
  | .oneTreeBound x => fmt x
  | .mstBound x => fmt x

def Line.kind : Line α → Fin 7
  | .bestCost _ => 0
  | .bestPermutation _ => 1
  | .christofidesWeight _ => 2
  | .nnWeight _ => 3
  | .nnTour _ => 4
  | .oneTreeBound _ => 5
  | .mstBound _ => 6

def labels : List (List Char) :=
  ["Best Cost: ".toList, "Best Permutation: ".toList, "Christofides solution weight: ".toList,
    "Nearest Neighbour solution weight: ".toList, "Nearest Neighbour solution: ".toList,
    "1-tree lower bound: ".toList, "MST lower bound: ".toList]

theorem label_eq (l : Line α) : labels[l.kind.val]? = some l.label := by cases l <;> rfl

theorem lineText_eq (fmt : α → List Char) (l : Line α) : lineText fmt l = (l.label ++ l.rest fmt) ++ ['\n'] := by
  cases l <;> rfl

theorem tourText_eq (p : List Nat) : tourText p = showPath p := by
  have hr : ∀ (x : Nat) (l : List Nat), List.intercalate [',', ' '] ((x :: l).map (Nat.toDigits 10)) ++ [']'] =
      showUsize x ++ showRest l := by
    intro x l
    induction l generalizing x with
    | nil =>
      rw [showRest, sep_close]
      simp [List.intercalate, showUsize]
    | cons y l ih =>
      rw [showRest, sep_comma, List.append_assoc, ← ih y]
      simp [List.intercalate, showUsize]
  cases p with
  | nil => rw [showPath, sep_empty]; rfl
  | cons x l =>
    rw [showPath, sep_open, tourText, List.append_assoc, ← hr]
    rfl

theorem textOf_eq (fmt : α → List Char) (l : Line α) : textOf fmt l = l.label ++ l.rest fmt := by
  cases l with
  | bestPermutation p => exact congrArg (fun t => (Line.bestPermutation (α := α) p).label ++ t) (tourText_eq p)
  | nnTour p => exact congrArg (fun t => (Line.nnTour (α := α) p).label ++ t) (tourText_eq p)
  | _ => rfl

theorem outputText_eq (fmt : α → List Char) (ls : List (Line α)) :
    outputText fmt ls = ls.flatMap (lineText fmt) := by
  induction ls with
  | nil => rfl
  | cons l ls ih => rw [outputText, List.flatMap_cons, lineText_eq, ← ih, textOf_eq]; simp

/-- two labels differ somewhere -/
theorem labels_differ : ∀ i < 7, ∀ j < 7, i = j ∨ ∃ k < 30, k < ((labels[i]?).getD []).length ∧
    k < ((labels[j]?).getD []).length ∧ ((labels[i]?).getD [])[k]? ≠ ((labels[j]?).getD [])[k]? := by
  decide +kernel

theorem labels_newline : ∀ s ∈ labels, '\n' ∉ s := by decide +kernel

theorem kind_of_text {l k : Line α} {r s : List Char} (h : l.label ++ r = k.label ++ s) : l.kind = k.kind := by
  rcases labels_differ l.kind l.kind.isLt k.kind k.kind.isLt with h' | ⟨i, -, h1, h2, h3⟩
  · exact Fin.ext h'
  · rw [label_eq, label_eq] at *
    simp only [Option.getD_some] at h1 h2 h3
    rw [← List.getElem?_append_left (l₂ := r) h1, h, List.getElem?_append_left h2] at h3
    exact absurd rfl h3

theorem line_of_text {fmt : XNum ℚ → List Char} (hf : Display fmt) {l k : Line (XNum ℚ)}
    (hl : ∀ x, l.number = some x → DoubleVal x) (hk : ∀ x, k.number = some x → DoubleVal x)
    (h : l.label ++ l.rest fmt = k.label ++ k.rest fmt) : l = k := by
  have hkind := kind_of_text h
  have hlab : l.label = k.label := by
    have := label_eq l
    rw [hkind, label_eq] at this
    exact (Option.some.inj this).symm
  have hrest : l.rest fmt = k.rest fmt := by
    rw [hlab] at h
    exact List.append_cancel_left h
  clear h hlab
  have inj : ∀ {x y : XNum ℚ}, DoubleVal x → DoubleVal y → fmt x = fmt y → x = y := by
    intro x y hx hy h
    have := readF64_displayed hf hx
    rw [h, readF64_displayed hf hy] at this
    exact (Option.some.inj this).symm
  cases l <;> cases k <;> first
    | exact congrArg _ (inj (hl _ rfl) (hk _ rfl) hrest)
    | exact congrArg _ (showPath_inj hrest)
    | exact absurd hkind (by simp [Line.kind])

theorem newline_line {fmt : XNum ℚ → List Char} (hf : Display fmt) {l : Line (XNum ℚ)}
    (hl : ∀ x, l.number = some x → DoubleVal x) : '\n' ∉ l.label ++ l.rest fmt := by
  intro h
  rcases List.mem_append.mp h with h | h
  · exact labels_newline _ (List.mem_of_getElem? (label_eq l)) h
  · cases l <;> first
      | exact hf.newline (hl _ rfl) h
      | exact newline_showPath _ h

/-- the output determines its lines -/
theorem lines_of_text {fmt : XNum ℚ → List Char} (hf : Display fmt) {l k : List (Line (XNum ℚ))}
    (hl : ∀ a ∈ l, ∀ x, a.number = some x → DoubleVal x) (hk : ∀ a ∈ k, ∀ x, a.number = some x → DoubleVal x)
    (h : outputText fmt l = outputText fmt k) : l = k := by
  rw [outputText_eq, outputText_eq] at h
  have no : ∀ (a : Line (XNum ℚ)) (r : List Char), lineText fmt a ++ r ≠ [] := by
    intro a r h
    rw [lineText_eq] at h
    simp at h
  induction l generalizing k with
  | nil =>
    cases k with
    | nil => rfl
    | cons b k => exact absurd h.symm (by rw [List.flatMap_cons]; exact no b _)
  | cons a l ih =>
    cases k with
    | nil => exact absurd h (by rw [List.flatMap_cons]; exact no a _)
    | cons b k =>
      rw [List.flatMap_cons, List.flatMap_cons, lineText_eq, lineText_eq, List.append_assoc _ ['\n'],
        List.append_assoc _ ['\n']] at h
      obtain ⟨h1, h2⟩ := split_at_sep (newline_line hf (hl a (by simp))) (newline_line hf (hk b (by simp))) h
      rw [line_of_text hf (hl a (by simp)) (hk b (by simp)) h1,
        ih (fun a ha => hl a (by simp [ha])) (fun a ha => hk a (by simp [ha])) h2]

/-! ## Numbers in the output are doubles -/

theorem double_closed : @Closed _ binary64.ops DoubleVal := by
  have hr : ∀ v : ℚ, DoubleVal (round64 v) := fun v q hq => (round64_fin hq).2
  refine @Closed.mk _ binary64.ops _ ?_ ?_ ?_ ?_
  · intro q hq
    rw [← XNum.fin.inj hq]
    exact isDouble_zero
  · intro q hq
    cases hq
  · intro x y
    cases x <;> cases y <;> first
      | exact hr _
      | exact fun q hq => by cases hq
  · intro x
    cases x <;> first
      | exact hr _
      | exact fun q hq => by cases hq

end Walky
