import Verif.ProgramSpec
import Verif.Lemmas.Numerals

/-! # Lemmas: arguments and output of the program -/

namespace Walky

open Spec

/-! ## Arguments -/

theorem isValue_iff {s : List Char} : isValue s = true ↔ NoDash s := by
  unfold isValue NoDash
  cases s with
  | nil => simp
  | cons c t =>
    by_cases hc : c = '-'
    · subst hc
      simp
    · simp [hc]

theorem afterPrefix_some {s a t : List Char} : afterPrefix s a = some t ↔ a = s ++ t := by
  unfold afterPrefix
  constructor
  · intro h
    split at h
    · next hp =>
      obtain ⟨r, rfl⟩ := List.isPrefixOf_iff_prefix.mp hp
      simp at h
      rw [h]
    · cases h
  · rintro rfl
    simp

theorem afterPrefix_none {s a : List Char} : afterPrefix s a = none ↔ ∀ t, a ≠ s ++ t := by
  constructor
  · intro h t ht
    rw [afterPrefix_some.mpr ht] at h
    cases h
  · intro h
    cases hr : afterPrefix s a with
    | none => rfl
    | some t => exact absurd (afterPrefix_some.mp hr) (h t)

/-- an argument with an option -/
inductive OptForm (o : Opt) : List Char → Option (List Char) → Prop
  | long : OptForm o (longWord o) none
  | longEq (v : List Char) : OptForm o (longWord o ++ '=' :: v) (some v)
  | short : OptForm o (shortWord o) none
  | shortEq (v : List Char) : OptForm o (shortWord o ++ '=' :: v) (some v)
  | joined {v : List Char} (h0 : v ≠ []) (hv : v.head? ≠ some '=') : OptForm o (shortWord o ++ v) (some v)

theorem append_eq_eq (l v : List Char) : l ++ '=' :: v = (l ++ ['=']) ++ v := by simp

/-! The words of the model are those of the specification. -/

theorem exactName_eq : exactName = exactWord := by funext a; cases a <;> rfl
theorem approxName_eq : approxName = approxWord := by funext a; cases a <;> rfl
theorem boundName_eq : boundName = boundWord := by funext a; cases a <;> rfl
theorem parName_eq : parName = parWord := by funext a; cases a <;> rfl
theorem parNameMpi_eq : parNameMpi = parWordMpi := by funext a; cases a <;> rfl
theorem optLong_eq (o : Opt) : o.long = longWord o := by cases o <;> rfl
theorem optShort_eq (o : Opt) : o.short = shortWord o := by cases o <;> rfl

theorem readOne_words (o : Opt) (a : List Char) : readOne o a =
    if a = longWord o then some (o, none)
    else match afterPrefix (longWord o ++ ['=']) a with
      | some v => some (o, some v)
      | none =>
        if a = shortWord o then some (o, none)
        else match afterPrefix (shortWord o ++ ['=']) a with
          | some v => some (o, some v)
          | none => (afterPrefix (shortWord o) a).map fun v => (o, some v) := by
  rw [← optLong_eq, ← optShort_eq]
  rfl

theorem head_iff {as : List (List Char)} {s : List Char} : as.head? = some s ↔ ∃ t, as = s :: t := by
  cases as with
  | nil => simp
  | cons a as => simp

theorem asksHelp_iff {args : List (List Char)} : asksHelp args = false ↔ ¬HelpRequest args := by
  have e1 : "-h".toList = ['-', 'h'] := by decide
  have e2 : "-V".toList = ['-', 'V'] := by decide
  have hp : ∀ c : Char, ∀ a : List Char, ['-', c].isPrefixOf a = true ↔ ∃ t, a = '-' :: c :: t := by
    intro c a
    rw [List.isPrefixOf_iff_prefix]
    constructor
    · rintro ⟨t, rfl⟩; exact ⟨t, rfl⟩
    · rintro ⟨t, rfl⟩; exact ⟨t, rfl⟩
  have : asksHelp args = true ↔ HelpRequest args := by
    unfold asksHelp HelpRequest
    rw [e1, e2, ← head_iff]
    generalize "help".toList = w1, "--help".toList = w2, "--version".toList = w3
    simp only [Bool.or_eq_true, decide_eq_true_eq, List.any_eq_true, hp, or_assoc]
  rw [← this, Bool.not_eq_true]

theorem readOne_form {o o' : Opt} {a : List Char} {r : Option (List Char)} (h : readOne o a = some (o', r)) :
    o' = o ∧ OptForm o a r := by
  rw [readOne_words] at h
  split at h
  · next h1 => cases h; subst h1; exact ⟨rfl, .long⟩
  · next h1 =>
    split at h
    · next v hv =>
      cases h
      rw [afterPrefix_some, ← append_eq_eq] at hv
      subst hv
      exact ⟨rfl, .longEq v⟩
    · next hv =>
      split at h
      · next h2 => cases h; subst h2; exact ⟨rfl, .short⟩
      · next h2 =>
        split at h
        · next v hv =>
          cases h
          rw [afterPrefix_some, ← append_eq_eq] at hv
          subst hv
          exact ⟨rfl, .shortEq v⟩
        · next hn =>
          obtain ⟨v, hv, he⟩ := Option.map_eq_some_iff.mp h
          cases he
          rw [afterPrefix_some] at hv
          subst hv
          refine ⟨rfl, .joined ?_ ?_⟩
          · rintro rfl
            exact h2 (by simp)
          · intro hh
            cases v with
            | nil => cases hh
            | cons c v =>
              have : c = '=' := by simpa using hh
              subst this
              exact afterPrefix_none.mp hn v (append_eq_eq _ _)

/-- the letter of an option -/
def Opt.letter : Opt → Char
  | .parallelism => 'p'
  | .lowerBound => 'l'

theorem Opt.long_eq (o : Opt) : ∃ t, longWord o = '-' :: '-' :: o.letter :: t := by
  cases o
  · exact ⟨"arallelism".toList, by decide⟩
  · exact ⟨"ower-bound".toList, by decide⟩

theorem Opt.short_eq (o : Opt) : shortWord o = ['-', o.letter] := by cases o <;> decide

theorem Opt.letter_ne {o : Opt} : o.letter ≠ '-' := by cases o <;> decide

theorem OptForm.letter {o : Opt} {a : List Char} {r : Option (List Char)} (h : OptForm o a r) :
    (a[1]? = some o.letter ∨ a[1]? = some '-' ∧ a[2]? = some o.letter) ∧ a[0]? = some '-' := by
  obtain ⟨t, ht⟩ := o.long_eq
  have hs := o.short_eq
  cases h with
  | long => rw [ht]; exact ⟨Or.inr ⟨rfl, rfl⟩, rfl⟩
  | longEq v => rw [ht]; exact ⟨Or.inr ⟨rfl, rfl⟩, rfl⟩
  | short => rw [hs]; exact ⟨Or.inl rfl, rfl⟩
  | shortEq v => rw [hs]; exact ⟨Or.inl rfl, rfl⟩
  | joined _ _ => rw [hs]; exact ⟨Or.inl rfl, rfl⟩

theorem Opt.letter_inj {o o' : Opt} (h : o.letter = o'.letter) : o = o' := by
  cases o <;> cases o' <;> first | rfl | (exact absurd h (by decide))

theorem OptForm.unique {o o' : Opt} {a : List Char} {r r' : Option (List Char)} (h : OptForm o a r)
    (h' : OptForm o' a r') : o = o' := by
  rcases h.letter.1 with h1 | ⟨h1, h2⟩ <;> rcases h'.letter.1 with k1 | ⟨k1, k2⟩
  · exact Opt.letter_inj (Option.some.inj (h1.symm.trans k1))
  · exact absurd (Option.some.inj (h1.symm.trans k1)) Opt.letter_ne
  · exact absurd (Option.some.inj (k1.symm.trans h1)) Opt.letter_ne
  · exact Opt.letter_inj (Option.some.inj (h2.symm.trans k2))

theorem short_not_long {o : Opt} {t : List Char} (h : shortWord o ++ t = longWord o) : False := by
  obtain ⟨r, hr⟩ := o.long_eq
  rw [hr, o.short_eq] at h
  simp only [List.cons_append, List.cons.injEq] at h
  exact Opt.letter_ne h.2.1

theorem short_not_longEq {o : Opt} {t u : List Char} (h : shortWord o ++ t = longWord o ++ u) : False := by
  obtain ⟨r, hr⟩ := o.long_eq
  rw [hr, o.short_eq] at h
  simp only [List.cons_append, List.cons.injEq] at h
  exact Opt.letter_ne h.2.1

theorem readOne_of_form {o : Opt} {a : List Char} {r : Option (List Char)} (h : OptForm o a r) :
    readOne o a = some (o, r) := by
  rw [readOne_words]
  cases h with
  | long => rw [if_pos rfl]
  | longEq v =>
    rw [if_neg (by simp), afterPrefix_some.mpr (append_eq_eq _ v)]
  | short =>
    rw [if_neg fun h => short_not_long (t := []) (by simpa using h),
      afterPrefix_none.mpr fun t h => short_not_longEq (t := []) (by rw [List.append_nil, h, List.append_assoc])]
    simp only [if_true]
  | shortEq v =>
    rw [if_neg fun h => short_not_long h,
      afterPrefix_none.mpr fun t h => short_not_longEq (by rw [h, List.append_assoc])]
    simp only
    rw [if_neg (by simp), afterPrefix_some.mpr (append_eq_eq _ v)]
  | @joined v h0 hv =>
    rw [if_neg fun h => short_not_long h,
      afterPrefix_none.mpr fun t h => short_not_longEq (by rw [h, List.append_assoc])]
    simp only
    rw [if_neg (by simpa using h0), afterPrefix_none.mpr, afterPrefix_some.mpr rfl]
    · rfl
    · intro t h
      rw [List.append_assoc] at h
      have := List.append_cancel_left h
      rw [this] at hv
      exact hv rfl

theorem readOpt_iff {opts : List Opt} {a : List Char} {o : Opt} {r : Option (List Char)} :
    readOpt opts a = some (o, r) ↔ o ∈ opts ∧ OptForm o a r := by
  unfold readOpt
  constructor
  · intro h
    obtain ⟨o', ho', h'⟩ := List.exists_of_findSome?_eq_some h
    obtain ⟨rfl, hf⟩ := readOne_form h'
    exact ⟨ho', hf⟩
  · rintro ⟨ho, hf⟩
    cases hr : opts.findSome? fun o => readOne o a with
    | none =>
      rw [List.findSome?_eq_none_iff] at hr
      exact absurd (hr o ho) (by rw [readOne_of_form hf]; simp)
    | some x =>
      obtain ⟨o', ho', h'⟩ := List.exists_of_findSome?_eq_some hr
      obtain ⟨o2, r2⟩ := x
      obtain ⟨rfl, hf'⟩ := readOne_form h'
      obtain rfl := hf.unique hf'
      rw [readOne_of_form hf] at h'
      rw [h']

/-- what an argument does -/
def applyArg (st : ArgState) : Arg → Option ArgState
  | .pos s => some { st with positional := st.positional ++ [s] }
  | .opt o v => st.setOpt o v

/-- what arguments do -/
def applyArgs : List Arg → ArgState → Option ArgState
  | [], st => some st
  | t :: ts, st =>
    match applyArg st t with
    | some st => applyArgs ts st
    | none => none

theorem applyArgs_pos (ss : List (List Char)) (st : ArgState) :
    applyArgs (ss.map .pos) st = some { st with positional := st.positional ++ ss } := by
  induction ss generalizing st with
  | nil => simp [applyArgs]
  | cons s ss ih => simp [applyArgs, applyArg, ih]

theorem applyArgs_iff {ts : List Arg} {st st' : ArgState} :
    applyArgs ts st = some st' ↔ st'.positional = st.positional ++ positionals ts ∧
      st'.parallelism.toList = st.parallelism.toList ++ values .parallelism ts ∧
      st'.lowerBound.toList = st.lowerBound.toList ++ values .lowerBound ts := by
  induction ts generalizing st with
  | nil =>
    obtain ⟨a, b, c⟩ := st
    obtain ⟨a', b', c'⟩ := st'
    simp only [applyArgs, positionals, values, List.append_nil, Option.some.injEq, ArgState.mk.injEq]
    constructor
    · rintro ⟨rfl, rfl, rfl⟩
      exact ⟨rfl, rfl, rfl⟩
    · rintro ⟨rfl, h1, h2⟩
      refine ⟨rfl, ?_, ?_⟩
      · cases b <;> cases b' <;> simp_all
      · cases c <;> cases c' <;> simp_all
  | cons t ts ih =>
    rw [applyArgs]
    cases t with
    | pos s =>
      simp only [applyArg, ih, positionals, values, List.append_assoc, List.singleton_append]
    | opt o v =>
      cases o with
      | parallelism =>
        simp only [applyArg, ArgState.setOpt, positionals, values, if_true, if_neg (show Opt.parallelism ≠ Opt.lowerBound by decide)]
        cases hp : st.parallelism with
        | none => simp [ih]
        | some w =>
          simp only [reduceCtorEq, if_false, false_iff]
          rintro ⟨-, h, -⟩
          cases hq : st'.parallelism <;> rw [hq] at h <;> simp at h
      | lowerBound =>
        simp only [applyArg, ArgState.setOpt, positionals, values, if_true, if_neg (show Opt.lowerBound ≠ Opt.parallelism by decide)]
        cases hp : st.lowerBound with
        | none => simp [ih]
        | some w =>
          simp only [reduceCtorEq, if_false, false_iff]
          rintro ⟨-, -, h⟩
          cases hq : st'.lowerBound <;> rw [hq] at h <;> simp at h

theorem OptForm.not_value {o : Opt} {a : List Char} {r : Option (List Char)} (h : OptForm o a r) :
    a ≠ "--".toList ∧ isValue a = false := by
  obtain ⟨h1, h2⟩ := h.letter
  have e : "--".toList = ['-', '-'] := by decide
  constructor
  · rw [e]
    rintro rfl
    rcases h1 with h1 | ⟨-, h1⟩
    · exact Opt.letter_ne (Option.some.inj h1).symm
    · cases h1
  · rw [Bool.eq_false_iff]
    intro hv
    rw [isValue_iff] at hv
    cases a with
    | nil => cases h2
    | cons c t =>
      have hc : c = '-' := by simpa using h2
      subst hc
      rw [hv t rfl] at h1
      rcases h1 with h1 | ⟨h1, -⟩ <;> cases h1

theorem dashes_not_value : ¬NoDash "--".toList := fun h => by
  have := h ['-'] (by decide)
  cases this

theorem readArgs_opt {opts : List Opt} {o : Opt} {a v : List Char} (h : OptForm o a (some v)) (ho : o ∈ opts)
    (as : List (List Char)) (st : ArgState) : readArgs opts (a :: as) st =
      match st.setOpt o v with
      | some st => readArgs opts as st
      | none => none := by
  rw [readArgs.eq_def]
  simp only
  rw [if_neg h.not_value.1, if_neg (by simp [h.not_value.2]), readOpt_iff.mpr ⟨ho, h⟩]
  rfl

theorem readArgs_opt' {opts : List Opt} {o : Opt} {a v : List Char} (h : OptForm o a none) (ho : o ∈ opts)
    (hv : NoDash v) (as : List (List Char)) (st : ArgState) : readArgs opts (a :: v :: as) st =
      match st.setOpt o v with
      | some st => readArgs opts as st
      | none => none := by
  rw [readArgs.eq_def]
  simp only
  rw [if_neg h.not_value.1, if_neg (by simp [h.not_value.2]), readOpt_iff.mpr ⟨ho, h⟩]
  simp only
  rw [if_pos (isValue_iff.mpr hv)]
  rfl

theorem readArgs_spelled {opts : List Opt} {ts : List Arg} {as : List (List Char)} (h : Spelled opts ts as)
    (st : ArgState) : readArgs opts as st = applyArgs ts st := by
  induction h generalizing st with
  | done => rfl
  | pos hs _ ih =>
    rw [readArgs.eq_def]
    simp only
    rw [if_neg (by rintro rfl; exact dashes_not_value hs), if_pos (isValue_iff.mpr hs), ih]
    rfl
  | long ho hv _ ih => rw [readArgs_opt' .long ho hv, applyArgs, applyArg]; simp only [ih]
  | longEq ho _ ih => rw [readArgs_opt (.longEq _) ho, applyArgs, applyArg]; simp only [ih]
  | short ho hv _ ih => rw [readArgs_opt' .short ho hv, applyArgs, applyArg]; simp only [ih]
  | shortEq ho _ ih => rw [readArgs_opt (.shortEq _) ho, applyArgs, applyArg]; simp only [ih]
  | joined ho h0 hv _ ih => rw [readArgs_opt (.joined h0 hv) ho, applyArgs, applyArg]; simp only [ih]
  | rest ss =>
    rw [readArgs.eq_def]
    simp only
    rw [if_pos trivial, applyArgs_pos]

theorem readArgs_some {opts : List Opt} (k : Nat) {as : List (List Char)} (hk : as.length ≤ k) {st st' : ArgState}
    (h : readArgs opts as st = some st') : ∃ ts, Spelled opts ts as := by
  induction k generalizing as st with
  | zero =>
    have : as = [] := by rw [← List.length_eq_zero_iff]; omega
    subst this
    exact ⟨[], .done⟩
  | succ k ih =>
    cases as with
    | nil => exact ⟨[], .done⟩
    | cons a as =>
      rw [readArgs.eq_def] at h
      simp only at h
      split at h
      · next ha => subst ha; exact ⟨_, .rest as⟩
      · next ha =>
        split at h
        · next hv =>
          obtain ⟨ts, hts⟩ := ih (by simpa using hk) h
          exact ⟨_, .pos (isValue_iff.mp hv) hts⟩
        · next hv =>
          split at h
          · cases h
          · next o v ho =>
            obtain ⟨hmem, hform⟩ := readOpt_iff.mp ho
            split at h
            · next st2 hst2 =>
              obtain ⟨ts, hts⟩ := ih (by simpa using hk) h
              cases hform with
              | longEq => exact ⟨_, .longEq hmem hts⟩
              | shortEq => exact ⟨_, .shortEq hmem hts⟩
              | joined h0 h1 => exact ⟨_, .joined hmem h0 h1 hts⟩
            · cases h
          · next o ho =>
            obtain ⟨hmem, hform⟩ := readOpt_iff.mp ho
            split at h
            · next v as =>
              split at h
              · next hv' =>
                split at h
                · next st2 hst2 =>
                  obtain ⟨ts, hts⟩ := ih (by simp at hk; omega) h
                  rw [isValue_iff] at hv'
                  cases hform with
                  | long => exact ⟨_, .long hmem hv' hts⟩
                  | short => exact ⟨_, .short hmem hv' hts⟩
                · cases h
              · cases h
            · cases h

theorem readArgs_iff {opts : List Opt} {as : List (List Char)} {st : ArgState} :
    readArgs opts as ⟨[], none, none⟩ = some st ↔ ∃ ts, Spelled opts ts as ∧ st.positional = positionals ts ∧
      st.parallelism.toList = values .parallelism ts ∧ st.lowerBound.toList = values .lowerBound ts := by
  constructor
  · intro h
    obtain ⟨ts, hts⟩ := readArgs_some _ le_rfl h
    rw [readArgs_spelled hts, applyArgs_iff] at h
    exact ⟨ts, hts, by simpa using h.1, by simpa using h.2.1, by simpa using h.2.2⟩
  · rintro ⟨ts, hts, h1, h2, h3⟩
    rw [readArgs_spelled hts, applyArgs_iff]
    exact ⟨by simpa using h1, by simpa using h2, by simpa using h3⟩

/-! ## Names of values -/

theorem byName_iff {β : Type} {name : β → List Char} {all : List β} (hall : ∀ b, b ∈ all)
    (hinj : ∀ a b, name a = name b → a = b) {s : List Char} {b : β} : byName name all s = some b ↔ name b = s := by
  unfold byName
  constructor
  · intro h
    simpa using List.find?_some h
  · rintro rfl
    cases hf : all.find? fun c => name c = name b with
    | none =>
      rw [List.find?_eq_none] at hf
      exact absurd (hf b (hall b)) (by simp)
    | some c =>
      have := List.find?_some hf
      rw [hinj c b (by simpa using this)]

theorem readExact_iff {s : List Char} {a : ExactAlgorithm} : readExact s = some a ↔ exactWord a = s :=
  exactName_eq ▸ byName_iff (by intro b; cases b <;> simp) (by
    intro a b
    cases a <;> cases b <;> first | exact fun _ => rfl | exact fun h => absurd h (by decide))

theorem readApprox_iff {s : List Char} {a : ApproxAlgorithm} : readApprox s = some a ↔ approxWord a = s :=
  approxName_eq ▸ byName_iff (by intro b; cases b <;> simp) (by
    intro a b
    cases a <;> cases b <;> first | exact fun _ => rfl | exact fun h => absurd h (by decide))

theorem readBound_iff {s : List Char} {a : LowerBoundAlgorithm} : readBound s = some a ↔ boundWord a = s :=
  boundName_eq ▸ byName_iff (by intro b; cases b <;> simp) (by
    intro a b
    cases a <;> cases b <;> first | exact fun _ => rfl | exact fun h => absurd h (by decide))

theorem readPar_iff {s : List Char} {a : Parallelism} :
    byName parName [.singleThreaded, .multiThreaded] s = some a ↔ parWord a = s :=
  parName_eq ▸ byName_iff (by intro b; cases b <;> simp) (by
    intro a b
    cases a <;> cases b <;> first | exact fun _ => rfl | exact fun h => absurd h (by decide))

theorem optArg_iff {P : Type} {readPar : List Char → Option P} {name : P → List Char}
    (hr : ∀ {s : List Char} {a : P}, readPar s = some a ↔ name a = s) {dflt : P} {o : Option (List Char)} {p : P} :
    optArg readPar dflt o = some p ↔ Given name dflt p o.toList := by
  unfold Given
  cases o with
  | none =>
    simp only [optArg, Option.toList_none, true_and, Option.some.injEq]
    constructor
    · rintro rfl; exact Or.inl rfl
    · rintro (h | h)
      · exact h.symm
      · cases h
  | some s =>
    simp only [optArg, hr, Option.toList_some]
    constructor
    · rintro rfl; exact Or.inr rfl
    · rintro (⟨h, -⟩ | h)
      · cases h
      · exact (List.cons.inj h).1.symm

theorem optBound_iff {o : Option (List Char)} {lb : Option LowerBoundAlgorithm} :
    optArg (fun s => (readBound s).map some) none o = some lb ↔
      (o.toList = [] ∧ lb = none ∨ ∃ b, lb = some b ∧ o.toList = [boundWord b]) := by
  cases o with
  | none =>
    simp only [optArg, Option.toList_none, true_and, Option.some.injEq]
    constructor
    · rintro rfl; exact Or.inl rfl
    · rintro (h | ⟨b, -, h⟩)
      · exact h.symm
      · cases h
  | some s =>
    simp only [optArg, Option.toList_some, Option.map_eq_some_iff, readBound_iff]
    constructor
    · rintro ⟨b, rfl, rfl⟩; exact Or.inr ⟨b, rfl, rfl⟩
    · rintro (⟨h, -⟩ | ⟨b, rfl, h⟩)
      · cases h
      · exact ⟨b, (List.cons.inj h).1.symm, rfl⟩

theorem _root_.Walky.Spec.Spelled.no_values {opts : List Opt} {ts : List Arg} {as : List (List Char)}
    (h : Spelled opts ts as) {o : Opt} (ho : o ∉ opts) : values o ts = [] := by
  induction h with
  | done => rfl
  | pos _ _ ih => exact ih
  | rest ss => induction ss with
    | nil => rfl
    | cons s ss ih => exact ih
  | _ =>
    rename_i o' v ts as hm _ ih
    first
      | (rw [values, if_neg (by rintro rfl; exact ho (by assumption)), ih])

theorem toList_eq_nil {β : Type} {o : Option β} (h : o.toList = []) : o = none := by cases o <;> simp_all

theorem exists_toList {β : Type} {l : List β} (h : l.length ≤ 1) : ∃ o : Option β, o.toList = l := by
  rcases l with _ | ⟨a, _ | ⟨b, l⟩⟩
  · exact ⟨none, rfl⟩
  · exact ⟨some a, rfl⟩
  · simp at h

theorem readSub_iff {opts : List Opt} {as : List (List Char)} {alg path : List Char} {po lo : Option (List Char)} :
    readSub opts as = some (alg, path, po, lo) ↔ path ≠ [] ∧ ∃ ts, Spelled opts ts as ∧
      positionals ts = [alg, path] ∧ po.toList = values .parallelism ts ∧ lo.toList = values .lowerBound ts := by
  rw [readSub]
  simp only [Option.bind_eq_bind, Option.bind_eq_some_iff]
  constructor
  · rintro ⟨st, hst, h⟩
    obtain ⟨ts, hts, hp, h1, h2⟩ := readArgs_iff.mp hst
    split at h
    · next alg path' hpos =>
      split at h
      · cases h
      · next hne =>
        cases h
        exact ⟨hne, ts, hts, by rw [← hp, hpos], h1, h2⟩
    · cases h
  · rintro ⟨hne, ts, hts, hp, h1, h2⟩
    refine ⟨⟨positionals ts, po, lo⟩, readArgs_iff.mpr ⟨ts, hts, rfl, h1, h2⟩, ?_⟩
    simp only [hp, if_neg hne]

theorem given_length {β : Type} {name : β → List Char} {d b : β} {vs : List (List Char)} (h : Given name d b vs) :
    vs.length ≤ 1 := by
  rcases h with ⟨rfl, -⟩ | rfl <;> simp

theorem parseArgsOf_iff {P : Type} {readPar : List Char → Option P} {name : P → List Char}
    (hr : ∀ {s : List Char} {a : P}, readPar s = some a ↔ name a = s) {dflt : P} {args : List (List Char)}
    {cmd : CommandOf P} {path : List Char} :
    parseArgsOf readPar dflt args = some (cmd, path) ↔ CommandLineOf name dflt args cmd path := by
  have e1 : "approx".toList ≠ "exact".toList := by decide
  have e2 : "lower-bound".toList ≠ "exact".toList := by decide
  have e3 : "lower-bound".toList ≠ "approx".toList := by decide
  unfold CommandLineOf
  cases args with
  | nil =>
    constructor
    · intro h; cases h
    · rintro ⟨-, h⟩
      cases cmd <;> obtain ⟨ts, as, h, -⟩ := h <;> cases h
  | cons sub args =>
    rw [parseArgsOf]
    generalize "exact".toList = n1, "approx".toList = n2, "lower-bound".toList = n3 at *
    constructor
    · intro h
      split at h
      · next hs =>
        subst hs
        simp only [Option.bind_eq_bind, Option.bind_eq_some_iff] at h
        obtain ⟨⟨alg, path', po, lo⟩, hsub, a, ha, p, hp, h⟩ := h
        cases h
        obtain ⟨hne, ts, hts, hpos, h1, -⟩ := readSub_iff.mp hsub
        refine ⟨hne, ts, args, rfl, hts, ?_, ?_⟩
        · rw [hpos, readExact_iff.mp ha]
        · rw [← h1]; exact (optArg_iff hr).mp hp
      · split at h
        · next hs =>
          subst hs
          simp only [Option.bind_eq_bind, Option.bind_eq_some_iff] at h
          obtain ⟨⟨alg, path', po, lo⟩, hsub, a, ha, p, hp, lb, hlb, h⟩ := h
          cases h
          obtain ⟨hne, ts, hts, hpos, h1, h2⟩ := readSub_iff.mp hsub
          refine ⟨hne, ts, args, rfl, hts, ?_, ?_, ?_⟩
          · rw [hpos, readApprox_iff.mp ha]
          · rw [← h1]; exact (optArg_iff hr).mp hp
          · rw [← h2]; exact optBound_iff.mp hlb
        · split at h
          · next hs =>
            subst hs
            simp only [Option.bind_eq_bind, Option.bind_eq_some_iff] at h
            obtain ⟨⟨alg, path', po, lo⟩, hsub, a, ha, p, hp, h⟩ := h
            cases h
            obtain ⟨hne, ts, hts, hpos, h1, -⟩ := readSub_iff.mp hsub
            refine ⟨hne, ts, args, rfl, hts, ?_, ?_⟩
            · rw [hpos, readBound_iff.mp ha]
            · rw [← h1]; exact (optArg_iff hr).mp hp
          · cases h
    · rintro ⟨hne, h⟩
      cases cmd with
      | exact a p =>
        obtain ⟨ts, as, hl, hts, hpos, hpar⟩ := h
        cases hl
        obtain ⟨po, hpo⟩ := exists_toList (given_length hpar)
        have hsub := (readSub_iff (lo := none)).mpr
          ⟨hne, ts, hts, hpos, hpo, (hts.no_values (o := .lowerBound) (by simp)).symm⟩
        rw [if_pos rfl, hsub]
        rw [← hpo] at hpar
        simp [readExact_iff.mpr rfl, (optArg_iff hr).mpr hpar]
      | approx a p lb =>
        obtain ⟨ts, as, hl, hts, hpos, hpar, hlb⟩ := h
        cases hl
        obtain ⟨po, hpo⟩ := exists_toList (given_length hpar)
        obtain ⟨lo, hlo⟩ := exists_toList (l := values .lowerBound ts) (by
          rcases hlb with ⟨h, -⟩ | ⟨b, -, h⟩ <;> simp [h])
        have hsub := readSub_iff.mpr ⟨hne, ts, hts, hpos, hpo, hlo⟩
        rw [if_neg e1, if_pos rfl, hsub]
        rw [← hpo] at hpar
        rw [← hlo] at hlb
        simp [readApprox_iff.mpr rfl, (optArg_iff hr).mpr hpar, optBound_iff.mpr hlb]
      | lowerBound a p =>
        obtain ⟨ts, as, hl, hts, hpos, hpar⟩ := h
        cases hl
        obtain ⟨po, hpo⟩ := exists_toList (given_length hpar)
        have hsub := (readSub_iff (lo := none)).mpr
          ⟨hne, ts, hts, hpos, hpo, (hts.no_values (o := .lowerBound) (by simp)).symm⟩
        rw [if_neg e2, if_neg e3, if_pos rfl, hsub]
        rw [← hpo] at hpar
        simp [readBound_iff.mpr rfl, (optArg_iff hr).mpr hpar]

theorem parseArgs_iff {args : List (List Char)} {cmd : Command} {path : List Char} :
    parseArgs args = some (cmd, path) ↔ CommandLine args cmd path := parseArgsOf_iff readPar_iff

end Walky
