import Verif.NumeralSpec
import Mathlib.Tactic.Ring

/-! # Lemmas: numbers as text -/

namespace Walky

open Spec

theorem ofDigitChars_eq (l : List Char) : Nat.ofDigitChars 10 l 0 = digitsValue l := by
  induction l with
  | nil => rfl
  | cons c l ih =>
    rw [Nat.ofDigitChars_cons, Nat.ofDigitChars_eq_ofDigitChars_zero, ih, digitsValue]
    ring

theorem pow10_eq (e : ℤ) : pow10 e = (10 : ℚ) ^ e := by
  cases e with
  | ofNat n => simp [pow10]
  | negSucc n => simp [pow10, zpow_negSucc]

theorem readDigits_ok {s : List Char} (h0 : s ≠ []) (hd : ∀ c ∈ s, c.isDigit = true) :
    readDigits s = some (digitsValue s) := by
  rw [readDigits, if_pos ⟨h0, by simpa using hd⟩, ofDigitChars_eq]

theorem showUsize_ne (n : Nat) : showUsize n ≠ [] := by
  rw [showUsize, Nat.toDigits_eq_if (by decide)]
  split <;> simp

theorem showUsize_digit {n : Nat} {c : Char} (h : c ∈ showUsize n) : c.isDigit = true :=
  Nat.isDigit_of_mem_toDigits (by decide) (by decide) h

theorem digitsValue_showUsize (n : Nat) : digitsValue (showUsize n) = n := by
  rw [← ofDigitChars_eq, showUsize, Nat.ofDigitChars_ten_toDigits]

theorem readUnsigned_show {b n : Nat} (h : n < b) : readUnsigned b (showUsize n) = some n := by
  have hr := readDigits_ok (showUsize_ne n) fun c hc => showUsize_digit hc
  rw [digitsValue_showUsize] at hr
  cases hs : showUsize n with
  | nil => exact absurd hs (showUsize_ne n)
  | cons c t =>
    have hc : c ≠ '+' := by
      rintro rfl
      exact absurd (showUsize_digit (n := n) (c := '+') (by rw [hs]; simp)) (by decide)
    rw [hs] at hr
    unfold readUnsigned
    split
    · next h1 => exact absurd (List.cons.inj h1).1 hc
    · simp only [hr, if_pos h]

theorem readDigits_iff {s : List Char} {n : Nat} :
    readDigits s = some n ↔ s ≠ [] ∧ (∀ c ∈ s, c.isDigit = true) ∧ n = digitsValue s := by
  unfold readDigits
  split
  · next h =>
    rw [Option.some.injEq, ofDigitChars_eq]
    exact ⟨fun e => ⟨h.1, by simpa using h.2, e.symm⟩, fun e => e.2.2.symm⟩
  · next h =>
    exact ⟨fun e => (by cases e), fun e => absurd ⟨e.1, by simpa using e.2.1⟩ h⟩

theorem readUnsigned_iff {b n : Nat} {s : List Char} : readUnsigned b s = some n ↔ UnsignedText b s n := by
  have key : ∀ t, (match readDigits t with
      | some n => if n < b then some n else none
      | none => none) = some n ↔ t ≠ [] ∧ (∀ c ∈ t, c.isDigit = true) ∧ n = digitsValue t ∧ n < b := by
    intro t
    cases hr : readDigits t with
    | none =>
      refine ⟨fun h => (by cases h), fun h => ?_⟩
      rw [readDigits_iff.mpr ⟨h.1, h.2.1, h.2.2.1⟩] at hr
      cases hr
    | some k =>
      obtain ⟨h1, h2, h3⟩ := readDigits_iff.mp hr
      simp only
      split
      · next hb =>
        rw [Option.some.injEq]
        constructor
        · rintro rfl; exact ⟨h1, h2, h3, hb⟩
        · intro h; rw [h3, h.2.2.1]
      · next hb =>
        refine ⟨fun h => (by cases h), fun h => absurd ?_ hb⟩
        rw [h3, ← h.2.2.1]
        exact h.2.2.2
  unfold readUnsigned
  refine (key _).trans ?_
  constructor
  · intro h
    split at h
    · exact ⟨_, Or.inr rfl, h⟩
    · exact ⟨_, Or.inl rfl, h⟩
  · rintro ⟨d, hd | hd, h⟩
    · subst hd
      split
      · next t => exact absurd (h.2.1 '+' (by simp)) (by decide)
      · exact h
    · subst hd
      exact h

theorem readUsize_show {n : Nat} (h : n < 2 ^ 64) : readUsize (showUsize n) = some n := readUnsigned_show h

/-! ## Numerals -/

theorem readSign_other {c : Char} {t : List Char} (h1 : c ≠ '+') (h2 : c ≠ '-') :
    readSign (c :: t) = (false, c :: t) := by
  unfold readSign
  split
  · next h => exact absurd (List.cons.inj h).1 h1
  · next h => exact absurd (List.cons.inj h).1 h2
  · rfl

theorem readExponent_ok {e : Char} (he : e ∈ ['e', 'E']) {s d : List Char} (hs : s ∈ [[], ['+'], ['-']]) (h0 : d ≠ [])
    (hd : ∀ c ∈ d, c.isDigit = true) :
    readExponent (e :: (s ++ d)) = some (if s = ['-'] then -(digitsValue d : ℤ) else digitsValue d) := by
  have hr := readDigits_ok h0 hd
  rw [readExponent, if_pos (by simpa using he)]
  simp only [List.mem_cons, List.not_mem_nil, or_false] at hs
  rcases hs with rfl | rfl | rfl
  · obtain ⟨c, t, rfl⟩ := List.exists_cons_of_ne_nil h0
    have hc := hd c (by simp)
    rw [List.nil_append, readSign_other (by rintro rfl; exact absurd hc (by decide))
      (by rintro rfl; exact absurd hc (by decide)), hr]
    simp
  · show (match readDigits d with
      | some n => _
      | none => _) = _
    rw [hr]
    simp [readSign]
  · show (match readDigits d with
      | some n => _
      | none => _) = _
    rw [hr]
    simp [readSign]

theorem takeWhile_all' {p : Char → Bool} {a s : List Char} (h : ∀ x ∈ a, p x = true)
    (hs : ∀ c t, s = c :: t → p c = false) : (a ++ s).takeWhile p = a ∧ (a ++ s).dropWhile p = s := by
  rw [List.takeWhile_append_of_pos h, List.dropWhile_append_of_pos h]
  cases s with
  | nil => simp
  | cons c t =>
    have := hs c t rfl
    rw [List.takeWhile_cons_of_neg (by simp [this]), List.dropWhile_cons_of_neg (by simp [this])]
    simp

theorem readDecimal_ok {n : Numeral} (hn : n.Valid) {e : Char} (he : e ∈ ['e', 'E']) :
    readDecimal (n.body e) =
    some (digitsValue (n.whole ++ n.frac.getD []) * (10 : ℚ) ^ (n.expValue - (n.frac.getD []).length)) := by
  obtain ⟨h1, h2, h3, h4⟩ := hn
  obtain ⟨minus, whole, frac, exp⟩ := n
  simp only [Numeral.body] at h1 h2 h3 h4 ⊢
  have hE : ∀ c t, Numeral.expText e exp = c :: t → c ≠ '.' ∧ c.isDigit = false := by
    intro c t h
    cases exp with
    | none => cases h
    | some x =>
      rw [← (List.cons.inj h).1]
      simp only [List.mem_cons, List.not_mem_nil, or_false] at he
      rcases he with rfl | rfl <;> exact ⟨by decide, by decide⟩
  have hexp : readExponent (Numeral.expText e exp) = some (Numeral.expValue ⟨minus, whole, frac, exp⟩) := by
    cases exp with
    | none => rfl
    | some x =>
      obtain ⟨a, b, c⟩ := h4 x.1 x.2 rfl
      exact readExponent_ok he a b c
  generalize Numeral.expText e exp = X at hE hexp ⊢
  cases frac with
  | none =>
    simp only [Numeral.fracText, Option.getD_none, List.append_nil, List.nil_append] at h2 h3 ⊢
    obtain ⟨e1, e2⟩ := takeWhile_all' (s := X) h1 fun c t h => (hE c t h).2
    unfold readDecimal
    simp only [e1, e2]
    have hm : readFrac X = ([], X) := by
      cases X with
      | nil => rfl
      | cons c t =>
        rw [readFrac, if_neg (hE c t rfl).1]
    rw [hm, List.append_nil, if_neg h3, hexp]
    simp [ofDigitChars_eq, pow10_eq]
  | some f =>
    simp only [Numeral.fracText, Option.getD_some] at h2 h3 ⊢
    obtain ⟨e1, e2⟩ := takeWhile_all' (s := '.' :: f ++ X) h1 fun c t h => by
      rw [← (List.cons.inj h).1]; decide
    obtain ⟨e3, e4⟩ := takeWhile_all' (s := X) h2 fun c t h => (hE c t h).2
    unfold readDecimal
    simp only [e1, e2]
    rw [List.cons_append, readFrac, if_pos rfl, e3, e4]
    simp only
    rw [if_neg h3, hexp]
    simp [ofDigitChars_eq, pow10_eq]

theorem takeWhile_isDigit (s : List Char) : ∀ c ∈ s.takeWhile Char.isDigit, c.isDigit = true := by
  intro c hc
  exact List.all_eq_true.mp (List.all_takeWhile (p := Char.isDigit) (l := s)) c hc

theorem readExponent_iff {s : List Char} {k : ℤ} (h : readExponent s = some k) :
    ∃ (e : Char) (exp : Option (List Char × List Char)), e ∈ ['e', 'E'] ∧ s = Numeral.expText e exp ∧
      (∀ s d, exp = some (s, d) → s ∈ [[], ['+'], ['-']] ∧ d ≠ [] ∧ ∀ c ∈ d, c.isDigit = true) ∧
      k = match exp with
        | none => 0
        | some (s, d) => if s = ['-'] then -(digitsValue d : ℤ) else digitsValue d := by
  cases s with
  | nil => exact ⟨'e', none, by simp, rfl, fun _ _ h => (by cases h), (Option.some.inj h).symm⟩
  | cons c t =>
    rw [readExponent] at h
    split at h
    · next hc =>
      refine ⟨c, some ((t.take (t.length - (readSign t).2.length)), (readSign t).2), by simpa using hc, ?_⟩
      have hs : (∃ d, t = '+' :: d ∧ readSign t = (false, d)) ∨ (∃ d, t = '-' :: d ∧ readSign t = (true, d)) ∨
          readSign t = (false, t) := by
        unfold readSign
        split
        · exact Or.inl ⟨_, rfl, rfl⟩
        · exact Or.inr (Or.inl ⟨_, rfl, rfl⟩)
        · exact Or.inr (Or.inr rfl)
      cases hr : readDigits (readSign t).2 with
      | none => rw [hr] at h; cases h
      | some n =>
        rw [hr] at h
        have h := (Option.some.inj h).symm
        obtain ⟨k1, k2, rfl⟩ := readDigits_iff.mp hr
        rcases hs with ⟨d, rfl, hd⟩ | ⟨d, rfl, hd⟩ | hd
        all_goals
          rw [hd] at h k1 k2 ⊢
          simp [Numeral.expText, h, k1] at k2 ⊢
          exact k2
    · cases h

theorem readDecimal_sound {s : List Char} {v : ℚ} (h : readDecimal s = some v) :
    ∃ (n : Numeral) (e : Char), n.Valid ∧ n.minus = false ∧ e ∈ ['e', 'E'] ∧ s = n.body e := by
  unfold readDecimal at h
  simp only at h
  split at h
  · cases h
  · next hne =>
    split at h
    · next k hk =>
      obtain ⟨e, exp, he, hexp, hv, -⟩ := readExponent_iff hk
      have hw := takeWhile_isDigit s
      have hs := List.takeWhile_append_dropWhile (p := Char.isDigit) (l := s)
      cases hrest : s.dropWhile Char.isDigit with
      | nil =>
        rw [hrest] at hne hexp hs
        refine ⟨⟨false, s.takeWhile Char.isDigit, none, exp⟩, e, ⟨hw, fun c hc => (by cases hc), hne, hv⟩, rfl, he, ?_⟩
        have hexp : [] = Numeral.expText e exp := hexp
        simpa [Numeral.body, Numeral.fracText, ← hexp] using hs.symm
      | cons c t =>
        rw [hrest] at hne hexp hs
        rw [readFrac] at hne hexp
        split at hexp
        · next hc =>
          rw [if_pos hc] at hne
          refine ⟨⟨false, s.takeWhile Char.isDigit, some (t.takeWhile Char.isDigit), exp⟩, e,
            ⟨hw, takeWhile_isDigit t, hne, hv⟩, rfl, he, ?_⟩
          simp only [Numeral.body, Numeral.fracText, ← hexp, List.cons_append, List.takeWhile_append_dropWhile,
            ← hc]
          exact hs.symm
        · next hc =>
          rw [if_neg hc] at hne
          refine ⟨⟨false, s.takeWhile Char.isDigit, none, exp⟩, e, ⟨hw, fun c hc => (by cases hc), hne, hv⟩, rfl, he, ?_⟩
          simp only [Numeral.body, Numeral.fracText, ← hexp, List.nil_append]
          exact hs.symm
    · cases h

/-- a numeral after a sign -/
theorem readF64_signed {n : Numeral} (hn : n.Valid) {e : Char} (he : e ∈ ['e', 'E']) {sign : List Char}
    (hs : sign ∈ [[], ['+'], ['-']]) (hm : n.minus = true ↔ sign = ['-']) :
    readF64 (sign ++ n.body e) = some (round64 n.value) := by
  have hd := readDecimal_ok hn he
  obtain ⟨c, t, hct, hc⟩ : ∃ c t, n.body e = c :: t ∧ (c.isDigit = true ∨ c = '.') := by
    have h3 := hn.some
    unfold Numeral.body
    cases hw : n.whole with
    | cons c t => exact ⟨c, _, rfl, Or.inl (hn.whole c (by rw [hw]; simp))⟩
    | nil =>
      cases hf : n.frac with
      | none => rw [hw, hf] at h3; exact absurd rfl h3
      | some f => exact ⟨'.', _, rfl, Or.inr rfl⟩
  have hp : c ≠ '+' ∧ c ≠ '-' := by
    constructor <;> (rintro rfl; rcases hc with hc | hc <;> exact absurd hc (by decide))
  have hs : readSign (sign ++ n.body e) = (n.minus, n.body e) := by
    simp only [List.mem_cons, List.not_mem_nil, or_false] at hs
    rcases hs with rfl | rfl | rfl
    · have hm : n.minus = false := by
        cases h : n.minus
        · rfl
        · exact absurd (hm.mp h) (by simp)
      rw [List.nil_append, hm, hct, readSign_other hp.1 hp.2]
    · have hm : n.minus = false := by
        cases h : n.minus
        · rfl
        · exact absurd (hm.mp h) (by decide)
      rw [hm]
      rfl
    · rw [hm.mpr rfl]
      rfl
  have hlow : c.toLower ≠ 'i' ∧ c.toLower ≠ 'n' := by
    rcases hc with hc | rfl
    · have hv : ¬'A'.val ≤ c.val := by
        simp only [Char.isDigit, Bool.and_eq_true, decide_eq_true_eq] at hc
        intro h
        exact absurd (UInt32.le_trans h hc.2) (by decide)
      have : c.toLower = c := by
        rw [Char.toLower]
        split
        · next h => exact absurd h.1 hv
        · rfl
      rw [this]
      constructor <;> (rintro rfl; exact absurd hc (by decide))
    · exact ⟨by decide, by decide⟩
  have hw1 : ∀ w : List Char, (∃ r, w = 'i' :: r) ∨ (∃ r, w = 'n' :: r) → (n.body e).map Char.toLower ≠ w := by
    rintro w (⟨r, rfl⟩ | ⟨r, rfl⟩) h <;> rw [hct, List.map_cons] at h
    · exact hlow.1 (List.cons.inj h).1
    · exact hlow.2 (List.cons.inj h).1
  unfold readF64
  simp only [hs]
  rw [if_neg (by
      rintro (h | h)
      · exact hw1 _ (Or.inl ⟨['n', 'f'], rfl⟩) h
      · exact hw1 _ (Or.inl ⟨['n', 'f', 'i', 'n', 'i', 't', 'y'], rfl⟩) h),
    if_neg (hw1 "nan".toList (Or.inr ⟨['a', 'n'], rfl⟩)), hd]
  simp only
  congr 2
  rw [Numeral.value]
  cases n.minus <;> simp

theorem readF64_numeral {n : Numeral} (hn : n.Valid) : readF64 n.text = some (round64 n.value) := by
  unfold Numeral.text
  cases h : n.minus
  · exact readF64_signed hn (by simp) (by simp) (by simp [h])
  · exact readF64_signed hn (by simp) (by simp) (by simp [h])

theorem readSign_eq (s : List Char) : ∃ sign, sign ∈ [[], ['+'], ['-']] ∧ s = sign ++ (readSign s).2 ∧
    ((readSign s).1 = true ↔ sign = ['-']) := by
  unfold readSign
  split
  · exact ⟨['+'], by simp, rfl, by simp⟩
  · exact ⟨['-'], by simp, rfl, by simp⟩
  · exact ⟨[], by simp, rfl, by simp⟩

theorem readSign_word {sign body : List Char} (hs : sign ∈ [[], ['+'], ['-']]) {a : Char} {w : List Char}
    (ha : a ≠ '+' ∧ a ≠ '-') (hb : body.map Char.toLower = a :: w) :
    readSign (sign ++ body) = (sign == ['-'], body) := by
  cases body with
  | nil => cases hb
  | cons c t =>
    have hc := (List.cons.inj hb).1
    have h1 : c ≠ '+' := by rintro rfl; exact ha.1 (hc.symm.trans (by decide))
    have h2 : c ≠ '-' := by rintro rfl; exact ha.2 (hc.symm.trans (by decide))
    simp only [List.mem_cons, List.not_mem_nil, or_false] at hs
    rcases hs with rfl | rfl | rfl
    · exact readSign_other h1 h2
    · rfl
    · rfl

theorem readF64_iff {s : List Char} {x : XNum ℚ} : readF64 s = some x ↔ F64Text s x := by
  constructor
  · intro h
    obtain ⟨sign, h1, h2, h3⟩ := readSign_eq s
    refine ⟨sign, (readSign s).2, h1, h2, ?_⟩
    have h' := h
    unfold readF64 at h
    simp only at h
    split at h
    · next hw =>
      left
      refine ⟨by simpa using hw, ?_⟩
      rw [← Option.some.inj h]
      simp only [h3]
    · split at h
      · next hw => exact Or.inr (Or.inl ⟨hw, (Option.some.inj h).symm⟩)
      · right; right
        cases hr : readDecimal (readSign s).2 with
        | none => rw [hr] at h; cases h
        | some v =>
          obtain ⟨n, e, n1, -, n2, n3⟩ := readDecimal_sound hr
          have hv : ({ n with minus := (readSign s).1 } : Numeral).Valid := ⟨n1.1, n1.2, n1.3, n1.4⟩
          refine ⟨_, e, hv, n2, h3, n3, ?_⟩
          have := readF64_signed hv n2 h1 h3
          rw [show Numeral.body e { n with minus := (readSign s).1 } = (readSign s).2 from n3.symm, ← h2, h'] at this
          exact Option.some.inj this
  · rintro ⟨sign, body, h1, rfl, ⟨h2, rfl⟩ | ⟨h2, rfl⟩ | ⟨n, e, n1, n2, n3, rfl, rfl⟩⟩
    · have hr : readSign (sign ++ body) = (sign == ['-'], body) := by
        simp only [List.mem_cons, List.not_mem_nil, or_false] at h2
        rcases h2 with h2 | h2
        · exact readSign_word h1 (by decide) (show body.map Char.toLower = 'i' :: ['n', 'f'] from h2)
        · exact readSign_word h1 (by decide)
            (show body.map Char.toLower = 'i' :: ['n', 'f', 'i', 'n', 'i', 't', 'y'] from h2)
      unfold readF64
      simp only [hr]
      rw [if_pos (by simpa using h2)]
      by_cases hs : sign = ['-'] <;> simp [hs]
    · have hr := readSign_word h1 (by decide) (show body.map Char.toLower = 'n' :: ['a', 'n'] from h2)
      unfold readF64
      simp only [hr]
      rw [h2, if_neg (by decide), if_pos rfl]
    · exact readF64_signed n1 n2 h1 n3

theorem round64_fin {v y : ℚ} (h : round64 v = .fin y) : (v = 0 ∧ y = 0 ∨ v ≠ 0 ∧ y = nearest64 v) ∧ IsDouble y := by
  by_cases h0 : v = 0
  · rw [h0] at h
    have e : round64 0 = .fin 0 := by simp [round64]
    rw [e] at h
    rw [← XNum.fin.inj h]
    exact ⟨Or.inl ⟨h0, rfl⟩, isDouble_zero⟩
  · unfold round64 at h
    rw [if_neg h0] at h
    split at h
    · cases h
    · next h1 =>
      split at h
      · cases h
      · next h2 =>
        have e := (XNum.fin.inj h).symm
        refine ⟨Or.inr ⟨h0, e⟩, roundEven (v / pow2 (quantum v)), quantum v, e,
          abs_roundEven_le (abs_div_quantum_lt h0), by unfold quantum; omega, ?_⟩
        rw [e, abs_lt]
        exact ⟨not_le.mp h2, not_le.mp h1⟩

/-- a numeral that is nearer to a double than to any other is read as this double -/
theorem round64_of_closest {v x : ℚ} (hx : IsDouble x)
    (h : ∀ z q : ℤ, |z| ≤ 2 ^ 53 → -1074 ≤ q → z * (2 : ℚ) ^ q ≠ x → |v - x| < |v - z * (2 : ℚ) ^ q|) :
    round64 v = .fin x := by
  by_cases h0 : v = 0
  · subst h0
    have : (0 : ℚ) = x := by
      by_contra hne
      have := h 0 0 (by norm_num) (by norm_num) (by simpa using hne)
      simp at this
      exact absurd this (not_lt.mpr (abs_nonneg x))
    rw [← this]
    simp [round64]
  · have hn := nearest64_nearest h0 hx
    have heq : nearest64 v = x := by
      by_contra hne
      have := h (roundEven (v / pow2 (quantum v))) (quantum v) (abs_roundEven_le (abs_div_quantum_lt h0))
        (by unfold quantum; omega) (by rw [← pow2_eq]; exact hne)
      rw [← pow2_eq] at this
      rw [abs_sub_comm, abs_sub_comm x] at hn
      exact absurd this (not_lt.mpr hn)
    rw [round64_of_nearest h0 (by rw [heq]; exact hx.choose_spec.choose_spec.2.2.2), heq]

theorem readF64_display {fmt : XNum ℚ → List Char} (hf : Display fmt) {x : ℚ} (hx : IsDouble x) :
    readF64 (fmt (.fin x)) = some (.fin x) := by
  obtain ⟨n, h1, h2, -, h4⟩ := hf.finite x hx
  rw [h1, readF64_numeral h2, h4]

theorem readF64_displayed {fmt : XNum ℚ → List Char} (hf : Display fmt) {x : XNum ℚ} (hx : DoubleVal x) :
    readF64 (fmt x) = some x := by
  cases x with
  | nan => rw [hf.nan]; decide +kernel
  | ninf => rw [hf.ninf]; decide +kernel
  | fin q => exact readF64_display hf (hx q rfl)
  | inf => rw [hf.inf]; decide +kernel

/-- the characters of a numeral -/
theorem Spec.Numeral.Valid.mem {n : Numeral} (hn : n.Valid) {c : Char} (hc : c ∈ n.text) :
    c.isDigit = true ∨ c ∈ ['-', '+', '.', 'e'] := by
  obtain ⟨h1, h2, -, h4⟩ := hn
  obtain ⟨minus, whole, frac, exp⟩ := n
  simp only [Numeral.text, Numeral.body, List.mem_append] at hc h1 h2 h4
  rcases hc with hc | hc | hc | hc
  · split at hc
    · rw [List.mem_singleton] at hc; subst hc; right; simp
    · cases hc
  · exact Or.inl (h1 c hc)
  · cases frac with
    | none => cases hc
    | some f =>
      rcases List.mem_cons.mp hc with rfl | hc
      · right; simp
      · exact Or.inl (h2 c hc)
  · cases exp with
    | none => cases hc
    | some e =>
      obtain ⟨s, d⟩ := e
      obtain ⟨k1, -, k3⟩ := h4 s d rfl
      rcases List.mem_cons.mp hc with rfl | hc
      · right; simp
      · rcases List.mem_append.mp hc with hc | hc
        · right
          simp only [List.mem_cons, List.not_mem_nil, or_false] at k1
          rcases k1 with rfl | rfl | rfl
          · cases hc
          · simp at hc; simp [hc]
          · simp at hc; simp [hc]
        · exact Or.inl (k3 c hc)

theorem Spec.Display.mem {fmt : XNum ℚ → List Char} (hf : Display fmt) {x : XNum ℚ} (hx : DoubleVal x)
    {c : Char} (hc : c ∈ fmt x) : c ≠ '"' ∧ c ≠ '&' := by
  have key : ∀ l : List Char, c ∈ l → (∀ d ∈ l, d ≠ '"' ∧ d ≠ '&') → c ≠ '"' ∧ c ≠ '&' := fun l h1 h2 => h2 c h1
  cases x with
  | nan => rw [hf.nan] at hc; exact key _ hc (by decide)
  | ninf => rw [hf.ninf] at hc; exact key _ hc (by decide)
  | inf => rw [hf.inf] at hc; exact key _ hc (by decide)
  | fin q =>
    obtain ⟨n, h1, h2, -, -⟩ := hf.finite q (hx q rfl)
    rw [h1] at hc
    rcases h2.mem hc with h | h
    · constructor <;> (rintro rfl; revert h; decide)
    · exact key _ h (by decide)

/-! ## The contract of `Display` can be satisfied -/

theorem digitsValue_append (l m : List Char) :
    digitsValue (l ++ m) = digitsValue l * 10 ^ m.length + digitsValue m := by
  induction l with
  | nil => simp [digitsValue]
  | cons c l ih =>
    rw [List.cons_append, digitsValue, digitsValue, ih, List.length_append, pow_add]
    ring

theorem digitsValue_zeros (k : Nat) : digitsValue (List.replicate k '0') = 0 := by
  induction k with
  | zero => rfl
  | succ k ih => rw [List.replicate_succ, digitsValue, ih]; simp

/-- all digits of a number, with at least `k` of them behind the point -/
def allDigits (k N : Nat) : List Char := List.replicate k '0' ++ showUsize N

/-- the numeral `± N / 10 ^ k` -/
def decimal (minus : Bool) (k N : Nat) : Numeral where
  minus := minus
  whole := (allDigits k N).take ((allDigits k N).length - k)
  frac := some ((allDigits k N).drop ((allDigits k N).length - k))
  exp := none

theorem decimal_valid (minus : Bool) (k N : Nat) : (decimal minus k N).Valid := by
  have h : ∀ c ∈ allDigits k N, c.isDigit = true := by
    intro c hc
    rcases List.mem_append.mp hc with hc | hc
    · rw [(List.mem_replicate.mp hc).2]; decide
    · exact showUsize_digit hc
  refine ⟨fun c hc => h c (List.mem_of_mem_take hc), fun c hc => h c (List.mem_of_mem_drop hc), ?_, ?_⟩
  · simp only [decimal, Option.getD_some, List.take_append_drop]
    simp [allDigits, showUsize_ne]
  · intro s d h
    cases h

theorem decimal_value (minus : Bool) (k N : Nat) :
    (decimal minus k N).value = (if minus then -1 else 1) * N / (10 : ℚ) ^ k := by
  have h1 : k ≤ (allDigits k N).length := by simp [allDigits]
  have h2 : digitsValue (allDigits k N) = N := by
    rw [allDigits, digitsValue_append, digitsValue_zeros, digitsValue_showUsize]
    simp
  simp only [Numeral.value, decimal, Option.getD_some, List.take_append_drop, Numeral.expValue, h2,
    List.length_drop]
  rw [show (0 : ℤ) - (((allDigits k N).length - ((allDigits k N).length - k) : ℕ) : ℤ) = -(k : ℤ) by omega,
    zpow_neg, zpow_natCast, div_eq_mul_inv]
  cases minus <;> simp

/-- all digits of a double -/
def exactDisplay : XNum ℚ → List Char
  | .nan => "NaN".toList
  | .inf => "inf".toList
  | .ninf => "-inf".toList
  | .fin x => (decimal (x < 0) 1074 ((x * 2 ^ 1074).num.natAbs * 5 ^ 1074)).text

theorem exactDisplay_value {x : ℚ} (hx : IsDouble x) :
    (decimal (x < 0) 1074 ((x * 2 ^ 1074).num.natAbs * 5 ^ 1074)).value = x := by
  rw [decimal_value]
  obtain ⟨z, q, h1, -, h3, -⟩ := hx
  obtain ⟨j, hj⟩ := Int.eq_ofNat_of_zero_le (show 0 ≤ q + 1074 by omega)
  generalize hk : (1074 : ℕ) = k at *
  have hint : x * 2 ^ k = ((z * 2 ^ j : ℤ) : ℚ) := by
    rw [h1, pow2_eq, show q = (j : ℤ) - (k : ℤ) by omega, zpow_sub₀ (by norm_num), zpow_natCast, zpow_natCast]
    push_cast
    field_simp
  rw [hint, Rat.num_intCast]
  generalize z * 2 ^ j = Z at *
  have h2 : (0 : ℚ) < 2 ^ k := by positivity
  have h10 : (10 : ℚ) ^ k = 2 ^ k * 5 ^ k := by rw [← mul_pow]; norm_num
  have h5 : (5 : ℚ) ^ k ≠ 0 := by positivity
  have hx' : x = Z / 2 ^ k := by rw [← hint]; field_simp
  have hsgn : x < 0 ↔ Z < 0 := by
    rw [hx', div_neg_iff]
    constructor
    · rintro (⟨_, h⟩ | ⟨h, _⟩)
      · exact absurd h2 (not_lt.mpr h.le)
      · exact_mod_cast h
    · intro h
      exact Or.inr ⟨by exact_mod_cast h, h2⟩
  have habs : (if decide (x < 0) = true then -1 else 1) * ((Z.natAbs : ℕ) : ℚ) = Z := by
    rw [Nat.cast_natAbs]
    by_cases h : Z < 0
    · rw [if_pos (by simpa using hsgn.mpr h), abs_of_neg h]; push_cast; ring
    · rw [if_neg (by rw [decide_eq_true_eq]; exact fun h' => h (hsgn.mp h')), abs_of_nonneg (not_lt.mp h)]; simp
  rw [Nat.cast_mul, ← mul_assoc, habs, h10, Nat.cast_pow, Nat.cast_ofNat, mul_div_mul_right _ _ h5, ← hx']

theorem display_exact : Display exactDisplay :=
  ⟨fun x hx => ⟨_, rfl, decimal_valid _ _ _, rfl, by rw [exactDisplay_value hx, round64_isDouble hx]⟩, rfl, rfl, rfl⟩

theorem digits16_exact : Digits16 exactDisplay := fun x hx =>
  ⟨_, rfl, decimal_valid _ _ _, by
    rw [exactDisplay_value hx, sub_self, abs_zero]
    exact mul_nonneg (by norm_num) (abs_nonneg _)⟩

end Walky
