import Verif.XmlSpec
import Verif.Lemmas.Basic

/-! # Lemmas: reading XML texts -/

namespace Walky

open Spec

/-! ## Trimming -/

theorem dropWhile_ws {w s : List Char} (hw : AllWs w) : (w ++ s).dropWhile isWs = s.dropWhile isWs := by
  induction w with
  | nil => rfl
  | cons c w ih =>
    rw [List.cons_append, List.dropWhile_cons_of_pos (hw c (by simp))]
    exact ih fun d hd => hw d (by simp [hd])

theorem Spec.AllWs.reverse {w : List Char} (hw : AllWs w) : AllWs w.reverse := fun c hc => hw c (by simpa using hc)

theorem Spec.AllWs.dropWhile {w : List Char} (hw : AllWs w) : w.dropWhile isWs = [] := by
  have := dropWhile_ws (s := []) hw
  simpa using this

theorem Spec.AllWs.trim {w : List Char} (hw : AllWs w) : trim w = [] := by
  rw [Walky.trim, hw.dropWhile]; rfl

theorem dropWhile_head {s : List Char} (h : ∀ c, s.head? = some c → isWs c = false) :
    s.dropWhile isWs = s := by
  cases s with
  | nil => rfl
  | cons c s =>
    rw [List.dropWhile_cons_of_neg]
    simp [h c rfl]

theorem trimEnd_ws {s w : List Char} (hw : AllWs w) (h : ∀ c, s.getLast? = some c → isWs c = false) :
    trimEnd (s ++ w) = s := by
  rw [trimEnd, List.reverse_append, dropWhile_ws hw.reverse, dropWhile_head, List.reverse_reverse]
  intro c hc
  rw [List.head?_reverse] at hc
  exact h c hc

theorem trim_plain {w x w' : List Char} (hw : AllWs w) (hx : PlainText x) (hw' : AllWs w') :
    trim (w ++ x ++ w') = x := by
  obtain ⟨h1, -, -, h4, h5⟩ := hx
  rw [trim, List.append_assoc, dropWhile_ws hw, dropWhile_head, trimEnd_ws hw' h5]
  intro c hc
  apply h4
  cases x with
  | nil => exact absurd rfl h1
  | cons d x => simpa using hc

theorem name_getLast {t : List Char} (ht : Name t) (c : Char) (h : t.getLast? = some c) :
    isWs c = false ∧ c ∉ ['<', '>', '/', '=', '"', '\'', ':', '&', '?', '!'] :=
  ht.2 c (List.mem_of_getLast? h)

/-! ## Cutting -/

theorem cutGt_append {body rest : List Char} (h : '>' ∉ body) :
    cutGt (body ++ '>' :: rest) = some (body, rest) := by
  induction body with
  | nil => rfl
  | cons c body ih =>
    have hc : c ≠ '>' := fun e => h (by simp [e])
    rw [List.cons_append, cutGt, if_neg hc, ih (fun e => h (by simp [e]))]
    rfl

/-- no quotes and no `>` -/
theorem cutTag_plain {a s : List Char} (h : '>' ∉ a ∧ '"' ∉ a ∧ '\'' ∉ a) :
    cutTag none (a ++ s) = (cutTag none s).map fun x => (a ++ x.1, x.2) := by
  induction a with
  | nil =>
    rw [List.nil_append]
    cases cutTag none s <;> rfl
  | cons c a ih =>
    simp only [List.mem_cons, not_or] at h
    rw [List.cons_append, cutTag, if_neg (fun e => h.1.1 e.symm),
      if_neg (by rintro (e | e); exacts [h.2.1.1 e.symm, h.2.2.1 e.symm]), ih ⟨h.1.2, h.2.1.2, h.2.2.2⟩]
    cases cutTag none s <;> rfl

theorem name_plain {t : List Char} (ht : Name t) : '>' ∉ t ∧ '"' ∉ t ∧ '\'' ∉ t :=
  ⟨fun h => (ht.2 _ h).2 (by simp), fun h => (ht.2 _ h).2 (by simp), fun h => (ht.2 _ h).2 (by simp)⟩

theorem ws_plain {w : List Char} (hw : AllWs w) : '>' ∉ w ∧ '"' ∉ w ∧ '\'' ∉ w :=
  ⟨fun h => absurd (hw _ h) (by decide), fun h => absurd (hw _ h) (by decide),
    fun h => absurd (hw _ h) (by decide)⟩

theorem attrName_plain {t : List Char} (ht : AttrName t) : '>' ∉ t ∧ '"' ∉ t ∧ '\'' ∉ t := by
  obtain ⟨n, hn, rfl | rfl⟩ := ht
  · exact name_plain hn
  · have := name_plain hn
    simp [this.1, this.2.1, this.2.2]

theorem cutTag_quoted {q : Char} {v s : List Char} (h : q ∉ v) :
    cutTag (some q) (v ++ q :: s) = (cutTag none s).map fun x => (v ++ q :: x.1, x.2) := by
  induction v with
  | nil =>
    rw [List.nil_append, cutTag, if_pos rfl]
    rfl
  | cons c v ih =>
    simp only [List.mem_cons, not_or] at h
    rw [List.cons_append, cutTag, if_neg (fun e => h.1 e.symm), ih h.2]
    cases cutTag none s <;> rfl

theorem cutTag_attrs {as : List (List Char × List Char)} {r : List Char} (h : AttrsText as r) (s : List Char) :
    cutTag none (r ++ s) = (cutTag none s).map fun x => (r ++ x.1, x.2) := by
  induction h with
  | done hw => exact cutTag_plain (ws_plain hw)
  | @attr w n w1 w2 v r q as hw hn hw1 hw2 hq hv _ _ ih =>
    have e : w ++ n ++ w1 ++ ['='] ++ w2 ++ [q] ++ v ++ [q] ++ r ++ s =
        (w ++ n ++ w1 ++ ['='] ++ w2) ++ (q :: (v ++ q :: (r ++ s))) := by simp
    have h1 := ws_plain hw
    have h2 := attrName_plain hn
    have h3 := ws_plain hw1
    have h4 := ws_plain hw2
    have hq' : q ≠ '>' := by rcases hq with rfl | rfl <;> decide
    rw [e, cutTag_plain, cutTag, if_neg hq', if_pos hq, cutTag_quoted hv, ih]
    · cases cutTag none s with
      | none => rfl
      | some x => simp
    · simp [h1.1, h1.2.1, h1.2.2, h2.1, h2.2.1, h2.2.2, h3.1, h3.2.1, h3.2.2, h4.1, h4.2.1, h4.2.2]

theorem cutTag_tag {t b : List Char} {as : List (List Char × List Char)} (h : TagText t as b) (s : List Char) :
    cutTag none (b ++ s) = (cutTag none s).map fun x => (b ++ x.1, x.2) := by
  obtain ⟨h1, -, r, rfl, h2, -⟩ := h
  rw [List.append_assoc, cutTag_plain (name_plain h1), cutTag_attrs h2]
  cases cutTag none s <;> simp

theorem cutGt_some {s a r : List Char} (h : cutGt s = some (a, r)) : s = a ++ '>' :: r ∧ '>' ∉ a := by
  induction s generalizing a with
  | nil => cases h
  | cons c s ih =>
    rw [cutGt] at h
    by_cases hc : c = '>'
    · rw [if_pos hc] at h
      cases h
      simp [hc]
    · rw [if_neg hc] at h
      cases hs : cutGt s with
      | none => rw [hs] at h; cases h
      | some x =>
        rw [hs] at h
        simp only [Option.map_some, Option.some.injEq, Prod.mk.injEq] at h
        obtain ⟨rfl, rfl⟩ := h
        obtain ⟨h1, h2⟩ := ih hs
        exact ⟨by rw [h1]; rfl, by simp [h2, Ne.symm hc]⟩

theorem cutTag_some {q : Option Char} {s a r : List Char} (h : cutTag q s = some (a, r)) : s = a ++ '>' :: r := by
  induction s generalizing q a with
  | nil => cases q <;> cases h
  | cons c s ih =>
    have key : ∀ q', (cutTag q' s).map (fun x => (c :: x.1, x.2)) = some (a, r) → c :: s = a ++ '>' :: r := by
      intro q' h
      cases hs : cutTag q' s with
      | none => rw [hs] at h; cases h
      | some x =>
        rw [hs] at h
        simp only [Option.map_some, Option.some.injEq, Prod.mk.injEq] at h
        obtain ⟨rfl, rfl⟩ := h
        rw [ih hs]
        rfl
    cases q with
    | none =>
      rw [cutTag] at h
      by_cases hc : c = '>'
      · rw [if_pos hc] at h
        cases h
        simp [hc]
      · rw [if_neg hc] at h
        exact key _ h
    | some q =>
      rw [cutTag] at h
      exact key _ h

theorem cutGt_prefix {a r : List Char} (h : cutGt (a ++ r) = none) : cutGt a = none := by
  induction a with
  | nil => rfl
  | cons c a ih =>
    rw [List.cons_append, cutGt] at h
    rw [cutGt]
    by_cases hc : c = '>'
    · rw [if_pos hc] at h; cases h
    · rw [if_neg hc] at h ⊢
      rw [Option.map_eq_none_iff] at h ⊢
      exact ih h

theorem cutTag_prefix {q : Option Char} {a r : List Char} (h : cutTag q (a ++ r) = none) :
    cutTag q a = none := by
  induction a generalizing q with
  | nil => cases q <;> rfl
  | cons c a ih =>
    cases q with
    | none =>
      rw [List.cons_append, cutTag] at h
      rw [cutTag]
      by_cases hc : c = '>'
      · rw [if_pos hc] at h; cases h
      · rw [if_neg hc] at h ⊢
        rw [Option.map_eq_none_iff] at h ⊢
        exact ih h
    | some q =>
      rw [List.cons_append, cutTag] at h
      rw [cutTag]
      rw [Option.map_eq_none_iff] at h ⊢
      exact ih h

/-! ## Attributes -/

theorem takeWhile_all {β : Type} {p : β → Bool} {a : List β} (h : ∀ x ∈ a, p x = true) :
    a.takeWhile p = a := by
  have := List.takeWhile_append_of_pos (l₂ := []) h
  simpa using this

theorem dropWhile_all {β : Type} {p : β → Bool} {a : List β} (h : ∀ x ∈ a, p x = true) :
    a.dropWhile p = [] := by
  have := List.dropWhile_append_of_pos (l₂ := []) h
  simpa using this

theorem takeWhile_stop {β : Type} {p : β → Bool} {a s : List β} {c : β} (h : ∀ x ∈ a, p x = true)
    (hc : p c = false) : (a ++ c :: s).takeWhile p = a := by
  rw [List.takeWhile_append_of_pos h, List.takeWhile_cons_of_neg (by simp [hc])]
  simp

theorem dropWhile_stop {β : Type} {p : β → Bool} {a s : List β} {c : β} (h : ∀ x ∈ a, p x = true)
    (hc : p c = false) : (a ++ c :: s).dropWhile p = c :: s := by
  rw [List.dropWhile_append_of_pos h, List.dropWhile_cons_of_neg (by simp [hc])]

theorem name_head {t : List Char} (ht : Name t) : ∃ c r, t = c :: r ∧ isWs c = false ∧ 
    c ∉ ['<', '>', '/', '=', '"', '\'', ':', '&', '?', '!'] := by
  cases t with
  | nil => exact absurd rfl ht.1
  | cons c r => exact ⟨c, r, rfl, ht.2 c (by simp)⟩

theorem attrName_head {t : List Char} (ht : AttrName t) : ∃ c r, t = c :: r ∧ isWs c = false := by
  obtain ⟨n, hn, rfl | rfl⟩ := ht
  · obtain ⟨c, r, h1, h2, -⟩ := name_head hn
    exact ⟨c, r, h1, h2⟩
  · exact ⟨'x', _, rfl, by decide⟩

theorem attrName_char {t : List Char} (ht : AttrName t) : ∀ x ∈ t, (!isWs x && x != '=') = true := by
  have key : ∀ n, Name n → ∀ x ∈ n, (!isWs x && x != '=') = true := fun n hn x hx => by
    have := hn.2 x hx
    have h3 : x ≠ '=' := fun e => this.2 (by simp [e])
    simp [this.1, h3]
  obtain ⟨n, hn, rfl | rfl⟩ := ht
  · exact key _ hn
  · intro x hx
    rcases List.mem_append.mp hx with h | h
    · have : ∀ x ∈ "xmlns:".toList, (!isWs x && x != '=') = true := by decide
      exact this x h
    · exact key _ hn x h

theorem nameChar_iff {c : Char} : nameChar c = true ↔
    isWs c = false ∧ c ∉ ['<', '>', '/', '=', '"', '\'', ':', '&', '?', '!'] := by
  rw [nameChar, Bool.and_eq_true, Bool.not_eq_true', Bool.not_eq_true', ← Bool.not_eq_true, ← Bool.not_eq_true,
    Bool.not_eq_true, List.contains_iff_mem]

theorem name_iff {t : List Char} : Name t ↔ t.all nameChar = true ∧ t.isEmpty = false := by
  rw [Name, List.all_eq_true, List.isEmpty_eq_false_iff]
  simp only [nameChar_iff]
  exact And.comm

theorem oddAttr_iff {a : List Char × List Char} : oddAttr a = false ↔ AttrName a.1 ∧ '&' ∉ a.2 := by
  unfold oddAttr
  simp only [Bool.or_eq_false_iff, Bool.not_eq_false', List.contains_eq_mem, decide_eq_false_iff_not]
  rw [← name_iff]
  refine and_congr ?_ Iff.rfl
  by_cases hp : "xmlns:".toList.isPrefixOf a.1 = true
  · rw [if_pos hp]
    rw [List.isPrefixOf_iff_prefix] at hp
    obtain ⟨r, hr⟩ := hp
    rw [← hr]
    have h6 : ("xmlns:".toList ++ r).drop 6 = r := rfl
    rw [h6]
    constructor
    · exact fun h => ⟨r, h, Or.inr rfl⟩
    · rintro ⟨n, hn, h | h⟩
      · exfalso
        have : ':' ∈ n := by rw [← h]; simp
        exact (hn.2 _ this).2 (by simp)
      · rw [List.append_cancel_left h]
        exact hn
  · rw [if_neg hp]
    constructor
    · exact fun h => ⟨_, h, Or.inl rfl⟩
    · rintro ⟨n, hn, h | h⟩
      · rw [h]; exact hn
      · exfalso
        apply hp
        rw [h, List.isPrefixOf_iff_prefix]
        exact List.prefix_append _ _

theorem readAttrs_attrs {as : List (List Char × List Char)} {r : List Char} (h : AttrsText as r) :
    ∀ k, r.length < k → readAttrs k r = some as := by
  induction h with
  | done hw =>
    rintro (_ | k) hk
    · simp at hk
    · rw [readAttrs, hw.dropWhile]
  | @attr w n w1 w2 v s q as hw hn hw1 hw2 hq hv _ _ ih =>
    rintro (_ | k) hk
    · simp at hk
    obtain ⟨c, r, hc, hcw⟩ := attrName_head hn
    have e : w ++ n ++ w1 ++ ['='] ++ w2 ++ [q] ++ v ++ [q] ++ s =
        w ++ (n ++ (w1 ++ '=' :: (w2 ++ q :: (v ++ q :: s)))) := by simp
    have hk' : s.length < k := by
      rw [e] at hk
      simp at hk
      omega
    have hp := attrName_char hn
    have hp1 : ∀ c ∈ w1, ∀ r : List Char, (c :: r).dropWhile (fun c => !isWs c && c != '=') = c :: r := by
      intro c hc r
      rw [List.dropWhile_cons_of_neg]
      simp [hw1 c hc]
    have htk : (n ++ (w1 ++ '=' :: (w2 ++ q :: (v ++ q :: s)))).takeWhile (fun c => !isWs c && c != '=') = n := by
      cases w1 with
      | nil => exact takeWhile_stop hp (by decide)
      | cons d w1 => exact takeWhile_stop hp (by simp [hw1 d (by simp)])
    have hdr : (n ++ (w1 ++ '=' :: (w2 ++ q :: (v ++ q :: s)))).dropWhile (fun c => !isWs c && c != '=') =
        w1 ++ '=' :: (w2 ++ q :: (v ++ q :: s)) := by
      cases w1 with
      | nil => exact dropWhile_stop hp (by decide)
      | cons d w1 => exact dropWhile_stop hp (by simp [hw1 d (by simp)])
    have hd : (w ++ (n ++ (w1 ++ '=' :: (w2 ++ q :: (v ++ q :: s))))).dropWhile isWs =
        n ++ (w1 ++ '=' :: (w2 ++ q :: (v ++ q :: s))) := by
      rw [dropWhile_ws hw, hc, List.cons_append, List.dropWhile_cons_of_neg (by simp [hcw])]
    have hqv : ∀ x ∈ v, (x != q) = true := fun x hx => by
      have : x ≠ q := fun e => hv (e ▸ hx)
      simp [this]
    have hqw : isWs q = false := by rcases hq with rfl | rfl <;> decide
    rw [e, readAttrs, hd]
    rw [show n ++ (w1 ++ '=' :: (w2 ++ q :: (v ++ q :: s))) =
      c :: (r ++ (w1 ++ '=' :: (w2 ++ q :: (v ++ q :: s)))) by rw [hc]; rfl]
    simp only
    rw [show c :: (r ++ (w1 ++ '=' :: (w2 ++ q :: (v ++ q :: s)))) =
      n ++ (w1 ++ '=' :: (w2 ++ q :: (v ++ q :: s))) by rw [hc]; rfl]
    rw [htk, hdr, dropWhile_ws hw1, List.dropWhile_cons_of_neg (by decide)]
    simp only
    rw [dropWhile_ws hw2, List.dropWhile_cons_of_neg (by simp [hqw])]
    simp only
    rw [if_pos hq, dropWhile_stop hqv (by simp), takeWhile_stop hqv (by simp)]
    simp only
    rw [ih k hk']
    rfl

theorem takeWhile_mem {β : Type} {p : β → Bool} {l : List β} {x : β} (h : x ∈ l.takeWhile p) : p x = true := by
  induction l with
  | nil => cases h
  | cons y l ih =>
    rw [List.takeWhile_cons] at h
    split at h
    case isTrue hy =>
      rcases List.mem_cons.mp h with rfl | h
      exacts [hy, ih h]
    case isFalse => cases h

theorem ws_takeWhile (s : List Char) : AllWs (s.takeWhile isWs) := fun _ hc => takeWhile_mem hc

/-- what is read as attributes is a way to write them -/
theorem readAttrs_some : ∀ (k : Nat) (r : List Char) (as : List (List Char × List Char)),
    readAttrs k r = some as → as.any oddAttr = false → AttrsText as r := by
  intro k
  induction k with
  | zero => intro r as h; cases h
  | succ k ih =>
    intro r as h ho
    rw [readAttrs] at h
    have hr := List.takeWhile_append_dropWhile (p := isWs) (l := r)
    have hw := ws_takeWhile r
    generalize r.takeWhile isWs = w at hr hw
    generalize r.dropWhile isWs = r1 at h hr
    subst hr
    cases r1 with
    | nil =>
      cases h
      rw [List.append_nil]
      exact .done hw
    | cons c r1 =>
      simp only at h
      generalize c :: r1 = r2 at h
      have hr2 := List.takeWhile_append_dropWhile (p := fun c => !isWs c && c != '=') (l := r2)
      generalize r2.takeWhile (fun c => !isWs c && c != '=') = n at h hr2
      generalize r2.dropWhile (fun c => !isWs c && c != '=') = r3 at h hr2
      subst hr2
      have hr3 := List.takeWhile_append_dropWhile (p := isWs) (l := r3)
      have hw1 := ws_takeWhile r3
      generalize r3.takeWhile isWs = w1 at hr3 hw1
      generalize r3.dropWhile isWs = r4 at h hr3
      subst hr3
      split at h
      case h_2 => cases h
      case h_1 r5 =>
      have hr5 := List.takeWhile_append_dropWhile (p := isWs) (l := r5)
      have hw2 := ws_takeWhile r5
      generalize r5.takeWhile isWs = w2 at hr5 hw2
      generalize r5.dropWhile isWs = r6 at h hr5
      subst hr5
      cases r6 with
      | nil => cases h
      | cons q r6 =>
        simp only at h
        split at h
        case isFalse => cases h
        case isTrue hq =>
        have hr6 := List.takeWhile_append_dropWhile (p := (· != q)) (l := r6)
        have hv : q ∉ r6.takeWhile (· != q) := fun hm => by
          have := takeWhile_mem hm
          simp at this
        have hd : ∀ c l, r6.dropWhile (· != q) = c :: l → c = q := by
          intro c l e
          have := List.head?_dropWhile_not (· != q) r6
          rw [e] at this
          simpa using this
        generalize r6.takeWhile (· != q) = v at h hr6 hv
        generalize r6.dropWhile (· != q) = r7 at h hr6 hd
        subst hr6
        cases r7 with
        | nil => cases h
        | cons c r7 =>
          obtain rfl := hd c r7 rfl
          simp only at h
          cases ht : readAttrs k r7 with
          | none => rw [ht] at h; cases h
          | some l =>
            rw [ht] at h
            cases h
            rw [List.any_cons, Bool.or_eq_false_iff] at ho
            have hn := oddAttr_iff.mp ho.1
            have := AttrsText.attr hw hn.1 hw1 hw2 hq hv hn.2 (ih r7 l ht ho.2)
            simpa using this

theorem attrs_not_odd {as : List (List Char × List Char)} {r : List Char} (h : AttrsText as r) :
    as.any oddAttr = false := by
  induction h with
  | done => rfl
  | attr _ hn _ _ _ _ ha _ ih => rw [List.any_cons, ih, oddAttr_iff.mpr ⟨hn, ha⟩]; rfl

theorem startTok_iff {t b : List Char} {as : List (List Char × List Char)} :
    startTok b = .start t as ↔ TagText t as b := by
  constructor
  · intro h
    unfold startTok at h
    simp only at h
    split at h
    case h_1 => cases h
    case h_2 attrs hr =>
    split at h
    case isTrue => cases h
    case isFalse hc =>
    simp only [not_or, Bool.not_eq_true, Decidable.not_not, Bool.not_eq_false] at hc
    obtain ⟨h1, h2, h3, h4⟩ := hc
    have ht := XTok.start.inj h
    rw [← ht.1, ← ht.2]
    refine ⟨name_iff.mpr ⟨h2, h1⟩, h4, _, (List.takeWhile_append_dropWhile).symm, readAttrs_some _ _ _ hr h3, ?_⟩
    intro c hc
    have := List.head?_dropWhile_not (!isWs ·) b
    rw [hc] at this
    simpa using this
  · rintro ⟨ht, hn, r, rfl, hr, hh⟩
    have hp : ∀ x ∈ t, (!isWs x) = true := fun x hx => by simp [(ht.2 x hx).1]
    have h1 : (t ++ r).takeWhile (!isWs ·) = t ∧ (t ++ r).dropWhile (!isWs ·) = r := by
      cases r with
      | nil => rw [List.append_nil]; exact ⟨takeWhile_all hp, dropWhile_all hp⟩
      | cons c r =>
        have := hh c rfl
        exact ⟨takeWhile_stop hp (by simp [this]), dropWhile_stop hp (by simp [this])⟩
    have hn' := name_iff.mp ht
    unfold startTok
    simp only [h1.1, h1.2]
    rw [readAttrs_attrs hr _ (Nat.lt_succ_self _)]
    simp only
    rw [if_neg]
    simp only [not_or, Bool.not_eq_true, Decidable.not_not, Bool.not_eq_false]
    exact ⟨hn'.2, hn'.1, attrs_not_odd hr, hn⟩

theorem startTok_bad {b : List Char} (h : ∀ t as, startTok b ≠ .start t as) : startTok b = .bad .unmodelled := by
  unfold startTok at h ⊢
  simp only at h ⊢
  split
  · rfl
  · split
    · rfl
    · rename_i h1 h2
      rw [h1] at h
      simp only at h
      rw [if_neg h2] at h
      exact absurd rfl (h _ _)

/-- a tag does not end with `/` -/
theorem tagText_last {t b : List Char} {as : List (List Char × List Char)} (h : TagText t as b) :
    b.getLast? ≠ some '/' := by
  obtain ⟨ht, -, r, rfl, hr, -⟩ := h
  have key : ∀ as r, AttrsText as r → r = [] ∨ ∃ c, r.getLast? = some c ∧ c ≠ '/' := by
    intro as r h
    induction h with
    | @done w hw =>
      rcases List.eq_nil_or_concat w with h | ⟨l, a, h⟩
      · exact Or.inl h
      · refine Or.inr ⟨a, by simp [h], fun e => absurd (hw a (by simp [h])) (by rw [e]; decide)⟩
    | @attr w n w1 w2 v s q as _ _ _ _ hq _ _ _ ih =>
      refine Or.inr ?_
      rcases ih with rfl | ⟨c, h1, h2⟩
      · refine ⟨q, by rw [List.append_nil, List.getLast?_concat], by rcases hq with rfl | rfl <;> decide⟩
      · refine ⟨c, ?_, h2⟩
        rw [List.getLast?_append, h1]
        rfl
  rcases key _ _ hr with rfl | ⟨c, h1, h2⟩
  · rw [List.append_nil]
    intro e
    exact (name_getLast ht _ e).2 (by simp)
  · rw [List.getLast?_append, h1]
    intro e
    exact h2 (by simpa using e)

theorem tagText_head {t b : List Char} {as : List (List Char × List Char)} (h : TagText t as b) :
    ∃ c r, b = c :: r ∧ c ≠ '!' ∧ c ≠ '?' ∧ c ≠ '/' := by
  obtain ⟨ht, -, r, rfl, -, -⟩ := h
  obtain ⟨c, r', rfl, -, hcs⟩ := name_head ht
  exact ⟨c, _, rfl, fun e => hcs (by simp [e]), fun e => hcs (by simp [e]), fun e => hcs (by simp [e])⟩

/-! ## Markup -/

theorem markup_start {t b s : List Char} {as : List (List Char × List Char)} (h : TagText t as b) :
    markup (b ++ '>' :: s) = ([.start t as], some s) := by
  obtain ⟨c, r, hc, h1, h2, h3⟩ := tagText_head h
  have hcut := cutTag_tag h ('>' :: s)
  rw [hc, List.cons_append] at hcut ⊢
  rw [markup, if_neg h1, if_neg h2, if_neg h3, hcut, cutTag, if_pos rfl]
  simp only [Option.map_some, List.append_nil]
  rw [← hc, if_neg (tagText_last h), startTok_iff.mpr h]

theorem markup_empty {t b s : List Char} {as : List (List Char × List Char)} (h : TagText t as b) :
    markup (b ++ '/' :: '>' :: s) = ([.start t as, .stop t], some s) := by
  obtain ⟨c, r, hc, h1, h2, h3⟩ := tagText_head h
  have hcut := cutTag_tag h ('/' :: '>' :: s)
  rw [hc, List.cons_append] at hcut ⊢
  rw [markup, if_neg h1, if_neg h2, if_neg h3, hcut, cutTag, if_neg (by decide), if_neg (by decide), cutTag,
    if_pos rfl]
  simp only [Option.map_some]
  rw [← hc, if_pos (by simp), List.dropLast_concat, startTok_iff.mpr h]

theorem markup_stop {t w s : List Char} (ht : Name t) (hw : AllWs w) :
    markup ('/' :: (t ++ (w ++ '>' :: s))) = ([.stop t], some s) := by
  rw [← List.append_assoc, markup, if_neg (by decide), if_neg (by decide), if_pos rfl,
    cutGt_append (by simp [(name_plain ht).1, (ws_plain hw).1])]
  simp only
  rw [trimEnd_ws hw fun c hc => (name_getLast ht c hc).1]

theorem markup_decl {d s : List Char} (hd : '>' ∉ d) :
    markup ('?' :: (d ++ '?' :: '>' :: s)) = ([.decl], some s) := by
  have hc : cutGt ((d ++ ['?']) ++ '>' :: s) = some (d ++ ['?'], s) := cutGt_append (by simp [hd])
  have e2 : d ++ '?' :: '>' :: s = (d ++ ['?']) ++ '>' :: s := by simp
  rw [markup, if_neg (by decide), if_pos rfl, e2, hc]
  simp

/-- white space at the end -/
theorem trimEnd_split (s : List Char) : ∃ w, AllWs w ∧ s = trimEnd s ++ w := by
  refine ⟨(s.reverse.takeWhile isWs).reverse, (ws_takeWhile _).reverse, ?_⟩
  rw [trimEnd, ← List.reverse_append, List.takeWhile_append_dropWhile, List.reverse_reverse]

/-- what can be read of markup -/
theorem markup_some {s rest : List Char} {ts : List XTok} (h : markup s = (ts, some rest)) :
    (ts = [.decl] ∧ ∃ d, '>' ∉ d ∧ s = '?' :: (d ++ '?' :: '>' :: rest)) ∨
    (∃ t w, ts = [.stop t] ∧ AllWs w ∧ '>' ∉ t ∧ s = '/' :: (t ++ (w ++ '>' :: rest))) ∨
    (∃ t as b, ts = [.start t as] ∧ TagText t as b ∧ s = b ++ '>' :: rest) ∨
    ∃ t as b, ts = [.start t as, .stop t] ∧ TagText t as b ∧ s = b ++ '/' :: '>' :: rest := by
  cases s with
  | nil => cases h
  | cons c s =>
    rw [markup] at h
    by_cases h1 : c = '!'
    · rw [if_pos h1] at h; cases h
    rw [if_neg h1] at h
    by_cases h2 : c = '?'
    · rw [if_pos h2] at h
      refine Or.inl ?_
      cases hc : cutGt s with
      | none => rw [hc] at h; cases h
      | some x =>
        obtain ⟨body, r⟩ := x
        rw [hc] at h
        simp only at h
        split at h
        case isFalse => cases h
        case isTrue hl =>
        cases h
        obtain ⟨e, hg⟩ := cutGt_some hc
        rcases List.eq_nil_or_concat body with hb | ⟨l, a, hb⟩
        · rw [hb] at hl; cases hl
        · rw [List.concat_eq_append] at hb
          rw [hb] at hl hg
          have ha : a = '?' := by simpa using hl
          subst ha
          refine ⟨rfl, l, fun hm => hg (by simp [hm]), ?_⟩
          rw [h2, e, hb]
          simp
    rw [if_neg h2] at h
    by_cases h3 : c = '/'
    · rw [if_pos h3] at h
      refine Or.inr (Or.inl ?_)
      cases hc : cutGt s with
      | none => rw [hc] at h; cases h
      | some x =>
        obtain ⟨body, r⟩ := x
        rw [hc] at h
        cases h
        obtain ⟨e, hg⟩ := cutGt_some hc
        obtain ⟨w, hw, hb⟩ := trimEnd_split body
        refine ⟨_, w, rfl, hw, fun hm => hg (by rw [hb]; simp [hm]), ?_⟩
        rw [h3, e, ← List.append_assoc, ← hb]
    rw [if_neg h3] at h
    refine Or.inr (Or.inr ?_)
    cases hc : cutTag none (c :: s) with
    | none => rw [hc] at h; cases h
    | some x =>
      obtain ⟨body, r⟩ := x
      rw [hc] at h
      have e := cutTag_some hc
      simp only at h
      split at h
      case isTrue hl =>
        split at h
        case h_2 => cases h
        case h_1 tag attrs hs =>
        cases h
        refine Or.inr ⟨tag, attrs, _, rfl, startTok_iff.mp hs, ?_⟩
        rcases List.eq_nil_or_concat body with hb | ⟨l, a, hb⟩
        · rw [hb] at hl; cases hl
        · rw [List.concat_eq_append] at hb
          rw [hb] at hl
          have ha : a = '/' := by simpa using hl
          subst ha
          rw [e, hb, List.dropLast_concat]
          simp
      case isFalse hl =>
        split at h
        case h_2 => cases h
        case h_1 tag attrs hs =>
        cases h
        exact Or.inl ⟨tag, attrs, body, rfl, startTok_iff.mp hs, e⟩

theorem markup_none {s : List Char} {ts : List XTok} (hm : markup s = (ts, none)) : ∃ e, ts = [.bad e] := by
  revert hm
  cases s with
  | nil => intro hm; cases hm; exact ⟨_, rfl⟩
  | cons c s =>
    rw [markup]
    intro hm
    split at hm
    · cases hm; exact ⟨_, rfl⟩
    split at hm
    · split at hm
      · cases hm; exact ⟨_, rfl⟩
      · split at hm
        · cases hm
        · cases hm; exact ⟨_, rfl⟩
    split at hm
    · split at hm
      · cases hm; exact ⟨_, rfl⟩
      · cases hm
    split at hm
    · cases hm; exact ⟨_, rfl⟩
    · split at hm
      · split at hm
        · cases hm
        · rename_i hs
          cases hm
          exact ⟨_, by rw [startTok_bad fun t as e => hs t as e]⟩
      · split at hm
        · cases hm
        · rename_i hs
          cases hm
          exact ⟨_, by rw [startTok_bad fun t as e => hs t as e]⟩

/-! ## Tokens -/

/-- with enough fuel the tokens of `s` begin with `ts` -/
def LexOk (s : List Char) (ts : List XTok) : Prop := ∀ k, s.length < k → ∃ ts', lexAux k s = ts ++ ts'

theorem lexOk_markup {s rest : List Char} {ts ts' : List XTok} (hm : markup s = (ts, some rest))
    (hl : rest.length ≤ s.length) (h : LexOk rest ts') : LexOk ('<' :: s) (ts ++ ts') := by
  rintro (_ | k) hk
  · simp at hk
  · simp only [List.length_cons] at hk
    rw [lexAux, if_pos rfl, hm]
    simp only
    obtain ⟨r, hr⟩ := h k (by omega)
    exact ⟨r, by rw [hr, List.append_assoc]⟩

theorem ws_ne {w : List Char} (hw : AllWs w) : ∀ c ∈ w, (c != '<') = true := fun x hx => by
  have : x ≠ '<' := fun e => absurd (hw x hx) (by rw [e]; decide)
  simp [this]

theorem ws_amp {w : List Char} (hw : AllWs w) : '&' ∉ w := fun hx => absurd (hw _ hx) (by decide)

theorem lexAux_ws {w s : List Char} (hw : AllWs w) (h0 : w ≠ []) (k : Nat) :
    lexAux (k + 1) (w ++ '<' :: s) = lexAux k ('<' :: s) := by
  cases w with
  | nil => exact absurd rfl h0
  | cons c w =>
    have hc : c ≠ '<' := fun e => absurd (hw c (by simp)) (by rw [e]; decide)
    rw [List.cons_append, lexAux, if_neg hc, ← List.cons_append, takeWhile_stop (ws_ne hw) (by decide),
      dropWhile_stop (ws_ne hw) (by decide)]
    simp only
    rw [if_neg (by simpa using ws_amp hw), if_pos hw.trim]

theorem lexOk_ws {w s : List Char} {ts : List XTok} (hw : AllWs w) (h : LexOk ('<' :: s) ts) :
    LexOk (w ++ '<' :: s) ts := by
  by_cases h0 : w = []
  · rw [h0]; exact h
  · rintro (_ | k) hk
    · simp at hk
    · rw [lexAux_ws hw h0]
      apply h k
      have : 0 < w.length := List.length_pos_iff.mpr h0
      simp at hk ⊢
      omega

theorem lexOk_text {w x w' s : List Char} {ts : List XTok} (hw : AllWs w) (hx : PlainText x)
    (hw' : AllWs w') (h : LexOk ('<' :: s) ts) : LexOk (w ++ x ++ (w' ++ '<' :: s)) (.text x :: ts) := by
  rintro (_ | k) hk
  · simp at hk
  have hp : ∀ c ∈ w ++ x ++ w', (c != '<') = true := by
    intro c hc
    simp only [List.mem_append] at hc
    rcases hc with (hc | hc) | hc
    · exact ws_ne hw c hc
    · have h1 : c ≠ '<' := fun e => hx.2.1 (e ▸ hc)
      simp [h1]
    · exact ws_ne hw' c hc
  have ha : '&' ∉ w ++ x ++ w' := by simp [ws_amp hw, ws_amp hw', hx.2.2.1]
  obtain ⟨c, r, hcr⟩ : ∃ c r, w ++ x ++ w' = c :: r := by
    cases h : w ++ x ++ w' with
    | nil =>
      simp only [List.append_eq_nil_iff] at h
      exact absurd h.1.2 hx.1
    | cons c r => exact ⟨c, r, rfl⟩
  have e : w ++ x ++ (w' ++ '<' :: s) = c :: (r ++ '<' :: s) := by
    rw [← List.append_assoc, hcr]; rfl
  have hc : c ≠ '<' := by
    have := hp c (by rw [hcr]; simp)
    simpa using this
  rw [e] at hk ⊢
  simp only [List.length_cons, List.length_append] at hk
  rw [lexAux, if_neg hc, ← List.cons_append, ← hcr, takeWhile_stop hp (by decide),
    dropWhile_stop hp (by decide)]
  simp only
  rw [if_neg (by simpa using ha), trim_plain hw hx hw', if_neg hx.1]
  obtain ⟨r, hr⟩ := h k (by simp; omega)
  exact ⟨r, by rw [hr]; rfl⟩

theorem layout_lex {ts : List XTok} {s : List Char} (h : Layout ts s) : LexOk s ts := by
  induction h with
  | done s => exact fun k _ => ⟨_, rfl⟩
  | @start w t b s as ts hw ht hs ih =>
    have h1 := lexOk_markup (markup_start (s := s) ht) (by simp; omega) ih
    have e : w ++ "<".toList ++ b ++ ">".toList ++ s = w ++ '<' :: (b ++ '>' :: s) := by simp
    rw [e]
    exact lexOk_ws hw h1
  | @stop w t w' s ts hw ht hw' hs ih =>
    have h1 := lexOk_markup (markup_stop (s := s) ht hw') (by simp; omega) ih
    have e : w ++ "</".toList ++ t ++ w' ++ ">".toList ++ s = w ++ '<' :: '/' :: (t ++ (w' ++ '>' :: s)) := by
      simp
    rw [e]
    exact lexOk_ws hw h1
  | @empty w t b s as ts hw ht hs ih =>
    have h1 := lexOk_markup (markup_empty (s := s) ht) (by simp; omega) ih
    have e : w ++ "<".toList ++ b ++ "/>".toList ++ s = w ++ '<' :: (b ++ '/' :: '>' :: s) := by simp
    rw [e]
    exact lexOk_ws hw h1
  | @text w x w' s ts hw hx hw' hs ih =>
    have e : w ++ x ++ w' ++ "<".toList ++ s = w ++ x ++ (w' ++ '<' :: s) := by simp
    rw [e]
    exact lexOk_text hw hx hw' ih

theorem Spec.AllWs.append {w w' : List Char} (h : AllWs w) (h' : AllWs w') : AllWs (w ++ w') := by
  intro c hc
  rcases List.mem_append.mp hc with hc | hc
  exacts [h c hc, h' c hc]

theorem allWs_nil : AllWs [] := fun c hc => by cases hc

theorem Spec.Layout.ws {w s : List Char} {ts : List XTok} (hw : AllWs w) (h : Layout ts s) :
    Layout ts (w ++ s) := by
  cases h with
  | done => exact .done _
  | start h1 h2 h3 =>
    have := Layout.start (hw.append h1) h2 h3
    simpa only [List.append_assoc] using this
  | stop h1 h2 h3 h4 =>
    have := Layout.stop (hw.append h1) h2 h3 h4
    simpa only [List.append_assoc] using this
  | empty h1 h2 h3 =>
    have := Layout.empty (hw.append h1) h2 h3
    simpa only [List.append_assoc] using this
  | text h1 h2 h3 h4 =>
    have := Layout.text (hw.append h1) h2 h3 h4
    simpa only [List.append_assoc] using this

theorem Spec.Document.ws {w s : List Char} {x : Xml} (hw : AllWs w) (h : Document x s) :
    Document x (w ++ s) := by
  cases h with
  | root h => exact .root (h.ws hw)
  | decl h1 h2 h3 =>
    have := Document.decl (hw.append h1) h2 h3
    simpa only [List.append_assoc] using this

theorem Spec.Layout.append {s : List Char} {ts : List XTok} (h : Layout ts s) (r : List Char) :
    Layout ts (s ++ r) := by
  induction h with
  | done => exact .done _
  | start h1 h2 _ ih =>
    have := Layout.start h1 h2 ih
    simpa only [List.append_assoc] using this
  | stop h1 h2 h3 _ ih =>
    have := Layout.stop h1 h2 h3 ih
    simpa only [List.append_assoc] using this
  | empty h1 h2 _ ih =>
    have := Layout.empty h1 h2 ih
    simpa only [List.append_assoc] using this
  | text h1 h2 h3 _ ih =>
    rw [List.append_assoc] at ih
    have := Layout.text h1 h2 h3 ih
    simpa only [List.append_assoc] using this

theorem Spec.Document.append {s : List Char} {x : Xml} (h : Document x s) (r : List Char) :
    Document x (s ++ r) := by
  induction h with
  | root h => exact .root (h.append r)
  | decl h1 h2 _ ih =>
    have := Document.decl h1 h2 ih
    simpa only [List.append_assoc] using this

/-! ## Trees -/

mutual
theorem build_toks (x : Xml) (ts : List XTok) (f : OpenElem) (st : List OpenElem) :
    build (toks x ++ ts) (f :: st) = build ts (f.push x :: st) := by
  match x with
  | .elem tag attrs children =>
    rw [toks, List.append_assoc, List.cons_append, build, build_toksList children]
    simp [build]
  | .text s => rfl
theorem build_toksList (l : List Xml) (ts : List XTok) (f : OpenElem) (st : List OpenElem) :
    build (toksList l ++ ts) (f :: st) = build ts ({ f with children := f.children ++ l } :: st) := by
  match l with
  | [] => simp [toksList]
  | x :: l =>
    rw [toksList, List.append_assoc, build_toks x, build_toksList l]
    simp [OpenElem.push]
end

theorem build_root (tag : List Char) (attrs : List (List Char × List Char)) (children : List Xml)
    (ts : List XTok) : build (toks (.elem tag attrs children) ++ ts) [] = .ok (.elem tag attrs children) := by
  rw [toks, List.append_assoc, List.cons_append, build, build_toksList]
  simp [build]

/-- the head of a document is white space and `<` -/
theorem document_head {x : Xml} {s : List Char} (h : Document x s) :
    ∃ w r, s = w ++ '<' :: r ∧ AllWs w ∧ ∃ t as ch, x = .elem t as ch := by
  cases h with
  | @root t s as ch h =>
    rw [toks, List.cons_append] at h
    generalize hts : XTok.start t as :: (toksList ch ++ [.stop t]) = ts at h
    cases h with
    | done => cases hts
    | start hw => exact ⟨_, _, by simp only [List.append_assoc]; rfl, hw, _, _, _, rfl⟩
    | stop => cases hts
    | empty hw => exact ⟨_, _, by simp only [List.append_assoc]; rfl, hw, _, _, _, rfl⟩
    | text => cases hts
  | @decl x w d s hw hd h =>
    refine ⟨w, _, by simp only [List.append_assoc]; rfl, hw, ?_⟩
    clear hd hw
    induction h with
    | root => exact ⟨_, _, _, rfl⟩
    | decl _ _ _ ih => exact ih

theorem ws_lt_head {w r : List Char} (hw : AllWs w) : (w ++ '<' :: r).head? ≠ some '\uFEFF' := by
  cases w with
  | nil => simp
  | cons c w =>
    intro e
    have : c = '\uFEFF' := by simpa using e
    exact absurd (hw c (by simp)) (by rw [this]; decide)

theorem build_decls (n : Nat) (ts : List XTok) : build (List.replicate n .decl ++ ts) [] = build ts [] := by
  induction n with
  | zero => rfl
  | succ n ih => rw [List.replicate_succ, List.cons_append, build, ih]

/-- what a document is read as -/
theorem readXml_document {x : Xml} {s : List Char} (h : Document x s) : readXml s = .ok x := by
  have key : ∃ n, LexOk s (List.replicate n .decl ++ toks x) := by
    induction h with
    | root h => exact ⟨0, layout_lex h⟩
    | @decl x w d s hw hd h ih =>
      obtain ⟨n, h3⟩ := ih
      have e : w ++ "<?".toList ++ d ++ "?>".toList ++ s = w ++ '<' :: '?' :: (d ++ '?' :: '>' :: s) := by simp
      refine ⟨n + 1, ?_⟩
      rw [e]
      have := lexOk_ws hw (lexOk_markup (markup_decl (s := s) hd) (by simp; omega) h3)
      simpa [List.replicate_succ] using this
  obtain ⟨n, hn⟩ := key
  obtain ⟨w, r, e, hw, t, as, ch, rfl⟩ := document_head h
  obtain ⟨ts', hts⟩ := hn _ (Nat.lt_succ_self _)
  rw [readXml, lex, if_neg (by rw [e]; exact ws_lt_head hw), hts, List.append_assoc, build_decls, build_root]

/-! ## What is read is a document -/

/-- the tokens of the open elements so far -/
def stackToks : List OpenElem → List XTok
  | [] => []
  | f :: st => stackToks st ++ .start f.tag f.attrs :: toksList f.children

theorem toksList_append (l l' : List Xml) : toksList (l ++ l') = toksList l ++ toksList l' := by
  induction l with
  | nil => simp [toksList]
  | cons x l ih => simp [toksList, ih]

theorem stackToks_push (f : OpenElem) (x : Xml) (st : List OpenElem) :
    stackToks (f.push x :: st) = stackToks (f :: st) ++ toks x := by
  simp [stackToks, OpenElem.push, toksList_append, toksList]

/-- A text that is read with the given open elements. -/
def Rest (st : List OpenElem) (s : List Char) (x : Xml) : Prop :=
  match st with
  | [] => Document x s
  | _ :: _ => ∃ ts, Layout ts s ∧ stackToks st ++ ts = toks x

theorem rest_ws {st : List OpenElem} {w s : List Char} {x : Xml} (hw : AllWs w) (h : Rest st s x) :
    Rest st (w ++ s) x := by
  cases st with
  | nil => exact Document.ws hw h
  | cons f st =>
    obtain ⟨ts, h1, h2⟩ := h
    exact ⟨ts, h1.ws hw, h2⟩

theorem rest_start {st : List OpenElem} {t b s : List Char} {as : List (List Char × List Char)} {x : Xml}
    (ht : TagText t as b) (h : Rest (⟨t, as, []⟩ :: st) s x) : Rest st ('<' :: (b ++ '>' :: s)) x := by
  obtain ⟨ts, h1, h2⟩ := h
  have hl : Layout (.start t as :: ts) ('<' :: (b ++ '>' :: s)) := by
    simpa using Layout.start allWs_nil ht h1
  cases st with
  | nil =>
    cases x with
    | text s => simp [stackToks, toks, toksList] at h2
    | elem tag attrs ch =>
      apply Document.root
      rw [← h2]
      simpa [stackToks, toksList] using hl
  | cons f st =>
    refine ⟨_, hl, ?_⟩
    rw [← h2]
    simp [stackToks, toksList]

theorem rest_stop {f g : OpenElem} {st : List OpenElem} {w s : List Char} {x : Xml} (ht : Name f.tag)
    (hw : AllWs w) (h : Rest (g.push (.elem f.tag f.attrs f.children) :: st) s x) :
    Rest (f :: g :: st) ('<' :: '/' :: (f.tag ++ (w ++ '>' :: s))) x := by
  obtain ⟨ts, h1, h2⟩ := h
  refine ⟨.stop f.tag :: ts, by simpa using Layout.stop allWs_nil ht hw h1, ?_⟩
  rw [← h2, stackToks_push, stackToks, toks]
  simp

/-- the trimmed text and the white space around it -/
theorem trim_split (t : List Char) : ∃ w w', AllWs w ∧ AllWs w' ∧ t = w ++ trim t ++ w' := by
  obtain ⟨w', hw', e⟩ := trimEnd_split (t.dropWhile isWs)
  refine ⟨t.takeWhile isWs, w', ws_takeWhile _, hw', ?_⟩
  rw [trim, List.append_assoc, ← e, List.takeWhile_append_dropWhile]

theorem trim_plainText {t : List Char} (h1 : '<' ∉ t) (h2 : '&' ∉ t) (h3 : trim t ≠ []) : PlainText (trim t) := by
  obtain ⟨w, w', -, -, e⟩ := trim_split t
  refine ⟨h3, fun h => h1 (by rw [e]; simp [h]), fun h => h2 (by rw [e]; simp [h]), ?_, ?_⟩
  · intro c hc
    obtain ⟨w1, hw1, e1⟩ := trimEnd_split (t.dropWhile isWs)
    have h4 := List.head?_dropWhile_not isWs t
    rw [e1, ← trim, List.head?_append, hc] at h4
    simpa using h4
  · intro c hc
    have h4 := List.head?_dropWhile_not isWs (t.dropWhile isWs).reverse
    rw [trim, trimEnd, List.getLast?_reverse] at hc
    rw [hc] at h4
    simpa using h4

theorem build_stop (tag : List Char) (ts : List XTok) (f : OpenElem) (st : List OpenElem) :
    build (.stop tag :: ts) (f :: st) = if tag = f.tag then
      match st with
      | [] => .ok (.elem f.tag f.attrs f.children)
      | g :: st => build ts (g.push (.elem f.tag f.attrs f.children) :: st)
    else .error .deError := by
  cases st <;> rfl

theorem build_ok_rest : ∀ (k : Nat) (s : List Char) (st : List OpenElem) (x : Xml), (∀ f ∈ st, Name f.tag) →
    build (lexAux k s) st = .ok x → Rest st s x := by
  intro k
  induction k with
  | zero => intro s st x _ h; cases h
  | succ k ih =>
    intro s st x hst h
    cases s with
    | nil => cases st <;> cases h
    | cons c s =>
      rw [lexAux] at h
      by_cases hc : c = '<'
      · rw [if_pos hc] at h
        subst hc
        cases hm : markup s with
        | mk ts o =>
          rw [hm] at h
          cases o with
          | none =>
            exfalso
            obtain ⟨e, rfl⟩ := markup_none hm
            cases st <;> cases h
          | some rest =>
            simp only at h
            rcases markup_some hm with ⟨rfl, d, hd, rfl⟩ | ⟨t, w, rfl, hw, -, rfl⟩ | ⟨t, as, b, rfl, ht, rfl⟩ |
              ⟨t, as, b, rfl, ht, rfl⟩
            · cases st with
              | nil =>
                have : Document x _ := Document.decl allWs_nil hd (ih _ _ _ hst h)
                rw [Rest]
                simpa using this
              | cons f st => cases h
            · cases st with
              | nil => cases h
              | cons f st =>
                rw [List.singleton_append, build_stop] at h
                split at h
                case isFalse => cases h
                case isTrue htf =>
                subst htf
                cases st with
                | nil =>
                  cases h
                  refine ⟨[.stop f.tag], by simpa using Layout.stop allWs_nil (hst f (by simp)) hw (.done rest), ?_⟩
                  simp [stackToks, toks]
                | cons g st =>
                  apply rest_stop (hst f (by simp)) hw
                  apply ih _ _ _ _ h
                  intro f' hf'
                  rcases List.mem_cons.mp hf' with rfl | hf'
                  · exact hst g (by simp)
                  · exact hst f' (by simp [hf'])
            · rw [List.singleton_append, build] at h
              apply rest_start ht
              apply ih _ _ _ _ h
              intro f hf
              rcases List.mem_cons.mp hf with rfl | hf
              exacts [ht.1, hst f hf]
            · have hl : ∀ ts, Layout ts rest → Layout (.start t as :: .stop t :: ts) ('<' :: (b ++ '/' :: '>' :: rest)) :=
                fun ts hts => by simpa using Layout.empty allWs_nil ht hts
              rw [List.cons_append, List.singleton_append, build, build_stop, if_pos rfl] at h
              cases st with
              | nil =>
                cases h
                apply Document.root
                simpa [toks, toksList] using hl _ (.done rest)
              | cons g st =>
                have hst' : ∀ f ∈ g.push (.elem t as []) :: st, Name f.tag := by
                  intro f' hf'
                  rcases List.mem_cons.mp hf' with rfl | hf'
                  · exact hst g (by simp)
                  · exact hst f' (by simp [hf'])
                obtain ⟨ts, h1, h2⟩ := ih _ _ _ hst' h
                refine ⟨_, hl ts h1, ?_⟩
                rw [← h2, stackToks_push]
                simp [toks, toksList]
      · rw [if_neg hc] at h
        simp only at h
        have hsplit := List.takeWhile_append_dropWhile (p := (· != '<')) (l := c :: s)
        have hlt : '<' ∉ (c :: s).takeWhile (· != '<') := fun hm => by
          have := takeWhile_mem hm
          simp at this
        have hrest : ∀ d l, (c :: s).dropWhile (· != '<') = d :: l → d = '<' := by
          intro d l e
          have := List.head?_dropWhile_not (· != '<') (c :: s)
          rw [e] at this
          simpa using this
        generalize (c :: s).takeWhile (· != '<') = t at h hsplit hlt
        generalize (c :: s).dropWhile (· != '<') = rest at h hsplit hrest
        rw [← hsplit]
        split at h
        · cases st <;> cases h
        · rename_i hamp
          have hamp' : '&' ∉ t := by simpa using hamp
          obtain ⟨w, w', hw, hw', e⟩ := trim_split t
          split at h
          · rename_i h0
            rw [e, h0, List.append_nil]
            exact rest_ws (hw.append hw') (ih _ _ _ hst h)
          · rename_i h0
            cases st with
            | nil => cases h
            | cons f st =>
              rw [build] at h
              have hst' : ∀ g ∈ f.push (.text (trim t)) :: st, Name g.tag := by
                intro f' hf'
                rcases List.mem_cons.mp hf' with rfl | hf'
                · exact hst f (by simp)
                · exact hst f' (by simp [hf'])
              obtain ⟨ts, h1, h2⟩ := ih _ _ _ hst' h
              have hne : ∃ r, rest = '<' :: r := by
                cases rest with
                | nil =>
                  exfalso
                  cases k with
                  | zero => cases h
                  | succ k => cases h
                | cons d l => rw [hrest d l rfl]; exact ⟨l, rfl⟩
              obtain ⟨r, rfl⟩ := hne
              have hl := Layout.text hw (trim_plainText hlt hamp' h0) hw' h1
              refine ⟨.text (trim t) :: ts, ?_, ?_⟩
              · have e2 : t ++ '<' :: r = w ++ trim t ++ w' ++ "<".toList ++ r := by
                  rw [← e]; simp
                rw [e2]
                exact hl
              · rw [← h2, stackToks_push]
                simp [toks]

/-- a text is read as `x` exactly if it is a document with the root element `x` -/
theorem readXml_iff {x : Xml} {s : List Char} : readXml s = .ok x ↔ Document x s := by
  refine ⟨fun h => ?_, readXml_document⟩
  rw [readXml, lex] at h
  split at h
  · cases h
  · exact build_ok_rest _ _ [] x (by simp) h

/-! ## Texts that are cut off -/

theorem cutGt_none {s : List Char} (h : '>' ∉ s) : cutGt s = none := by
  induction s with
  | nil => rfl
  | cons c s ih =>
    simp only [List.mem_cons, not_or] at h
    rw [cutGt, if_neg (fun e => h.1 e.symm), ih h.2]
    rfl

theorem append_cut {β : Type} {p q b rest : List β} {c : β} (h : p ++ q = b ++ c :: rest) :
    (∃ r, p = b ++ c :: r ∧ rest = r ++ q) ∨ ∃ b', b = p ++ b' := by
  rcases List.append_eq_append_iff.mp h with ⟨a, h1, h2⟩ | ⟨a, h1, h2⟩
  · exact Or.inr ⟨a, h1⟩
  · cases a with
    | nil => exact Or.inr ⟨[], by simpa using h1.symm⟩
    | cons d a =>
      rw [List.cons_append] at h2
      obtain ⟨rfl, h3⟩ := List.cons.inj h2
      exact Or.inl ⟨a, h1, h3⟩

theorem markup_cut {p q rest : List Char} {ts : List XTok} (h : markup (p ++ q) = (ts, some rest)) :
    (∃ r, markup p = (ts, some r) ∧ rest = r ++ q ∧ r.length ≤ p.length) ∨ markup p = ([.bad .deError], none) := by
  have htag : ∀ p b' : List Char, cutTag none (p ++ b') = none →
      (∃ c r, p ++ b' = c :: r ∧ c ≠ '!' ∧ c ≠ '?' ∧ c ≠ '/') → markup p = ([.bad .deError], none) := by
    intro p b' hc ⟨c, r, e, h1, h2, h3⟩
    cases p with
    | nil => rfl
    | cons d p =>
      obtain ⟨rfl, -⟩ := List.cons.inj e
      rw [markup, if_neg h1, if_neg h2, if_neg h3, cutTag_prefix hc]
  rcases markup_some h with ⟨rfl, d, hd, e⟩ | ⟨t, w, rfl, hw, ht, e⟩ | ⟨t, as, b, rfl, ht, e⟩ |
    ⟨t, as, b, rfl, ht, e⟩
  · rw [show '?' :: (d ++ '?' :: '>' :: rest) = ('?' :: (d ++ ['?'])) ++ '>' :: rest by simp] at e
    rcases append_cut e with ⟨r, rfl, h2⟩ | ⟨b', h2⟩
    · refine Or.inl ⟨r, ?_, h2, by simp; omega⟩
      simpa using markup_decl (s := r) hd
    · cases p with
      | nil => exact Or.inr rfl
      | cons c p =>
        obtain ⟨rfl, h3⟩ := List.cons.inj h2
        refine Or.inr ?_
        rw [markup, if_neg (by decide), if_pos rfl, cutGt_none]
        intro hm
        have : '>' ∈ d ++ ['?'] := by rw [h3]; simp [hm]
        simp [hd] at this
  · rw [show '/' :: (t ++ (w ++ '>' :: rest)) = ('/' :: (t ++ w)) ++ '>' :: rest by simp] at e
    have hno : '>' ∉ t ++ w := by simp [ht, (ws_plain hw).1]
    rcases append_cut e with ⟨r, rfl, h2⟩ | ⟨b', h2⟩
    · refine Or.inl ⟨r, ?_, h2, by simp; omega⟩
      rw [e, List.cons_append, markup, if_neg (by decide), if_neg (by decide), if_pos rfl, cutGt_append hno] at h
      rw [List.cons_append, markup, if_neg (by decide), if_neg (by decide), if_pos rfl, cutGt_append hno]
      simp only [Prod.mk.injEq, and_true] at h ⊢
      exact h
    · cases p with
      | nil => exact Or.inr rfl
      | cons c p =>
        obtain ⟨rfl, h3⟩ := List.cons.inj h2
        refine Or.inr ?_
        rw [markup, if_neg (by decide), if_neg (by decide), if_pos rfl, cutGt_none]
        intro hm
        exact hno (by rw [h3]; simp [hm])
  · rcases append_cut e with ⟨r, rfl, h2⟩ | ⟨b', rfl⟩
    · exact Or.inl ⟨r, markup_start ht, h2, by simp; omega⟩
    · refine Or.inr (htag p b' ?_ (tagText_head ht))
      have := cutTag_tag ht []
      rw [List.append_nil] at this
      rw [this]
      rfl
  · rw [show b ++ '/' :: '>' :: rest = (b ++ ['/']) ++ '>' :: rest by simp] at e
    rcases append_cut e with ⟨r, rfl, h2⟩ | ⟨b', h2⟩
    · refine Or.inl ⟨r, ?_, h2, by simp; omega⟩
      simpa using markup_empty (s := r) ht
    · refine Or.inr (htag p b' ?_ ?_)
      · rw [← h2, cutTag_tag ht]
        rfl
      · obtain ⟨c, r, h1, h3⟩ := tagText_head ht
        rw [← h2, h1]
        exact ⟨c, _, rfl, h3⟩

/-- a text that is cut off is not outside of the model if the whole text can be read -/
theorem build_cut : ∀ (k j : Nat) (p q : List Char) (st : List OpenElem) (x : Xml), p.length < k →
    build (lexAux j (p ++ q)) st = .ok x → build (lexAux k p) st ≠ .error .unmodelled := by
  intro k
  induction k with
  | zero => intro j p q st x hk; simp at hk
  | succ k ih =>
    rintro (_ | j) p q st x hk h
    · cases st <;> cases h
    have hnil : build [] st ≠ .error .unmodelled := by cases st <;> exact fun h => by cases h
    cases p with
    | nil => exact hnil
    | cons c p =>
      rw [List.length_cons] at hk
      rw [List.cons_append, lexAux] at h
      rw [lexAux]
      by_cases hc : c = '<'
      · rw [if_pos hc] at h ⊢
        cases hm : markup (p ++ q) with
        | mk ts o =>
          rw [hm] at h
          cases o with
          | none =>
            obtain ⟨e, rfl⟩ := markup_none hm
            cases st <;> cases h
          | some rest =>
            simp only at h
            rcases markup_cut hm with ⟨r, h1, rfl, h3⟩ | h1
            · rw [h1]
              simp only
              rcases markup_some hm with ⟨rfl, -⟩ | ⟨t, w, rfl, -⟩ | ⟨t, as, b, rfl, -⟩ | ⟨t, as, b, rfl, -⟩
              · cases st with
                | nil => exact ih _ _ _ _ _ (by omega) h
                | cons f st => cases h
              · cases st with
                | nil => cases h
                | cons f st =>
                  rw [List.singleton_append, build_stop] at h ⊢
                  by_cases htf : t = f.tag
                  · rw [if_pos htf] at h ⊢
                    cases st with
                    | nil => exact fun h => by cases h
                    | cons g st => exact ih _ _ _ _ _ (by omega) h
                  · rw [if_neg htf]
                    exact fun h => by cases h
              · rw [List.singleton_append, build] at h ⊢
                exact ih _ _ _ _ _ (by omega) h
              · rw [List.cons_append, List.singleton_append, build, build_stop, if_pos rfl] at h ⊢
                cases st with
                | nil => exact fun h => by cases h
                | cons g st => exact ih _ _ _ _ _ (by omega) h
            · rw [h1]
              cases st <;> exact fun h => by cases h
      · rw [if_neg hc] at h ⊢
        simp only at h ⊢
        by_cases hlt : '<' ∈ c :: p
        · obtain ⟨a, b, e, ha⟩ := List.eq_append_cons_of_mem hlt
          have ha' : ∀ c ∈ a, (c != '<') = true := fun d hd => by
            have : d ≠ '<' := fun e => ha (e ▸ hd)
            simp [this]
          have hab : b.length < k := by
            have := congrArg List.length e
            simp only [List.length_cons, List.length_append] at this
            cases a with
            | nil => exact absurd (List.cons.inj e).1 hc
            | cons d a => simp at this; omega
          rw [← List.cons_append, e, List.append_assoc, List.cons_append, takeWhile_stop ha' (by decide),
            dropWhile_stop ha' (by decide)] at h
          rw [e, takeWhile_stop ha' (by decide), dropWhile_stop ha' (by decide)]
          by_cases hamp : a.contains '&' = true
          · rw [if_pos hamp] at h
            cases st <;> cases h
          · rw [if_neg hamp] at h ⊢
            have hl : ('<' :: b).length < k := by
              have := congrArg List.length e
              simp only [List.length_cons, List.length_append] at this ⊢
              cases a with
              | nil => exact absurd (List.cons.inj e).1 hc
              | cons d a => simp at this; omega
            by_cases h0 : trim a = []
            · rw [if_pos h0] at h ⊢
              exact ih _ ('<' :: b) q _ _ hl h
            · rw [if_neg h0] at h ⊢
              cases st with
              | nil => cases h
              | cons f st => exact ih _ ('<' :: b) q (f.push (.text (trim a)) :: st) x hl h
        · have hall : ∀ d ∈ c :: p, (d != '<') = true := fun d hd => by
            have : d ≠ '<' := fun e => hlt (e ▸ hd)
            simp [this]
          rw [takeWhile_all hall, dropWhile_all hall]
          have hamp : (c :: p).contains '&' = false := by
            rw [← List.cons_append, List.takeWhile_append_of_pos hall] at h
            rw [Bool.eq_false_iff]
            intro hm
            rw [if_pos (by
              rw [List.contains_iff_mem] at hm ⊢
              exact List.mem_append_left _ hm)] at h
            cases st <;> cases h
          rw [if_neg (by rw [hamp]; exact Bool.false_ne_true)]
          have hl : lexAux k [] = [] := by
            cases k with
            | zero => simp at hk
            | succ k => rfl
          rw [hl]
          split
          · exact hnil
          · cases st with
            | nil => exact fun h => by cases h
            | cons f st => exact fun h => by cases h

/-- A document can be cut off from some position on. Before this position the result is an error. -/
theorem readXml_cut {x : Xml} {s : List Char} (h : Document x s) :
    ∃ n ≤ s.length, ∀ m, readXml (s.take m) = if n ≤ m then .ok x else .error .deError := by
  classical
  have hex : ∃ n, Document x (s.take n) := ⟨s.length, by rw [List.take_length]; exact h⟩
  refine ⟨Nat.find hex, Nat.find_min' hex (by rw [List.take_length]; exact h), fun m => ?_⟩
  by_cases hm : Nat.find hex ≤ m
  · rw [if_pos hm, readXml_iff]
    have := (Nat.find_spec hex).append ((s.take m).drop (Nat.find hex))
    rwa [show s.take (Nat.find hex) = (s.take m).take (Nat.find hex) by rw [List.take_take, min_eq_left hm],
      List.take_append_drop] at this
  · rw [if_neg hm]
    have hno := Nat.find_min hex (not_le.mp hm)
    cases hr : readXml (s.take m) with
    | ok y =>
      exfalso
      have hy := readXml_iff.mp hr
      have := hy.append (s.drop m)
      rw [List.take_append_drop] at this
      have e := (readXml_document this).symm.trans (readXml_document h)
      cases e
      exact hno hy
    | error e =>
      cases e with
      | deError => rfl
      | unmodelled =>
        exfalso
        obtain ⟨w, r, e, hw, -⟩ := document_head h
        have hb : ∀ m, (s.take m).head? ≠ some '\uFEFF' := by
          intro m he
          cases m with
          | zero => simp at he
          | succ m =>
            apply ws_lt_head (r := r) hw
            rw [← e]
            cases s with
            | nil => simp at he
            | cons c s => simpa using he
        have h1 := readXml_document h
        rw [readXml, lex, if_neg (hb m)] at hr
        have hb' := hb s.length
        rw [List.take_length] at hb'
        rw [readXml, lex, if_neg hb'] at h1
        refine build_cut _ (s.length + 1) (s.take m) (s.drop m) [] x (Nat.lt_succ_self _) ?_ hr
        rw [List.take_append_drop]
        exact h1

end Walky
