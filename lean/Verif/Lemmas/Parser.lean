import Verif.Lemmas.Xml
import Verif.Lemmas.Numerals

/-! # Lemmas: reading instances -/

namespace Walky

open Spec

variable {α : Type}

theorem mapM_except_ok {β γ ε : Type} {f : β → Except ε γ} {l : List β} {r : List γ} :
    l.mapM f = .ok r ↔ List.Forall₂ (fun x y => f x = .ok y) l r := by
  induction l generalizing r with
  | nil =>
    rw [List.mapM_nil]
    constructor
    · intro h
      cases h
      exact .nil
    · intro h
      cases h
      rfl
  | cons x l ih =>
    rw [List.mapM_cons]
    constructor
    · intro h
      cases hx : f x with
      | error e => rw [hx] at h; cases h
      | ok y =>
        rw [hx] at h
        cases hl : l.mapM f with
        | error e => 
          rw [hl] at h
          cases h
        | ok r' =>
          rw [hl] at h
          cases h
          exact .cons hx (ih.mp hl)
    · intro h
      cases h with
      | cons hx hl =>
        rw [hx, ih.mpr hl]
        rfl

theorem orErr_ok {β : Type} {o : Option β} {b : β} : orErr o = .ok b ↔ o = some b := by
  cases o with
  | none => simp [orErr]
  | some a => simp [orErr]

theorem readString_ok {x : Xml} {s : List Char} : readString x = .ok s ↔ EncString x s := by
  constructor
  · intro h
    match x, h with
    | .elem tag attrs [], h => exact ⟨tag, attrs, Or.inl ⟨rfl, (Except.ok.inj h).symm⟩⟩
    | .elem tag attrs [.text t], h =>
      cases Except.ok.inj h
      exact ⟨tag, attrs, Or.inr rfl⟩
  · rintro ⟨tag, attrs, ⟨rfl, rfl⟩ | rfl⟩ <;> rfl

theorem except_bind_ok {ε β γ : Type} {o : Except ε β} {f : β → Except ε γ} {c : γ} :
    (o >>= f) = .ok c ↔ ∃ b, o = .ok b ∧ f b = .ok c := by
  cases o with
  | error e => exact ⟨fun h => (by cases h), fun ⟨_, h, _⟩ => (by cases h)⟩
  | ok b => exact ⟨fun h => ⟨b, rfl, h⟩, fun ⟨_, h, h'⟩ => (by cases h; exact h')⟩

theorem readNumber_ok {x : Xml} {n : Nat} : readNumber x = .ok n ↔ EncNumber x n := by
  simp only [readNumber, except_bind_ok, readString_ok, orErr_ok, EncNumber, readU32, readUnsigned_iff]

theorem filter_one {β : Type} {p : β → Bool} {l : List β} {y : β} :
    l.filter p = [y] ↔ ∃ a b, l = a ++ y :: b ∧ p y = true ∧ ∀ x ∈ a ++ b, p x = false := by
  constructor
  · intro h
    induction l with
    | nil => cases h
    | cons c l ih =>
      by_cases hc : p c = true
      · rw [List.filter_cons_of_pos hc] at h
        obtain ⟨rfl, h'⟩ := List.cons.inj h
        refine ⟨[], l, rfl, hc, fun x hx => ?_⟩
        simpa using List.filter_eq_nil_iff.mp h' x hx
      · rw [List.filter_cons_of_neg hc] at h
        obtain ⟨a, b, rfl, h2, h3⟩ := ih h
        refine ⟨c :: a, b, rfl, h2, fun x hx => ?_⟩
        rcases List.mem_cons.mp hx with rfl | hx
        · simpa using hc
        · exact h3 x hx
  · rintro ⟨a, b, rfl, h2, h3⟩
    rw [List.filter_append, List.filter_cons_of_pos h2,
      List.filter_eq_nil_iff.mpr fun x hx => by simp [h3 x (by simp [hx])],
      List.filter_eq_nil_iff.mpr fun x hx => by simp [h3 x (by simp [hx])]]
    rfl

theorem hasTag_iff {tag : String} {x : Xml} :
    x.hasTag tag = true ↔ ∃ attrs ch, x = .elem tag.toList attrs ch := by
  cases x with
  | text s => simp [Xml.hasTag]
  | elem t a c => simp [Xml.hasTag]

theorem onlyChild_iff {children : List Xml} {tag : String} {y : Xml} :
    children.filter (Xml.hasTag tag) = [y] ↔ OnlyChild children tag y := by
  rw [filter_one]
  constructor
  · rintro ⟨a, b, h1, h2, h3⟩
    obtain ⟨attrs, ch, rfl⟩ := hasTag_iff.mp h2
    refine ⟨a, b, attrs, ch, h1, rfl, fun x hx attrs' ch' e => ?_⟩
    have := h3 x hx
    rw [hasTag_iff.mpr ⟨attrs', ch', e⟩] at this
    exact absurd this (by decide)
  · rintro ⟨a, b, attrs, ch, h1, rfl, h3⟩
    refine ⟨a, b, h1, hasTag_iff.mpr ⟨_, _, rfl⟩, fun x hx => ?_⟩
    rw [Bool.eq_false_iff]
    intro h
    obtain ⟨attrs', ch', e⟩ := hasTag_iff.mp h
    exact h3 x hx attrs' ch' e

theorem readField_ok {β : Type} {children : List Xml} {tag : String} {read : Xml → Except XmlErr β} {b : β} :
    readField children tag read = .ok b ↔ ∃ y, OnlyChild children tag y ∧ read y = .ok b := by
  unfold readField
  constructor
  · intro h
    split at h
    · next y hy => exact ⟨y, onlyChild_iff.mp hy, h⟩
    · cases h
  · rintro ⟨y, hy, h⟩
    rw [onlyChild_iff.mpr hy]
    exact h

theorem isText_iff {x : Xml} : x.isText = true ↔ ∃ s, x = .text s := by
  cases x <;> simp [Xml.isText]

theorem any_isText {l : List Xml} : l.any Xml.isText = false ↔ ∀ s, Xml.text s ∉ l := by
  rw [List.any_eq_false]
  constructor
  · intro h s hs
    exact h _ hs rfl
  · intro h x hx hx'
    obtain ⟨s, rfl⟩ := isText_iff.mp hx'
    exact h s hx

theorem readList_ok {β : Type} {read : Xml → Except XmlErr β} (hr : ∀ s b, read (.text s) ≠ .ok b)
    {children : List Xml} {l : List β} :
    readList read children = .ok l ↔ children ≠ [] ∧ List.Forall₂ (fun x y => read x = .ok y) children l := by
  unfold readList
  by_cases h0 : children = []
  · simp [h0]
  rw [if_neg h0]
  by_cases ht : children.any Xml.isText = true
  · rw [if_pos ht]
    constructor
    · intro h
      split at h <;> cases h
    · rintro ⟨-, h⟩
      exfalso
      rw [List.any_eq_true] at ht
      obtain ⟨x, hx, hxt⟩ := ht
      obtain ⟨s, rfl⟩ := isText_iff.mp hxt
      obtain ⟨i, hi, e⟩ := List.mem_iff_getElem.mp hx
      have hl := h.length_eq
      have := List.Forall₂.get h hi (by omega)
      rw [List.get_eq_getElem, e] at this
      exact hr _ _ this
  · rw [if_neg ht, mapM_except_ok]
    simp [h0]

theorem filter_cost {attrs : List (List Char × List Char)} {v : List Char} :
    (∃ a, attrs.filter (fun a => a.1 = "cost".toList) = [a] ∧ a.2 = v) ↔
      (attrs.map Prod.fst).count "cost".toList = 1 ∧ ("cost".toList, v) ∈ attrs := by
  have hc : (attrs.map Prod.fst).count "cost".toList =
      (attrs.filter (fun a => a.1 = "cost".toList)).length := by
    rw [List.count_eq_countP, List.countP_map, List.countP_eq_length_filter]
    congr 1
    apply List.filter_congr
    intro a _
    rw [Function.comp_apply, Bool.eq_iff_iff, beq_iff_eq, decide_eq_true_iff]
  rw [hc, List.length_eq_one_iff]
  constructor
  · rintro ⟨a, ha, rfl⟩
    refine ⟨⟨a, ha⟩, ?_⟩
    have : a ∈ attrs.filter (fun a => a.1 = "cost".toList) := by rw [ha]; simp
    obtain ⟨h1, h2⟩ := List.mem_filter.mp this
    have h3 : a.1 = "cost".toList := by simpa using h2
    rw [← h3]
    exact h1
  · rintro ⟨⟨a, ha⟩, hv⟩
    refine ⟨a, ha, ?_⟩
    have : ("cost".toList, v) ∈ attrs.filter (fun a => a.1 = "cost".toList) :=
      List.mem_filter.mpr ⟨hv, by simp⟩
    rw [ha, List.mem_singleton] at this
    rw [← this]

theorem readEdge_ok {readF : List Char → Option α} {x : Xml} {e : Edge α} :
    readEdge readF x = .ok e ↔ EncEdge readF x e := by
  cases x with
  | text s =>
    exact ⟨fun h => (by cases h), fun ⟨_, _, _, _, h, _⟩ => (by cases h)⟩
  | elem tag attrs children =>
    simp only [readEdge, except_bind_ok]
    constructor
    · rintro ⟨c, h1, d, h2, h3⟩
      obtain rfl := Except.ok.inj h3
      unfold readCost at h1
      split at h1
      · next a ha =>
        unfold readTo at h2
        split at h2
        · next s =>
          obtain ⟨h4, h5⟩ := filter_cost.mp ⟨a, ha, rfl⟩
          exact ⟨tag, attrs, s, a.2, rfl, h4, h5, orErr_ok.mp h1, readUnsigned_iff.mp (orErr_ok.mp h2)⟩
        · split at h2 <;> cases h2
      · cases h1
    · rintro ⟨tag', attrs', s, v, h1, h2, h3, h4, h5⟩
      obtain ⟨rfl, rfl, rfl⟩ := Xml.elem.inj h1
      obtain ⟨a, ha, rfl⟩ := filter_cost.mpr ⟨h2, h3⟩
      refine ⟨e.cost, ?_, e.dst, ?_, rfl⟩
      · rw [readCost, ha]
        exact orErr_ok.mpr h4
      · exact orErr_ok.mpr (readUnsigned_iff.mpr h5)

theorem readVertex_ok {readF : List Char → Option α} {x : Xml} {es : List (Edge α)} :
    readVertex readF x = .ok es ↔ EncVertex readF x es := by
  cases x with
  | text s => exact ⟨fun h => (by cases h), fun ⟨_, _, _, h, _⟩ => (by cases h)⟩
  | elem tag attrs children =>
    rw [readVertex, readList_ok (fun s b h => by cases h)]
    constructor
    · rintro ⟨h1, h2⟩
      exact ⟨tag, attrs, children, rfl, h1, h2.imp fun _ _ => readEdge_ok.mp⟩
    · rintro ⟨_, _, _, h, h1, h2⟩
      obtain ⟨rfl, rfl, rfl⟩ := Xml.elem.inj h
      exact ⟨h1, h2.imp fun _ _ => readEdge_ok.mpr⟩

theorem readGraph_ok {readF : List Char → Option α} {x : Xml} {g : Graph α} :
    readGraph readF x = .ok g ↔ EncGraph readF x g := by
  cases x with
  | text s => exact ⟨fun h => (by cases h), fun ⟨_, _, _, h, _⟩ => (by cases h)⟩
  | elem tag attrs children =>
    rw [readGraph, readList_ok (fun s b h => by cases h)]
    constructor
    · rintro ⟨h1, h2⟩
      exact ⟨tag, attrs, children, rfl, h1, h2.imp fun _ _ => readVertex_ok.mp⟩
    · rintro ⟨_, _, _, h, h1, h2⟩
      obtain ⟨rfl, rfl, rfl⟩ := Xml.elem.inj h
      exact ⟨h1, h2.imp fun _ _ => readVertex_ok.mpr⟩

theorem readInstance_ok {readF : List Char → Option α} {x : Xml} {i : Instance α} :
    readInstance readF x = .ok i ↔ Encodes readF x i := by
  cases x with
  | text s => exact ⟨fun h => (by cases h), fun ⟨_, _, _, h, _⟩ => (by cases h)⟩
  | elem tag attrs ch =>
    rw [readInstance]
    by_cases ht : ch.any Xml.isText = true
    · rw [if_pos ht]
      constructor
      · intro h
        cases h
      · rintro ⟨_, _, _, h, h1, -⟩
        obtain ⟨rfl, rfl, rfl⟩ := Xml.elem.inj h
        rw [any_isText.mpr h1] at ht
        cases ht
    · rw [if_neg ht]
      simp only [except_bind_ok, readField_ok, readString_ok, readNumber_ok, readGraph_ok]
      constructor
      · rintro ⟨a, ha, b, hb, c, hc, d, hd, e, he, g, hg, h⟩
        obtain rfl := Except.ok.inj h
        exact ⟨tag, attrs, ch, rfl, any_isText.mp (by simpa using ht), ha, hb, hc, hd, he, hg⟩
      · rintro ⟨_, _, _, h, -, ha, hb, hc, hd, he, hg⟩
        obtain ⟨rfl, rfl, rfl⟩ := Xml.elem.inj h
        exact ⟨_, ha, _, hb, _, hc, _, hd, _, he, _, hg, rfl⟩

/-! ## What is outside of the model -/

theorem mapM_except_ne {β γ ε : Type} {f : β → Except ε γ} {l : List β} {e : ε} (h : ∀ x ∈ l, f x ≠ .error e) :
    l.mapM f ≠ .error e := by
  induction l with
  | nil => rw [List.mapM_nil]; intro h; cases h
  | cons x l ih =>
    rw [List.mapM_cons]
    cases hx : f x with
    | error e' =>
      intro h'
      have : e' = e := by cases h'; rfl
      exact h x (by simp) (by rw [hx, this])
    | ok y =>
      cases hl : l.mapM f with
      | error e' =>
        intro h'
        have : e' = e := by cases h'; rfl
        exact ih (fun z hz => h z (by simp [hz])) (by rw [hl, this])
      | ok r => intro h'; cases h'

theorem except_bind_ne {ε β γ : Type} {o : Except ε β} {f : β → Except ε γ} {e : ε} (h : o ≠ .error e)
    (hf : ∀ b, f b ≠ .error e) : (o >>= f) ≠ .error e := by
  cases o with
  | error e' => intro h'; exact h (by cases h'; rfl)
  | ok b => exact hf b

theorem orErr_ne {β : Type} (o : Option β) : orErr o ≠ .error .unmodelled := by
  cases o <;> (intro h; cases h)

theorem readString_ne (x : Xml) : readString x ≠ .error .unmodelled := by
  unfold readString
  split <;> (intro h; cases h)

theorem readNumber_ne (x : Xml) : readNumber x ≠ .error .unmodelled :=
  except_bind_ne (readString_ne x) fun _ => orErr_ne _

theorem Spec.NoMixed.any {t : List Char} {as : List (List Char × List Char)} {ch : List Xml}
    (h : NoMixed (.elem t as ch)) (ha : ch.any Xml.isText = true) : ∃ s, ch = [.text s] := by
  cases h with
  | leaf _ _ s => exact ⟨s, rfl⟩
  | node _ _ h1 _ => rw [any_isText.mpr h1] at ha; cases ha

theorem Spec.NoMixed.child {t : List Char} {as : List (List Char × List Char)} {ch : List Xml}
    (h : NoMixed (.elem t as ch)) {x : Xml} (hx : x ∈ ch) : NoMixed x := by
  cases h with
  | leaf _ _ s => rw [List.mem_singleton] at hx; subst hx; exact .text s
  | node _ _ _ h2 => exact h2 x hx

theorem readEdge_ne {readF : List Char → Option α} {x : Xml} (h : NoMixed x) :
    readEdge readF x ≠ .error .unmodelled := by
  cases x with
  | text s => intro h; cases h
  | elem t as ch =>
    rw [readEdge]
    refine except_bind_ne ?_ fun c => except_bind_ne ?_ fun d h => (by cases h)
    · unfold readCost
      split
      · exact orErr_ne _
      · intro h; cases h
    · by_cases ha : ch.any Xml.isText = true
      · obtain ⟨s, rfl⟩ := h.any ha
        exact orErr_ne _
      · unfold readTo
        split
        · exact orErr_ne _
        · rw [if_neg ha]; intro h; cases h

theorem readList_ne {β : Type} {read : Xml → Except XmlErr β} {t : List Char}
    {as : List (List Char × List Char)} {ch : List Xml} (h : NoMixed (.elem t as ch))
    (hr : ∀ x ∈ ch, read x ≠ .error .unmodelled) : readList read ch ≠ .error .unmodelled := by
  unfold readList
  by_cases h0 : ch = []
  · rw [if_pos h0]; intro h; cases h
  rw [if_neg h0]
  by_cases ha : ch.any Xml.isText = true
  · obtain ⟨s, rfl⟩ := h.any ha
    intro h
    cases h
  · rw [if_neg ha]
    exact mapM_except_ne hr

theorem readVertex_ne {readF : List Char → Option α} {x : Xml} (h : NoMixed x) :
    readVertex readF x ≠ .error .unmodelled := by
  cases x with
  | text s => intro h; cases h
  | elem t as ch => exact readList_ne h fun x hx => readEdge_ne (h.child hx)

theorem readGraph_ne {readF : List Char → Option α} {x : Xml} (h : NoMixed x) :
    readGraph readF x ≠ .error .unmodelled := by
  cases x with
  | text s => intro h; cases h
  | elem t as ch => exact readList_ne h fun x hx => readVertex_ne (h.child hx)

theorem readField_ne {β : Type} {ch : List Xml} {tag : String} {read : Xml → Except XmlErr β}
    (hr : ∀ x ∈ ch, read x ≠ .error .unmodelled) : readField ch tag read ≠ .error .unmodelled := by
  unfold readField
  split
  · next y hy =>
    refine hr y ?_
    have : y ∈ ch.filter (Xml.hasTag tag) := by rw [hy]; simp
    exact (List.mem_filter.mp this).1
  · intro h; cases h

theorem readInstance_ne {readF : List Char → Option α} {x : Xml} (h : NoMixed x) :
    readInstance readF x ≠ .error .unmodelled := by
  cases x with
  | text s => intro h; cases h
  | elem t as ch =>
    rw [readInstance]
    by_cases ha : ch.any Xml.isText = true
    · rw [if_pos ha]
      obtain ⟨s, rfl⟩ := h.any ha
      intro h
      cases h
    · rw [if_neg ha]
      exact except_bind_ne (readField_ne fun _ _ => readString_ne _) fun _ =>
        except_bind_ne (readField_ne fun _ _ => readString_ne _) fun _ =>
        except_bind_ne (readField_ne fun _ _ => readString_ne _) fun _ =>
        except_bind_ne (readField_ne fun _ _ => readNumber_ne _) fun _ =>
        except_bind_ne (readField_ne fun _ _ => readNumber_ne _) fun _ =>
        except_bind_ne (readField_ne fun x hx => readGraph_ne (h.child hx)) fun _ h => (by cases h)

end Walky
