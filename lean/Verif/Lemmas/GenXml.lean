import Verif.Lemmas.Parser
import Verif.Lemmas.Numerals

/-! # Lemmas: the texts of the instance generators -/

namespace Walky

open Spec FloatOps

variable {α β : Type}

/-! ## Layouts -/

/-- `name="value"` with a value that needs no escapes -/
def Attr (a : List Char × List Char) : Prop := Name a.1 ∧ '"' ∉ a.2 ∧ '&' ∉ a.2

/-- an attribute as text -/
def attrText (a : List Char × List Char) : List Char :=
  " ".toList ++ a.1 ++ "=\"".toList ++ a.2 ++ "\"".toList

theorem attrsText_attrs {as : List (List Char × List Char)} (ha : ∀ a ∈ as, Attr a) {w : List Char}
    (hw : AllWs w) : AttrsText as (as.flatMap attrText ++ w) := by
  induction as with
  | nil => exact .done hw
  | cons a as ih =>
    obtain ⟨h1, h2, h3⟩ := ha a (by simp)
    have := AttrsText.attr (w := [' ']) (w1 := []) (w2 := []) (by unfold AllWs; decide) ⟨_, h1, Or.inl rfl⟩
      allWs_nil allWs_nil (Or.inl rfl) h2 h3 (ih fun b hb => ha b (by simp [hb]))
    simpa [attrText] using this

theorem tagText_attrs {t w : List Char} {as : List (List Char × List Char)} (ht : Name t)
    (ha : ∀ a ∈ as, Attr a) (hn : (as.map Prod.fst).Nodup) (hw : AllWs w) :
    TagText t as (t ++ as.flatMap attrText ++ w) := by
  refine ⟨ht, hn, as.flatMap attrText ++ w, by simp, attrsText_attrs ha hw, ?_⟩
  intro c hc
  cases as with
  | nil => exact hw c (List.mem_of_head? hc)
  | cons a as =>
    have : c = ' ' := by simpa [attrText] using hc.symm
    rw [this]
    decide

theorem layout_start {w t s : List Char} {as : List (List Char × List Char)} {ts : List XTok} (hw : AllWs w)
    (ht : Name t) (ha : ∀ a ∈ as, Attr a) (hn : (as.map Prod.fst).Nodup) (hs : Layout ts s) :
    Layout (.start t as :: ts) (w ++ "<".toList ++ t ++ as.flatMap attrText ++ ">".toList ++ s) := by
  have := Layout.start hw (tagText_attrs ht ha hn allWs_nil) hs
  simpa only [List.append_assoc, List.append_nil] using this

theorem layout_stop {w t s : List Char} {ts : List XTok} (hw : AllWs w) (ht : Name t) (hs : Layout ts s) :
    Layout (.stop t :: ts) (w ++ "</".toList ++ t ++ ">".toList ++ s) := by
  have := Layout.stop hw ht allWs_nil hs
  simpa only [List.append_assoc, List.nil_append] using this

theorem layout_empty {w t w' s : List Char} {as : List (List Char × List Char)} {ts : List XTok} (hw : AllWs w)
    (ht : Name t) (ha : ∀ a ∈ as, Attr a) (hn : (as.map Prod.fst).Nodup) (hw' : AllWs w')
    (hs : Layout ts s) :
    Layout (.start t as :: .stop t :: ts)
      (w ++ "<".toList ++ t ++ as.flatMap attrText ++ w' ++ "/>".toList ++ s) := by
  have := Layout.empty hw (tagText_attrs ht ha hn hw') hs
  simpa only [List.append_assoc] using this

theorem layout_leaf {w t x s : List Char} {as : List (List Char × List Char)} {ts : List XTok}
    (hw : AllWs w) (ht : Name t) (ha : ∀ a ∈ as, Attr a) (hn : (as.map Prod.fst).Nodup) (hx : PlainText x)
    (hs : Layout ts s) :
    Layout (toks (.elem t as [.text x]) ++ ts)
      (w ++ "<".toList ++ t ++ as.flatMap attrText ++ ">".toList ++ x ++ "</".toList ++ t ++ ">".toList ++ s) := by
  have h1 := layout_stop allWs_nil ht hs
  have h2 := Layout.text (w := []) (w' := []) (s := "/".toList ++ t ++ ">".toList ++ s) (ts := .stop t :: ts)
    allWs_nil hx allWs_nil (by simpa using h1)
  have h3 := layout_start hw ht ha hn h2
  simpa [toks, toksList] using h3

theorem layout_field {w t x s : List Char} {ts : List XTok} (hw : AllWs w) (ht : Name t) (hx : PlainText x)
    (hs : Layout ts s) :
    Layout (toks (.elem t [] [.text x]) ++ ts)
      (w ++ "<".toList ++ t ++ ">".toList ++ x ++ "</".toList ++ t ++ ">".toList ++ s) := by
  have := layout_leaf (as := []) hw ht (by simp) (by simp) hx hs
  simpa using this

theorem plain_showUsize (n : Nat) : PlainText (showUsize n) := by
  have h : ∀ c ∈ showUsize n, c.isDigit = true := fun c hc => showUsize_digit hc
  have hws : ∀ c : Char, c.isDigit = true → isWs c = false := by
    intro c hc
    rw [Bool.eq_false_iff]
    intro h
    simp only [isWs, Bool.or_eq_true, decide_eq_true_eq] at h
    rcases h with ((rfl | rfl) | rfl) | rfl <;> exact absurd hc (by decide)
  refine ⟨showUsize_ne n, fun hc => absurd (h _ hc) (by decide), fun hc => absurd (h _ hc) (by decide),
    fun c hc => hws c (h c (List.mem_of_mem_head? hc)), fun c hc => hws c (h c (List.mem_of_getLast? hc))⟩

theorem plain_of_check {s : List Char} (h : (!s.isEmpty && !s.contains '<' && !s.contains '&' &&
    s.head?.all (!isWs ·) && s.getLast?.all (!isWs ·)) = true) : PlainText s := by
  simp only [Bool.and_eq_true, Bool.not_eq_true', List.isEmpty_eq_false_iff, Option.all_eq_true] at h
  obtain ⟨⟨⟨⟨h1, h2⟩, h3⟩, h4⟩, h5⟩ := h
  exact ⟨h1, by simpa using h2, by simpa using h3, h4, h5⟩

/-- a text without quotes and references -/
def QuoteFree (s : List Char) : Prop := '"' ∉ s ∧ '&' ∉ s

theorem name_cost : Name "cost".toList := ⟨by decide, by decide⟩
theorem name_edge : Name "edge".toList := ⟨by decide, by decide⟩
theorem name_vertex : Name "vertex".toList := ⟨by decide, by decide⟩
theorem name_graph : Name "graph".toList := ⟨by decide, by decide⟩
theorem name_root : Name "travellingSalesmanProblemInstance".toList := ⟨by decide, by decide⟩

theorem layout_edge {fmt : α → List Char} {e : Edge α} {w s : List Char} {ts : List XTok} (hw : AllWs w)
    (hf : QuoteFree (fmt e.cost)) (hs : Layout ts s) :
    Layout (toks (edgeXml fmt e) ++ ts)
      (w ++ "<edge cost=\"".toList ++ fmt e.cost ++ "\">".toList ++ showUsize e.dst ++ "</edge>".toList ++ s) := by
  have := layout_leaf (as := [("cost".toList, fmt e.cost)]) hw name_edge
    (fun a ha => by
      rw [List.mem_singleton] at ha
      subst ha
      exact ⟨name_cost, hf.1, hf.2⟩)
    (by simp) (plain_showUsize e.dst) hs
  simpa [attrText, edgeXml] using this

/-- texts of the entries of a list one after the other -/
theorem layout_list {β : Type} {f : β → Xml} {g : β → List Char} {l : List β}
    (h : ∀ b ∈ l, ∀ ts s, Layout ts s → Layout (toks (f b) ++ ts) (g b ++ s)) {ts : List XTok} {s : List Char}
    (hs : Layout ts s) : Layout (toksList (l.map f) ++ ts) (l.flatMap g ++ s) := by
  induction l with
  | nil => simpa [toksList] using hs
  | cons b l ih =>
    rw [List.map_cons, toksList, List.flatMap_cons, List.append_assoc, List.append_assoc]
    exact h b (by simp) _ _ (ih fun c hc => h c (by simp [hc]))

/-! ## Reading -/

theorem mapM_except_err {β γ ε : Type} {f : β → Except ε γ} {l : List β} {e : ε}
    (h : ∀ x ∈ l, (∃ y, f x = .ok y) ∨ f x = .error e) (he : ∃ x ∈ l, f x = .error e) :
    l.mapM f = .error e := by
  induction l with
  | nil => obtain ⟨x, hx, -⟩ := he; cases hx
  | cons x l ih =>
    rw [List.mapM_cons]
    rcases h x (by simp) with ⟨y, hy⟩ | hy
    · rw [hy]
      obtain ⟨z, hz, hze⟩ := he
      rcases List.mem_cons.mp hz with rfl | hz
      · rw [hy] at hze; cases hze
      · have := ih (fun x hx => h x (by simp [hx])) ⟨z, hz, hze⟩
        rw [this]
        rfl
    · rw [hy]
      rfl

/-- the numbers in a graph can be read, as the numbers given by `f` -/
def Readable (readF : List Char → Option β) (fmt : α → List Char) (f : α → β) (g : Graph α) : Prop :=
  ∀ es ∈ g, ∀ e ∈ es, readF (fmt e.cost) = some (f e.cost) ∧ e.dst < 2 ^ 64

theorem readEdge_xml {readF : List Char → Option β} {fmt : α → List Char} {f : α → β} {e : Edge α}
    (h : readF (fmt e.cost) = some (f e.cost) ∧ e.dst < 2 ^ 64) :
    readEdge readF (edgeXml fmt e) = .ok ⟨e.dst, f e.cost⟩ :=
  readEdge_ok.mpr ⟨_, _, _, _, rfl, by simp, List.mem_singleton.mpr rfl, h.1,
    readUnsigned_iff.mp (readUsize_show h.2)⟩

theorem forall₂_map {β γ δ : Type} {f : β → γ} {g : β → δ} {R : γ → δ → Prop} {l : List β}
    (h : ∀ b ∈ l, R (f b) (g b)) : List.Forall₂ R (l.map f) (l.map g) := by
  induction l with
  | nil => exact .nil
  | cons b l ih => exact .cons (h b (by simp)) (ih fun c hc => h c (by simp [hc]))

theorem readVertex_xml {readF : List Char → Option β} {fmt : α → List Char} {f : α → β} {es : List (Edge α)}
    (h : ∀ e ∈ es, readF (fmt e.cost) = some (f e.cost) ∧ e.dst < 2 ^ 64) (h0 : es ≠ []) :
    readVertex readF (vertexXml fmt es) = .ok (es.map fun e => ⟨e.dst, f e.cost⟩) :=
  readVertex_ok.mpr ⟨_, _, _, rfl, by simpa using h0,
    forall₂_map fun e he => readEdge_ok.mp (readEdge_xml (h e he))⟩

theorem readGraph_xml {readF : List Char → Option β} {fmt : α → List Char} {f : α → β} {g : Graph α}
    (h : Readable readF fmt f g) (tag : List Char) (attrs : List (List Char × List Char)) :
    (g = [] ∨ [] ∈ g → readGraph readF (.elem tag attrs (g.map (vertexXml fmt))) = .error .deError) ∧
    (¬(g = [] ∨ [] ∈ g) → readGraph readF (.elem tag attrs (g.map (vertexXml fmt))) = .ok (mapCosts f g)) := by
  constructor
  · intro hg
    by_cases h0 : g = []
    · rw [h0]; rfl
    have h1 : [] ∈ g := hg.resolve_left h0
    rw [readGraph, readList, if_neg (by simpa using h0), if_neg]
    · apply mapM_except_err
      · intro x hx
        obtain ⟨es, hes, rfl⟩ := List.mem_map.mp hx
        cases es with
        | nil => exact Or.inr rfl
        | cons e es => exact Or.inl ⟨_, readVertex_xml (h _ hes) (by simp)⟩
      · exact ⟨_, List.mem_map.mpr ⟨[], h1, rfl⟩, rfl⟩
    · rw [Bool.not_eq_true, any_isText]
      intro s hs
      obtain ⟨es, -, he⟩ := List.mem_map.mp hs
      cases he
  · intro hg
    rw [not_or] at hg
    exact readGraph_ok.mpr ⟨_, _, _, rfl, by simpa using hg.1, forall₂_map fun es hes =>
      readVertex_ok.mp (readVertex_xml (h es hes) fun e => hg.2 (e ▸ hes))⟩

theorem readString_leaf (tag : String) (s : List Char) : readString (leafXml tag s) = .ok s := by
  unfold leafXml
  by_cases h : s = []
  · rw [if_pos h, h]; rfl
  · rw [if_neg h]; rfl

theorem readNumber_leaf (tag : String) {n : Nat} (h : n < 2 ^ 32) :
    readNumber (leafXml tag (showUsize n)) = .ok n := by
  rw [readNumber, readString_leaf]
  show orErr (readU32 (showUsize n)) = _
  rw [readU32, readUnsigned_show h]
  rfl

theorem readInstance_xml {readF : List Char → Option β} {fmt : α → List Char} {f : α → β} {i : Instance α}
    (h : Readable readF fmt f i.graph) (h1 : i.doublePrecision < 2 ^ 32) (h2 : i.ignoredDigits < 2 ^ 32) :
    (i.graph = [] ∨ [] ∈ i.graph → readInstance readF (instanceXml fmt i) = .error .deError) ∧
    (¬(i.graph = [] ∨ [] ∈ i.graph) → readInstance readF (instanceXml fmt i) = .ok
      ⟨i.name, i.source, i.description, i.doublePrecision, i.ignoredDigits, mapCosts f i.graph⟩) := by
  have hf : ∀ (β : Type) (tag : String) (l : List Xml) (read : Xml → Except XmlErr β) (y : Xml),
      l.filter (Xml.hasTag tag) = [y] → readField l tag read = read y := by
    intro β tag l read y hl
    rw [readField, hl]
  rw [instanceXml, readInstance, if_neg (by simp [Xml.isText, leafXml])]
  rw [hf _ "name" _ _ (leafXml "name" i.name) (by simp [Xml.hasTag, leafXml]),
    hf _ "source" _ _ (leafXml "source" i.source) (by simp [Xml.hasTag, leafXml]),
    hf _ "description" _ _ (leafXml "description" i.description) (by simp [Xml.hasTag, leafXml]),
    hf _ "doublePrecision" _ _ (leafXml "doublePrecision" (showUsize i.doublePrecision))
      (by simp [Xml.hasTag, leafXml]),
    hf _ "ignoredDigits" _ _ (leafXml "ignoredDigits" (showUsize i.ignoredDigits))
      (by simp [Xml.hasTag, leafXml]),
    hf _ "graph" _ _ (.elem "graph".toList [] (i.graph.map (vertexXml fmt))) (by simp [Xml.hasTag, leafXml]),
    readString_leaf, readString_leaf, readString_leaf, readNumber_leaf _ h1, readNumber_leaf _ h2]
  obtain ⟨h3, h4⟩ := readGraph_xml h "graph".toList []
  exact ⟨fun hg => by rw [h3 hg]; rfl, fun hg => by rw [h4 hg]; rfl⟩

/-! ## The generator of the repository -/

/-- the instance with the strings of the generators -/
def genInstance (g : Graph α) : Instance α where
  name := "RandomGraph".toList
  source := "gh:lquenti/walky".toList
  description := "random example".toList
  doublePrecision := 15
  ignoredDigits := 0
  graph := g

theorem allWs_newline : AllWs ['\n'] := by unfold AllWs; decide

/-- a line with a field -/
theorem layout_line {w e s : List Char} {ts : List XTok} (line t x : String) (hw : AllWs w) (he : AllWs e)
    (ht : Name t.toList) (hx : PlainText x.toList)
    (hl : line.toList = "<".toList ++ t.toList ++ ">".toList ++ x.toList ++ "</".toList ++ t.toList ++ ">".toList)
    (h : Layout ts s) :
    Layout (toks (.elem t.toList [] [.text x.toList]) ++ ts) (w ++ line.toList ++ e ++ s) := by
  have := layout_field hw ht hx (h.ws he)
  rw [hl]
  simpa only [List.append_assoc] using this

theorem toks_six (r : List Char) (a b c d e g : Xml) : toks (.elem r [] [a, b, c, d, e, g]) =
    .start r [] :: (toks a ++ (toks b ++ (toks c ++ (toks d ++ (toks e ++ (toks g ++ [.stop r])))))) := by
  rw [toks]
  simp only [toksList, List.append_assoc, List.cons_append, List.nil_append]

theorem leafXml_text {t : String} {x : List Char} (h : x ≠ []) :
    leafXml t x = .elem t.toList [] [.text x] := by rw [leafXml, if_neg h]

theorem toks_instance (fmt : α → List Char) (g : Graph α) :
    toks (instanceXml fmt (genInstance g)) =
      .start "travellingSalesmanProblemInstance".toList [] ::
        (toks (.elem "name".toList [] [.text "RandomGraph".toList]) ++
        (toks (.elem "source".toList [] [.text "gh:lquenti/walky".toList]) ++
        (toks (.elem "description".toList [] [.text "random example".toList]) ++
        (toks (.elem "doublePrecision".toList [] [.text "15".toList]) ++
        (toks (.elem "ignoredDigits".toList [] [.text "0".toList]) ++
        (toks (.elem "graph".toList [] (g.map (vertexXml fmt))) ++
          [.stop "travellingSalesmanProblemInstance".toList])))))) := by
  have e1 : showUsize 15 = "15".toList := by decide
  have e2 : showUsize 0 = "0".toList := by decide
  have l1 := leafXml_text (t := "name") (x := "RandomGraph".toList) (by decide)
  have l2 := leafXml_text (t := "source") (x := "gh:lquenti/walky".toList) (by decide)
  have l3 := leafXml_text (t := "description") (x := "random example".toList) (by decide)
  have l4 := leafXml_text (t := "doublePrecision") (x := showUsize 15) (by decide)
  have l5 := leafXml_text (t := "ignoredDigits") (x := showUsize 0) (by decide)
  rw [← l1, ← l2, ← l3, ← e1, ← e2, ← l4, ← l5]
  exact toks_six _ _ _ _ _ _ _

/-- the lines before the graph, the graph, and the last line -/
theorem layout_instance {fmt : α → List Char} {g : Graph α} {w e gt : List Char} (hw : AllWs w) (he : AllWs e)
    (hg : ∀ ts s, Layout ts s → Layout (toks (.elem "graph".toList [] (g.map (vertexXml fmt))) ++ ts) (gt ++ s)) :
    Layout (toks (instanceXml fmt (genInstance g)))
      ("<travellingSalesmanProblemInstance>".toList ++ e ++
        (w ++ "<name>RandomGraph</name>".toList ++ e ++
        (w ++ "<source>gh:lquenti/walky</source>".toList ++ e ++
        (w ++ "<description>random example</description>".toList ++ e ++
        (w ++ "<doublePrecision>15</doublePrecision>".toList ++ e ++
        (w ++ "<ignoredDigits>0</ignoredDigits>".toList ++ e ++
        (gt ++ ("</travellingSalesmanProblemInstance>".toList ++ e)))))))) := by
  have l1 : "</travellingSalesmanProblemInstance>".toList ++ e =
      [] ++ "</".toList ++ "travellingSalesmanProblemInstance".toList ++ ">".toList ++ e := by
    rw [show "</travellingSalesmanProblemInstance>".toList =
      [] ++ "</".toList ++ "travellingSalesmanProblemInstance".toList ++ ">".toList by decide]
  have l2 : "<travellingSalesmanProblemInstance>".toList =
      [] ++ "<".toList ++ "travellingSalesmanProblemInstance".toList ++ [].flatMap attrText ++ ">".toList := by
    decide
  have h0 : Layout [.stop "travellingSalesmanProblemInstance".toList]
      ("</travellingSalesmanProblemInstance>".toList ++ e) := by
    rw [l1]
    exact layout_stop allWs_nil name_root (Layout.done _)
  have h1 := hg _ _ h0
  have h2 := layout_line "<ignoredDigits>0</ignoredDigits>" "ignoredDigits" "0" hw he
    ⟨by decide, by decide⟩ (plain_of_check (by decide)) (by decide) h1
  have h3 := layout_line "<doublePrecision>15</doublePrecision>" "doublePrecision" "15" hw he
    ⟨by decide, by decide⟩ (plain_of_check (by decide)) (by decide) h2
  have h4 := layout_line "<description>random example</description>" "description" "random example" hw he
    ⟨by decide, by decide⟩ (plain_of_check (by decide)) (by decide) h3
  have h5 := layout_line "<source>gh:lquenti/walky</source>" "source" "gh:lquenti/walky" hw he
    ⟨by decide, by decide⟩ (plain_of_check (by decide)) (by decide) h4
  have h6 := layout_line "<name>RandomGraph</name>" "name" "RandomGraph" hw he
    ⟨by decide, by decide⟩ (plain_of_check (by decide)) (by decide) h5
  have h7 := layout_start allWs_nil name_root (as := []) (by simp) (by simp) (h6.ws he)
  rw [toks_instance, l2, List.append_assoc]
  exact h7

theorem flatMap_filterMap {β γ δ : Type} {f : β → Option γ} {g : γ → List δ} {h : β → List δ} {l : List β}
    (hh : ∀ x ∈ l, h x = match f x with
      | none => []
      | some y => g y) : l.flatMap h = (l.filterMap f).flatMap g := by
  induction l with
  | nil => rfl
  | cons x l ih =>
    rw [List.flatMap_cons, ih fun y hy => hh y (by simp [hy]), hh x (by simp)]
    cases hx : f x with
    | none => rw [List.filterMap_cons_none hx]; rfl
    | some y => rw [List.filterMap_cons_some hx, List.flatMap_cons]

theorem layout_vertex {fmt : α → List Char} {es : List (Edge α)} {w w' w'' e s : List Char} {ts : List XTok}
    (hw : AllWs w) (hw' : AllWs w') (hw'' : AllWs w'') (he : AllWs e) (hf : ∀ d ∈ es, QuoteFree (fmt d.cost))
    (hs : Layout ts s) :
    Layout (toks (vertexXml fmt es) ++ ts)
      (w ++ "<vertex>".toList ++ e ++ es.flatMap (fun d => w' ++ "<edge cost=\"".toList ++ fmt d.cost ++
        "\">".toList ++ showUsize d.dst ++ "</edge>".toList ++ e) ++ (w'' ++ "</vertex>".toList ++ e ++ s)) := by
  have h1 := layout_stop hw'' name_vertex (hs.ws he)
  have h2 := layout_list (f := edgeXml fmt) (g := fun d => w' ++ "<edge cost=\"".toList ++ fmt d.cost ++
        "\">".toList ++ showUsize d.dst ++ "</edge>".toList ++ e) (l := es)
    (fun d hd ts s h => by
      have := layout_edge hw' (hf d hd) (h.ws he)
      simpa only [List.append_assoc] using this) h1
  have h3 := layout_start (as := []) hw name_vertex (by simp) (by simp) (h2.ws he)
  have l1 : "<vertex>".toList = "<".toList ++ "vertex".toList ++ ">".toList := by decide
  have l2 : "</vertex>".toList = "</".toList ++ "vertex".toList ++ ">".toList := by decide
  rw [l1, l2]
  rw [vertexXml, toks]
  simpa only [List.append_assoc, List.flatMap_nil, List.nil_append, List.cons_append] using h3

theorem layout_graph {fmt : α → List Char} {g : Graph α} {w w' w'' e s : List Char} {ts : List XTok}
    (hw : AllWs w) (hw' : AllWs w') (hw'' : AllWs w'') (he : AllWs e)
    (hf : ∀ es ∈ g, ∀ d ∈ es, QuoteFree (fmt d.cost)) (hs : Layout ts s) :
    Layout (toks (.elem "graph".toList [] (g.map (vertexXml fmt))) ++ ts)
      (w ++ "<graph>".toList ++ e ++ g.flatMap (fun es => w' ++ "<vertex>".toList ++ e ++
        es.flatMap (fun d => w'' ++ "<edge cost=\"".toList ++ fmt d.cost ++
        "\">".toList ++ showUsize d.dst ++ "</edge>".toList ++ e) ++ (w' ++ "</vertex>".toList ++ e)) ++
        (w ++ "</graph>".toList ++ e ++ s)) := by
  have h1 := layout_stop hw name_graph (hs.ws he)
  have h2 := layout_list (f := vertexXml fmt) (g := fun es => w' ++ "<vertex>".toList ++ e ++
        es.flatMap (fun d => w'' ++ "<edge cost=\"".toList ++ fmt d.cost ++
        "\">".toList ++ showUsize d.dst ++ "</edge>".toList ++ e) ++ (w' ++ "</vertex>".toList ++ e)) (l := g)
    (fun es hes ts s h => by
      have := layout_vertex (w' := w'') hw' hw'' hw' he (hf es hes) h
      simpa only [List.append_assoc] using this) h1
  have h3 := layout_start (as := []) hw name_graph (by simp) (by simp) (h2.ws he)
  have l1 : "<graph>".toList = "<".toList ++ "graph".toList ++ ">".toList := by decide
  have l2 : "</graph>".toList = "</".toList ++ "graph".toList ++ ">".toList := by decide
  rw [l1, l2]
  rw [toks]
  simpa only [List.append_assoc, List.flatMap_nil, List.nil_append, List.cons_append] using h3

theorem println_indent (w s line : String) (h : line.toList = w.toList ++ s.toList) :
    println line.toList = w.toList ++ s.toList ++ ['\n'] := by rw [println, h]

/-- the text of the generator is a layout of the instance -/
theorem layout_genXml [FloatOps α] {fmt : α → List Char} {matrix : List (List α)}
    (hf : ∀ row ∈ matrix, ∀ x ∈ row, eq x zero = false → QuoteFree (fmt x)) :
    Layout (toks (instanceXml fmt (genInstance (genGraph matrix)))) (genXml fmt matrix) := by
  have w2 : AllWs "  ".toList := by unfold AllWs; decide
  have w4 : AllWs "    ".toList := by unfold AllWs; decide
  have w6 : AllWs "      ".toList := by unfold AllWs; decide
  have hq : ∀ es ∈ genGraph matrix, ∀ d ∈ es, QuoteFree (fmt d.cost) := by
    intro es hes d hd
    obtain ⟨row, hr, rfl⟩ := List.mem_map.mp hes
    obtain ⟨x, hx, hxd⟩ := List.mem_filterMap.mp hd
    by_cases h : eq x.1 zero = true
    · rw [if_pos h] at hxd; cases hxd
    · rw [if_neg h] at hxd
      cases hxd
      refine hf row hr x.1 ?_ (by simpa using h)
      exact List.fst_mem_of_mem_zipIdx hx
  have key := layout_instance (fmt := fmt) (g := genGraph matrix) w2 allWs_newline
    (gt := _) (fun ts s h => by
      have := layout_graph (fmt := fmt) w2 w4 w6 allWs_newline hq h
      rw [← List.append_assoc] at this
      exact this)
  convert key using 1
  have hrow : ∀ row : List α, (row.zipIdx.flatMap fun x => if eq x.1 zero then [] else genEdgeLine fmt x.1 x.2) =
      (row.zipIdx.filterMap fun x => if eq x.1 zero then none else some (⟨x.2, x.1⟩ : Edge α)).flatMap
        (fun d => "      ".toList ++ "<edge cost=\"".toList ++ fmt d.cost ++ "\">".toList ++
          showUsize d.dst ++ "</edge>".toList ++ ['\n']) := by
    intro row
    apply flatMap_filterMap
    intro x _
    by_cases h : eq x.1 zero = true
    · rw [if_pos h, if_pos h]
    · rw [if_neg h, if_neg h]
      have : "      <edge cost=\"".toList = "      ".toList ++ "<edge cost=\"".toList := by decide
      rw [genEdgeLine, println, this]
  rw [genXml]
  simp only [hrow]
  rw [genGraph, List.flatMap_map,
    println_indent "  " "<name>RandomGraph</name>" "  <name>RandomGraph</name>" (by decide),
    println_indent "  " "<source>gh:lquenti/walky</source>" "  <source>gh:lquenti/walky</source>" (by decide),
    println_indent "  " "<description>random example</description>" "  <description>random example</description>" (by decide),
    println_indent "  " "<doublePrecision>15</doublePrecision>" "  <doublePrecision>15</doublePrecision>" (by decide),
    println_indent "  " "<ignoredDigits>0</ignoredDigits>" "  <ignoredDigits>0</ignoredDigits>" (by decide),
    println_indent "  " "<graph>" "  <graph>" (by decide),
    println_indent "  " "</graph>" "  </graph>" (by decide),
    println_indent "    " "<vertex>" "    <vertex>" (by decide),
    println_indent "    " "</vertex>" "    </vertex>" (by decide)]
  simp only [println, List.append_assoc]

/-! ## The Python generator -/

/-- the graph in the text of `convert_to_xml`: all entries off the diagonal -/
def pyGraph (matrix : List (List α)) : Graph α :=
  matrix.zipIdx.map fun row => row.1.zipIdx.filterMap fun x =>
    if row.2 = x.2 then none else some ⟨x.2, x.1⟩

theorem layout_pyElem {t content s : List Char} {ch : List Xml} {ts : List XTok} (ht : Name t)
    (hc : ∀ ts s, Layout ts s → Layout (toksList ch ++ ts) (content ++ s)) (h0 : content = [] → ch = [])
    (hs : Layout ts s) : Layout (toks (.elem t [] ch) ++ ts) (pyElem t content ++ s) := by
  unfold pyElem
  by_cases h : content = []
  · rw [if_pos h, h0 h]
    have h1 := layout_empty (w := []) (w' := [' ']) (as := []) allWs_nil ht (by simp) (by simp)
      (by unfold AllWs; decide) hs
    have l1 : " />".toList = [' '] ++ "/>".toList := by decide
    rw [toks, toksList, l1]
    simpa only [List.append_assoc, List.flatMap_nil, List.nil_append, List.cons_append, List.append_nil] using h1
  · rw [if_neg h]
    have h1 := layout_stop (w := []) allWs_nil ht hs
    have h2 := hc _ _ h1
    have h3 := layout_start (w := []) (as := []) allWs_nil ht (by simp) (by simp) h2
    rw [toks]
    simpa only [List.append_assoc, List.flatMap_nil, List.nil_append, List.cons_append, List.append_nil] using h3

theorem layout_pyEdges {fmt : α → List Char} {es : List (Edge α)} (hf : ∀ d ∈ es, QuoteFree (fmt d.cost))
    {s : List Char} {ts : List XTok} (hs : Layout ts s) :
    Layout (toksList (es.map (edgeXml fmt)) ++ ts) (es.flatMap (fun d => "<edge cost=\"".toList ++ fmt d.cost ++
        "\">".toList ++ showUsize d.dst ++ "</edge>".toList) ++ s) :=
  layout_list (fun d hd ts s h => by
    have := layout_edge (w := []) allWs_nil (hf d hd) h
    simpa only [List.append_assoc, List.nil_append] using this) hs

theorem edgeText_ne (fmt : α → List Char) (d : Edge α) :
    "<edge cost=\"".toList ++ fmt d.cost ++ "\">".toList ++ showUsize d.dst ++ "</edge>".toList ≠ [] := by
  intro h
  simp only [List.append_eq_nil_iff] at h
  exact absurd h.2 (by decide)

theorem flatMap_nil_iff {β γ : Type} {l : List β} {f : β → List γ} (hf : ∀ x ∈ l, f x ≠ []) (h : l.flatMap f = []) :
    l = [] := by
  cases l with
  | nil => rfl
  | cons x l =>
    rw [List.flatMap_cons, List.append_eq_nil_iff] at h
    exact absurd h.1 (hf x (by simp))

theorem pyElem_ne (t content : List Char) : pyElem t content ≠ [] := by
  unfold pyElem
  split
  · intro h
    simp only [List.append_eq_nil_iff] at h
    exact absurd h.2 (by decide)
  · intro h
    simp only [List.append_eq_nil_iff] at h
    exact absurd h.2 (by decide)

theorem pyXml_vertex (fmt : α → List Char) (row : List α × Nat) :
    (row.1.zipIdx.flatMap fun x =>
        if row.2 = x.2 then []
        else "<edge cost=\"".toList ++ fmt x.1 ++ "\">".toList ++ showUsize x.2 ++ "</edge>".toList) =
      (row.1.zipIdx.filterMap fun x => if row.2 = x.2 then none else some (⟨x.2, x.1⟩ : Edge α)).flatMap
        (fun d => "<edge cost=\"".toList ++ fmt d.cost ++ "\">".toList ++ showUsize d.dst ++ "</edge>".toList) := by
  apply flatMap_filterMap
  intro x _
  by_cases h : row.2 = x.2
  · rw [if_pos h, if_pos h]
  · rw [if_neg h, if_neg h]

/-- a field of the Python generator -/
theorem layout_pyField {t x s : List Char} {ts : List XTok} (ht : Name t) (hx : PlainText x) (hs : Layout ts s) :
    Layout (toks (.elem t [] [.text x]) ++ ts) (pyElem t x ++ s) := by
  have := layout_field (w := []) allWs_nil ht hx hs
  rw [pyElem, if_neg hx.1]
  simpa only [List.append_assoc, List.nil_append] using this

/-- the text of the Python generator is a layout of the instance -/
theorem layout_pyXml {fmt : α → List Char} {matrix : List (List α)}
    (hf : ∀ row ∈ matrix, ∀ x ∈ row, QuoteFree (fmt x)) :
    Layout (toks (instanceXml fmt (genInstance (pyGraph matrix)))) (pyXml fmt matrix) := by
  have hq : ∀ es ∈ pyGraph matrix, ∀ d ∈ es, QuoteFree (fmt d.cost) := by
    intro es hes d hd
    obtain ⟨row, hr, rfl⟩ := List.mem_map.mp hes
    obtain ⟨x, hx, hxd⟩ := List.mem_filterMap.mp hd
    by_cases h : row.2 = x.2
    · rw [if_pos h] at hxd; cases hxd
    · rw [if_neg h] at hxd
      cases hxd
      exact hf row.1 (List.fst_mem_of_mem_zipIdx hr) x.1 (List.fst_mem_of_mem_zipIdx hx)
  set vt : List (Edge α) → List Char := fun es => pyElem "vertex".toList (es.flatMap fun d =>
    "<edge cost=\"".toList ++ fmt d.cost ++ "\">".toList ++ showUsize d.dst ++ "</edge>".toList) with hvt
  have hv : ∀ es ∈ pyGraph matrix, ∀ ts s, Layout ts s → Layout (toks (vertexXml fmt es) ++ ts) (vt es ++ s) := by
    intro es hes ts s h
    refine layout_pyElem name_vertex (fun ts s h => layout_pyEdges (hq es hes) h) (fun h0 => ?_) h
    rw [flatMap_nil_iff (fun d _ => edgeText_ne fmt d) h0]
    rfl
  have hg : ∀ ts s, Layout ts s → Layout (toks (.elem "graph".toList [] ((pyGraph matrix).map (vertexXml fmt))) ++ ts)
      (pyElem "graph".toList ((pyGraph matrix).flatMap vt) ++ s) := by
    intro ts s h
    refine layout_pyElem name_graph (fun ts s h => layout_list hv h) (fun h0 => ?_) h
    rw [flatMap_nil_iff (fun es _ => pyElem_ne _ _) h0]
    rfl
  have hall : ∀ ts s, Layout ts s → Layout (toksList [.elem "name".toList [] [.text "RandomGraph".toList],
        .elem "source".toList [] [.text "gh:lquenti/walky".toList],
        .elem "description".toList [] [.text "random example".toList],
        .elem "doublePrecision".toList [] [.text "15".toList],
        .elem "ignoredDigits".toList [] [.text "0".toList],
        .elem "graph".toList [] ((pyGraph matrix).map (vertexXml fmt))] ++ ts)
      ((pyElem "name".toList "RandomGraph".toList ++
    pyElem "source".toList "gh:lquenti/walky".toList ++
    pyElem "description".toList "random example".toList ++
    pyElem "doublePrecision".toList "15".toList ++
    pyElem "ignoredDigits".toList "0".toList ++
    pyElem "graph".toList ((pyGraph matrix).flatMap vt)) ++ s) := by
    intro ts s h
    have h1 := hg _ _ h
    have h2 := layout_pyField (t := "ignoredDigits".toList) (x := "0".toList)
      ⟨by decide, by decide⟩ (plain_of_check (by decide)) h1
    have h3 := layout_pyField (t := "doublePrecision".toList) (x := "15".toList)
      ⟨by decide, by decide⟩ (plain_of_check (by decide)) h2
    have h4 := layout_pyField (t := "description".toList) (x := "random example".toList)
      ⟨by decide, by decide⟩ (plain_of_check (by decide)) h3
    have h5 := layout_pyField (t := "source".toList) (x := "gh:lquenti/walky".toList)
      ⟨by decide, by decide⟩ (plain_of_check (by decide)) h4
    have h6 := layout_pyField (t := "name".toList) (x := "RandomGraph".toList)
      ⟨by decide, by decide⟩ (plain_of_check (by decide)) h5
    simpa only [toksList, List.append_assoc, List.append_nil, List.nil_append] using h6
  have key := layout_pyElem name_root hall (fun h0 => by
    simp only [List.append_eq_nil_iff] at h0
    exact absurd h0.2 (pyElem_ne _ _)) (Layout.done [])
  rw [List.append_nil, List.append_nil] at key
  have e1 : toks (instanceXml fmt (genInstance (pyGraph matrix))) =
      toks (.elem "travellingSalesmanProblemInstance".toList []
        [.elem "name".toList [] [.text "RandomGraph".toList],
        .elem "source".toList [] [.text "gh:lquenti/walky".toList],
        .elem "description".toList [] [.text "random example".toList],
        .elem "doublePrecision".toList [] [.text "15".toList],
        .elem "ignoredDigits".toList [] [.text "0".toList],
        .elem "graph".toList [] ((pyGraph matrix).map (vertexXml fmt))]) := by
    rw [toks_instance, toks_six]
  have e2 : pyXml fmt matrix = pyElem "travellingSalesmanProblemInstance".toList
      (pyElem "name".toList "RandomGraph".toList ++
    pyElem "source".toList "gh:lquenti/walky".toList ++
    pyElem "description".toList "random example".toList ++
    pyElem "doublePrecision".toList "15".toList ++
    pyElem "ignoredDigits".toList "0".toList ++
    pyElem "graph".toList ((pyGraph matrix).flatMap vt)) := by
    rw [pyXml]
    simp only [pyXml_vertex]
    rw [pyGraph, List.flatMap_map]
  rw [e1, e2]
  exact key

end Walky
