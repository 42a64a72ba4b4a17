import Verif.Lemmas.GenXml
import Verif.Props.NearMetric

/-! # Properties C90 – C95: instances as text -/

namespace Walky.Props

open FloatOps XNum Spec

variable {α β : Type}

/-! ## C90 -/

/-- **C90, layout** A text is read as an element exactly if it is a document with this root element: white
space, the kind of quotes, `<a/>` instead of `<a></a>`, declarations and everything after the root do not
change what is read. A text is a document with at most one root element. -/
theorem C90_layout {s : List Char} : (∀ x, readXml s = .ok x ↔ Document x s) ∧
    ∀ x y s', Document x s → Document y s' → (x = y ↔ readXml s = readXml s') := by
  refine ⟨fun _ => readXml_iff, fun x y s' hx hy => ?_⟩
  rw [readXml_document hx, readXml_document hy]
  exact ⟨fun h => by rw [h], fun h => Except.ok.inj h⟩

/-- The same element in two layouts. -/
example : readXml "<?xml version='1.0'?>\n<a  b = 'x>y' c=\"\" >\n <d/> </a >\n</z>".toList =
    readXml "<a b=\"x>y\" c=\"\"><d></d></a>".toList := by rfl

/-- **C90, round trip** An instance in which every vertex has an edge is written, in any layout, with any
format of numbers that can be read back. Then `parse_from_xml` returns this instance if
`do_conditions_hold`, and panics otherwise. -/
theorem C90_round_trip [FloatOps α] {readF : List Char → Option α} {fmt : α → List Char} {i : Instance α}
    (hr : ∀ es ∈ i.graph, ∀ e ∈ es, readF (fmt e.cost) = some e.cost ∧ e.dst < 2 ^ 64)
    (h1 : i.doublePrecision < 2 ^ 32) (h2 : i.ignoredDigits < 2 ^ 32) (h3 : i.graph ≠ [])
    (h4 : ∀ es ∈ i.graph, es ≠ []) {s : List Char} (hs : Document (instanceXml fmt i) s) :
    (doConditionsHold i.graph = .ok true → parseFromXml readF s = .ok i) ∧
    (doConditionsHold i.graph ≠ .ok true → ∃ e, parseFromXml readF s = .panic e) := by
  have hm : mapCosts id i.graph = i.graph := by simp [mapCosts]
  have h := (readInstance_xml (f := id) (i := i) (readF := readF) (fmt := fmt) hr h1 h2).2
    (by rintro (h | h); exacts [h3 h, h4 _ h rfl])
  rw [hm] at h
  have e : (readXml s >>= readInstance readF) = .ok i := by
    rw [readXml_document hs]
    exact h
  unfold parseFromXml
  rw [e]
  simp only [parseChecked]
  cases hd : doConditionsHold i.graph with
  | error e => exact ⟨fun h => (by cases h), fun _ => ⟨e, rfl⟩⟩
  | ok b =>
    cases b with
    | true => exact ⟨fun _ => rfl, fun h => absurd rfl h⟩
    | false => exact ⟨fun h => (by cases h), fun _ => ⟨.assert, rfl⟩⟩

/-- **C90, incomplete** An instance without vertices, or with a vertex that has no edges, is written but not
read: `parse_from_xml` returns an error. -/
theorem C90_incomplete [FloatOps α] {readF : List Char → Option α} {fmt : α → List Char} {i : Instance α}
    (hr : ∀ es ∈ i.graph, ∀ e ∈ es, readF (fmt e.cost) = some e.cost ∧ e.dst < 2 ^ 64)
    (h1 : i.doublePrecision < 2 ^ 32) (h2 : i.ignoredDigits < 2 ^ 32) (h3 : i.graph = [] ∨ [] ∈ i.graph)
    {s : List Char} (hs : Document (instanceXml fmt i) s) : parseFromXml readF s = .err := by
  have h := (readInstance_xml (f := id) (i := i) (readF := readF) (fmt := fmt) hr h1 h2).1 h3
  have e : (readXml s >>= readInstance readF) = .error .deError := by
    rw [readXml_document hs]
    exact h
  unfold parseFromXml
  rw [e]

/-! ## C91 -/

/-- **C91** What `parse_from_xml` returns for a document whose root element is `x`: an instance exactly if
the element encodes it and its graph passes `do_conditions_hold`; a panic exactly if the element encodes an
instance whose graph does not. If no element contains text next to elements, it returns an error exactly if
the element does not encode an instance. -/
theorem C91_parse [FloatOps α] {readF : List Char → Option α} {x : Xml} {s : List Char} (hs : Document x s) :
    (∀ i, parseFromXml readF s = .ok i ↔ Encodes readF x i ∧ doConditionsHold i.graph = .ok true) ∧
    ((∃ e, parseFromXml readF s = .panic e) ↔
      ∃ i, Encodes readF x i ∧ doConditionsHold i.graph ≠ .ok true) ∧
    (NoMixed x → (parseFromXml readF s = .err ↔ ∀ i, ¬Encodes readF x i)) := by
  have hx := readXml_document hs
  have hb : (readXml s >>= readInstance readF) = readInstance readF x := by rw [hx]; rfl
  unfold parseFromXml
  rw [hb]
  cases hr : readInstance readF x with
  | error e =>
    have hno : ∀ i, ¬Encodes readF x i := by
      intro i hi
      rw [readInstance_ok.mpr hi] at hr
      cases hr
    cases e with
    | deError =>
      exact ⟨fun i => ⟨fun h => (by cases h), fun h => absurd h.1 (hno i)⟩,
        ⟨fun ⟨_, h⟩ => (by cases h), fun ⟨i, h, _⟩ => absurd h (hno i)⟩, fun _ => ⟨fun _ => hno, fun _ => rfl⟩⟩
    | unmodelled =>
      exact ⟨fun i => ⟨fun h => (by cases h), fun h => absurd h.1 (hno i)⟩,
        ⟨fun ⟨_, h⟩ => (by cases h), fun ⟨i, h, _⟩ => absurd h (hno i)⟩,
        fun hm => absurd hr (readInstance_ne hm)⟩
  | ok i =>
    have hi : ∀ j, Encodes readF x j ↔ j = i := by
      intro j
      rw [← readInstance_ok, hr]
      exact ⟨fun h => (Except.ok.inj h).symm, fun h => by rw [h]⟩
    simp only [hi, parseChecked]
    cases hd : doConditionsHold i.graph with
    | error e =>
      refine ⟨fun j => ⟨fun h => (by cases h), ?_⟩, ⟨fun _ => ⟨i, rfl, by rw [hd]; exact fun h => (by cases h)⟩,
        fun _ => ⟨e, rfl⟩⟩, fun _ => ⟨fun h => (by cases h), fun h => absurd rfl (h i)⟩⟩
      rintro ⟨rfl, h⟩
      rw [hd] at h
      cases h
    | ok b =>
      cases b with
      | true =>
        refine ⟨fun j => ⟨fun h => ?_, ?_⟩, ⟨fun ⟨_, h⟩ => (by cases h), ?_⟩,
          fun _ => ⟨fun h => (by cases h), fun h => absurd rfl (h i)⟩⟩
        · obtain rfl := Parsed.ok.inj h
          exact ⟨rfl, hd⟩
        · rintro ⟨rfl, -⟩
          rfl
        · rintro ⟨j, rfl, h⟩
          exact absurd hd h
      | false =>
        refine ⟨fun j => ⟨fun h => (by cases h), ?_⟩, ⟨fun _ => ⟨i, rfl, by rw [hd]; exact fun h => (by cases h)⟩,
          fun _ => ⟨.assert, rfl⟩⟩, fun _ => ⟨fun h => (by cases h), fun h => absurd rfl (h i)⟩⟩
        rintro ⟨rfl, h⟩
        rw [hd] at h
        cases h

/-- **C91, every text** What `parse_from_xml` returns for a text: an instance exactly if the text is a document
that encodes it and its graph passes `do_conditions_hold`; a panic exactly if the text is a document that encodes
an instance whose graph does not; if the text is not outside of the model, an error exactly if it is not a
document that encodes an instance. -/
theorem C91_texts [FloatOps α] {readF : List Char → Option α} {s : List Char} :
    (∀ i, parseFromXml readF s = .ok i ↔
      (∃ x, Document x s ∧ Encodes readF x i) ∧ doConditionsHold i.graph = .ok true) ∧
    ((∃ e, parseFromXml readF s = .panic e) ↔
      ∃ x i, Document x s ∧ Encodes readF x i ∧ doConditionsHold i.graph ≠ .ok true) ∧
    (parseFromXml readF s ≠ .unmodelled →
      (parseFromXml readF s = .err ↔ ∀ x i, Document x s → ¬Encodes readF x i)) := by
  by_cases hd : ∃ x, Document x s
  · obtain ⟨x, hx⟩ := hd
    have hu : ∀ y, Document y s ↔ y = x := fun y =>
      ⟨fun hy => ((C90_layout.2 y x s hy hx).mpr rfl), fun e => e ▸ hx⟩
    obtain ⟨h1, h2, -⟩ := C91_parse (readF := readF) hx
    refine ⟨fun i => ?_, ?_, fun hne => ?_⟩
    · rw [h1]
      simp only [hu, exists_eq_left]
    · rw [h2]
      simp only [hu, exists_and_left, exists_eq_left]
    · constructor
      · intro he y i hy hi
        rw [(hu y).mp hy] at hi
        by_cases hc : doConditionsHold i.graph = .ok true
        · rw [(h1 i).mpr ⟨hi, hc⟩] at he; cases he
        · obtain ⟨e, h⟩ := h2.mpr ⟨i, hi, hc⟩
          rw [h] at he; cases he
      · intro hno
        cases hp : parseFromXml readF s with
        | ok i => exact absurd ((h1 i).mp hp).1 (hno x i hx)
        | err => rfl
        | panic e =>
          obtain ⟨i, hi, -⟩ := h2.mp ⟨e, hp⟩
          exact absurd hi (hno x i hx)
        | unmodelled => exact absurd hp hne
  · have hno : ∀ x, ¬Document x s := fun x hx => hd ⟨x, hx⟩
    have hr : ∀ x, readXml s ≠ .ok x := fun x h => hno x (C90_layout.1 x |>.mp h)
    have he : parseFromXml readF s = .err ∨ parseFromXml readF s = .unmodelled := by
      unfold parseFromXml
      cases h : readXml s with
      | ok x => exact absurd h (hr x)
      | error e => cases e <;> simp [bind, Except.bind]
    refine ⟨fun i => ⟨fun h => ?_, fun ⟨⟨x, h, _⟩, _⟩ => absurd h (hno x)⟩,
      ⟨fun ⟨e, h⟩ => ?_, fun ⟨x, _, h, _⟩ => absurd h (hno x)⟩,
      fun hne => ⟨fun _ x _ h => absurd h (hno x), fun _ => he.resolve_right hne⟩⟩
    · rcases he with he | he <;> rw [he] at h <;> cases h
    · rcases he with he | he <;> rw [he] at h <;> cases h

/-- **C91, truncated files** A text that is accepted is cut off somewhere. Then either the whole instance is
still read (only what follows the root element is missing), or the result is an error: it is never read as
another instance. What is appended to a text that is accepted is ignored. -/
theorem C91_truncated [FloatOps α] {readF : List Char → Option α} {s : List Char} {i : Instance α}
    (h : parseFromXml readF s = .ok i) :
    (∃ n ≤ s.length, ∀ m, parseFromXml readF (s.take m) = if n ≤ m then .ok i else .err) ∧
      ∀ r, parseFromXml readF (s ++ r) = .ok i := by
  obtain ⟨⟨x, hx, hi⟩, hc⟩ := (C91_texts.1 i).mp h
  refine ⟨?_, fun r => (C91_texts.1 i).mpr ⟨⟨x, hx.append r, hi⟩, hc⟩⟩
  obtain ⟨n, hn, hm⟩ := readXml_cut hx
  refine ⟨n, hn, fun m => ?_⟩
  have := hm m
  by_cases hnm : n ≤ m
  · rw [if_pos hnm] at this ⊢
    exact (C91_texts.1 i).mpr ⟨⟨x, readXml_iff.mp this, hi⟩, hc⟩
  · rw [if_neg hnm] at this ⊢
    unfold parseFromXml
    rw [this]
    rfl

/-! ## C92 -/

/-- **C92, every arithmetic** Numbers are printed without quotes and references and are read as they were.
The text that `gen_matrix_fast` prints for a matrix is read by `parse_from_xml` as the graph of the entries
that are not zero, if every row has one and the graph passes `do_conditions_hold`. Otherwise it is not
accepted; without vertices or with a row of zeros the result is an error. -/
theorem C92_text [FloatOps α] {readF : List Char → Option α} {fmt : α → List Char} {matrix : List (List α)}
    (hf : ∀ row ∈ matrix, row.length ≤ 2 ^ 64 ∧ ∀ x ∈ row, eq x zero = false →
      '"' ∉ fmt x ∧ '&' ∉ fmt x ∧ readF (fmt x) = some x) :
    (genGraph matrix = [] ∨ [] ∈ genGraph matrix → parseFromXml readF (genXml fmt matrix) = .err) ∧
    (¬(genGraph matrix = [] ∨ [] ∈ genGraph matrix) →
      (doConditionsHold (genGraph matrix) = .ok true →
        parseFromXml readF (genXml fmt matrix) = .ok (genInstance (genGraph matrix))) ∧
      (doConditionsHold (genGraph matrix) ≠ .ok true →
        ∃ e, parseFromXml readF (genXml fmt matrix) = .panic e)) := by
  have hl := layout_genXml (fmt := fmt) (matrix := matrix) fun row hrow x hx h0 =>
    ⟨((hf row hrow).2 x hx h0).1, ((hf row hrow).2 x hx h0).2.1⟩
  have hdoc : Document (instanceXml fmt (genInstance (genGraph matrix))) (genXml fmt matrix) := .root hl
  have hr : ∀ es ∈ genGraph matrix, ∀ e ∈ es, readF (fmt e.cost) = some e.cost ∧ e.dst < 2 ^ 64 := by
    intro es hes e he
    obtain ⟨row, hrow, rfl⟩ := List.mem_map.mp hes
    obtain ⟨x, hx, hxe⟩ := List.mem_filterMap.mp he
    by_cases h : eq x.1 zero = true
    · rw [if_pos h] at hxe; cases hxe
    · rw [if_neg h] at hxe
      cases hxe
      have hm := List.mem_zipIdx' hx
      refine ⟨((hf row hrow).2 x.1 (List.fst_mem_of_mem_zipIdx hx) (by simpa using h)).2.2, ?_⟩
      exact lt_of_lt_of_le hm.1 (hf row hrow).1
  constructor
  · intro h
    exact C90_incomplete (i := genInstance (genGraph matrix)) hr (show 15 < 2 ^ 32 by decide) (show 0 < 2 ^ 32 by decide) h hdoc
  · intro h
    rw [not_or] at h
    exact C90_round_trip (i := genInstance (genGraph matrix)) hr (show 15 < 2 ^ 32 by decide) (show 0 < 2 ^ 32 by decide) h.1
      (fun es hes e => h.2 (e ▸ hes)) hdoc

theorem genMatrix_entry {α : Type} [FloatOps α] {sqrt : α → α} {points : List (α × α)} {row : List α}
    (h : row ∈ genMatrix sqrt points) : row.length = points.length ∧ ∀ x ∈ row,
      x = zero ∨ ∃ p ∈ points, ∃ q ∈ points, x = genDist sqrt p q := by
  obtain ⟨y, hy, rfl⟩ := List.mem_map.mp h
  refine ⟨by simp, fun x hx => ?_⟩
  obtain ⟨z, hz, rfl⟩ := List.mem_map.mp hx
  by_cases hne : y.2 ≠ z.2
  · rw [if_pos hne]
    exact Or.inr ⟨y.1, List.fst_mem_of_mem_zipIdx hy, z.1, List.fst_mem_of_mem_zipIdx hz, rfl⟩
  · rw [if_neg hne]
    exact Or.inl rfl

/-- **C92, double precision** The points have coordinates that are multiples of `2⁻⁵⁰⁰` of size at most
`2 ^ 500`. The text that `gen_matrix_fast` prints for them is accepted by `parse_from_xml` exactly if there
are at least two points and they are pairwise different, and then it is read as the graph of their distances.
For one point or none the result is an error, and for points that are not different an error or a panic. -/
theorem C92_double {fmt : XNum ℚ → List Char} (hf : Display fmt) {pts : List (ℚ × ℚ)}
    (hp : ∀ p ∈ pts, DoublePoint ((2 : ℚ) ^ (500 : ℤ)) p) (hg : ∀ p ∈ pts, OnGrid (-500) p)
    (hsize : pts.length ≤ 2 ^ 64) :
    ((∃ i, @parseFromXml _ binary64.ops readF64 (@genXml _ binary64.ops fmt
        (@genMatrix _ binary64.ops sqrt64 (finPoints pts))) = .ok i) ↔ 2 ≤ pts.length ∧ pts.Nodup) ∧
    (2 ≤ pts.length → pts.Nodup → @parseFromXml _ binary64.ops readF64 (@genXml _ binary64.ops fmt
        (@genMatrix _ binary64.ops sqrt64 (finPoints pts))) =
      .ok (genInstance (@genGraph _ binary64.ops (@genMatrix _ binary64.ops sqrt64 (finPoints pts))))) ∧
    (pts.length ≤ 1 → @parseFromXml _ binary64.ops readF64 (@genXml _ binary64.ops fmt
        (@genMatrix _ binary64.ops sqrt64 (finPoints pts))) = .err) ∧
    (¬pts.Nodup → @parseFromXml _ binary64.ops readF64 (@genXml _ binary64.ops fmt
        (@genMatrix _ binary64.ops sqrt64 (finPoints pts))) = .err ∨
      ∃ e, @parseFromXml _ binary64.ops readF64 (@genXml _ binary64.ops fmt
        (@genMatrix _ binary64.ops sqrt64 (finPoints pts))) = .panic e) := by
  have hz : @FloatOps.eq _ binary64.ops (@FloatOps.zero _ binary64.ops) (@FloatOps.zero _ binary64.ops) = true := by
    decide +kernel
  have hacc := C87_generated_partial hp hg
  have hl : (finPoints pts).length = pts.length := by simp [finPoints]
  have hp' : ∀ p ∈ finPoints pts, ∃ r, p = (.fin r.1, .fin r.2) ∧ DoublePoint (pow2 500) r := by
    intro p hpm
    obtain ⟨r, hr, rfl⟩ := List.mem_map.mp hpm
    exact ⟨r, rfl, by rw [pow2_eq]; exact hp r hr⟩
  set matrix := @genMatrix _ binary64.ops sqrt64 (finPoints pts) with hmat
  have hval : ∀ row ∈ matrix, row.length ≤ 2 ^ 64 ∧ ∀ x ∈ row, DoubleVal x := by
    intro row hrow
    obtain ⟨h1, h2⟩ := @genMatrix_entry _ binary64.ops _ _ _ hrow
    refine ⟨by rw [h1, hl]; exact hsize, fun x hx y hxy => ?_⟩
    rcases h2 x hx with h | ⟨p, hpm, q, hqm, h⟩
    · rw [hxy] at h
      have : y = 0 := XNum.fin.inj h
      rw [this]
      exact isDouble_zero
    · obtain ⟨p, rfl, kp⟩ := hp' p hpm
      obtain ⟨q, rfl, kq⟩ := hp' q hqm
      rw [genDist64 kp kq, hxy] at h
      rw [XNum.fin.inj h]
      exact (dist64_spec kp kq).2.2.1
  have htext := @C92_text _ binary64.ops readF64 fmt matrix fun row hrow => ⟨(hval row hrow).1, fun x hx _ =>
    ⟨fun h => (hf.mem ((hval row hrow).2 x hx) h).1 rfl, fun h => (hf.mem ((hval row hrow).2 x hx) h).2 rfl,
      readF64_displayed hf ((hval row hrow).2 x hx)⟩⟩
  have hlen := @genGraph_length _ binary64.ops sqrt64 (finPoints pts)
  rw [← hmat, hl] at hlen
  have h1 : pts.length ≤ 1 → @genGraph _ binary64.ops matrix = [] ∨ [] ∈ @genGraph _ binary64.ops matrix := by
    intro h
    cases hpts : pts with
    | nil => left; rw [← List.length_eq_zero_iff, hlen, hpts]; rfl
    | cons p t =>
      have ht : t = [] := by
        cases t with
        | nil => rfl
        | cons q t => rw [hpts] at h; simp at h
      right
      rw [hmat, hpts, ht]
      have e : @genMatrix _ binary64.ops sqrt64 (finPoints [p]) = [[@FloatOps.zero _ binary64.ops]] := rfl
      have e2 : @genGraph _ binary64.ops [[@FloatOps.zero _ binary64.ops]] = [[]] := by decide +kernel
      rw [e, e2]
      exact List.mem_singleton.mpr rfl
  have h2 : 2 ≤ pts.length → pts.Nodup →
      ¬(@genGraph _ binary64.ops matrix = [] ∨ [] ∈ @genGraph _ binary64.ops matrix) := by
    intro h hnd
    have hc := @complete_of_accepted _ binary64.ops _ (hacc.mpr hnd)
      (@genGraph_noLoop _ binary64.ops hz sqrt64 (finPoints pts))
    rintro (h0 | h0)
    · rw [h0] at hlen; simp at hlen; omega
    · obtain ⟨i, hi, he⟩ := List.mem_iff_getElem.mp h0
      have := (@CompleteUndirected.ends _ binary64.ops _ hc i [] (by rw [List.getElem?_eq_getElem hi, he])).length_eq
      rw [List.length_map, List.length_erase_of_mem (by simpa using hi), List.length_range] at this
      rw [List.length_nil, hlen] at this
      omega
  have h3 : 2 ≤ pts.length → pts.Nodup → @parseFromXml _ binary64.ops readF64 (@genXml _ binary64.ops fmt matrix) =
      .ok (genInstance (@genGraph _ binary64.ops matrix)) := fun h hnd => (htext.2 (h2 h hnd)).1 (hacc.mpr hnd)
  refine ⟨⟨fun ⟨i, hi⟩ => ?_, fun h => ⟨_, h3 h.1 h.2⟩⟩, h3, fun h => htext.1 (h1 h), fun hnd => ?_⟩
  rotate_left
  · by_cases h0 : @genGraph _ binary64.ops matrix = [] ∨ [] ∈ @genGraph _ binary64.ops matrix
    · exact Or.inl (htext.1 h0)
    · exact Or.inr ((htext.2 h0).2 fun hd => hnd (hacc.mp hd))
  by_cases h0 : @genGraph _ binary64.ops matrix = [] ∨ [] ∈ @genGraph _ binary64.ops matrix
  · rw [htext.1 h0] at hi; cases hi
  · by_cases hd : @doConditionsHold _ binary64.ops (@genGraph _ binary64.ops matrix) = .ok true
    · refine ⟨?_, hacc.mp hd⟩
      by_contra hlt
      exact h0 (h1 (by omega))
    · obtain ⟨e, he⟩ := (htext.2 h0).2 hd
      rw [he] at hi
      cases hi

/-- **C92, generator** Whatever random numbers `gen_matrix_fast` draws: the text it prints is accepted exactly
if there are at least two points and they are pairwise different. -/
theorem C92_generator {fmt : XNum ℚ → List Char} (hf : Display fmt) (ks : List (Nat × Nat))
    (hk : ∀ k ∈ ks, k.1 < 2 ^ 53 ∧ k.2 < 2 ^ 53) (hsize : ks.length ≤ 2 ^ 64) :
    ∃ pts : List (ℚ × ℚ), randomPoints ks = finPoints pts ∧ pts.length = ks.length ∧
    ((∃ i, @parseFromXml _ binary64.ops readF64 (@genXml _ binary64.ops fmt
        (@genMatrix _ binary64.ops sqrt64 (randomPoints ks))) = .ok i) ↔ 2 ≤ ks.length ∧ pts.Nodup) ∧
    (2 ≤ ks.length → pts.Nodup → @parseFromXml _ binary64.ops readF64 (@genXml _ binary64.ops fmt
        (@genMatrix _ binary64.ops sqrt64 (randomPoints ks))) =
      .ok (genInstance (@genGraph _ binary64.ops (@genMatrix _ binary64.ops sqrt64 (randomPoints ks))))) ∧
    (ks.length ≤ 1 → @parseFromXml _ binary64.ops readF64 (@genXml _ binary64.ops fmt
        (@genMatrix _ binary64.ops sqrt64 (randomPoints ks))) = .err) ∧
    (¬pts.Nodup → @parseFromXml _ binary64.ops readF64 (@genXml _ binary64.ops fmt
        (@genMatrix _ binary64.ops sqrt64 (randomPoints ks))) = .err ∨
      ∃ e, @parseFromXml _ binary64.ops readF64 (@genXml _ binary64.ops fmt
        (@genMatrix _ binary64.ops sqrt64 (randomPoints ks))) = .panic e) := by
  obtain ⟨pts, h1, h2, h3, h4⟩ := randomPoints_spec ks hk
  have h10 : (10 : ℚ) ≤ 10000 := by norm_num
  have := C92_double hf (pts := pts)
    (fun p hp => by rw [← pow2_eq]; exact (h3 p hp).mono (h10.trans le_pow500))
    (fun p hp => (h4 p hp).coarse (by norm_num)) (by rw [h2]; exact hsize)
  refine ⟨pts, h1, h2, ?_⟩
  rw [h1, ← h2]
  exact this

/-- two points -/
example : @parseFromXml _ binary64.ops readF64 (@genXml _ binary64.ops (fun _ => "5".toList)
      (@genMatrix _ binary64.ops sqrt64 (finPoints [(0, 0), (3, 4)]))) =
    .ok (genInstance [[⟨1, .fin 5⟩], [⟨0, .fin 5⟩]]) := by decide +kernel

/-- two equal points: nothing can be read -/
example : @parseFromXml _ binary64.ops readF64 (@genXml _ binary64.ops (fun _ => "5".toList)
      (@genMatrix _ binary64.ops sqrt64 (finPoints [(3, 4), (3, 4)]))) = .err := by decide +kernel

/-- without the last line break, and without the last two characters -/
example : @parseFromXml _ binary64.ops readF64 (@genXml _ binary64.ops (fun _ => "5".toList)
      (@genMatrix _ binary64.ops sqrt64 (finPoints [(0, 0), (3, 4)]))).dropLast =
    .ok (genInstance [[⟨1, .fin 5⟩], [⟨0, .fin 5⟩]]) ∧
    @parseFromXml _ binary64.ops readF64 (@genXml _ binary64.ops (fun _ => "5".toList)
      (@genMatrix _ binary64.ops sqrt64 (finPoints [(0, 0), (3, 4)]))).dropLast.dropLast = .err := by
  decide +kernel

/-! ## C93 -/

/-- **C93, reading** `f64::from_str` reads every decimal numeral: the result is a double to which no double is
nearer, or the value is so large that it overflows. -/
theorem C93_from_str {n : Numeral} (hn : n.Valid) :
    readF64 n.text = some (round64 n.value) ∧
    (|n.value| ≤ (2 : ℚ) ^ (1023 : ℤ) → ∃ x, round64 n.value = .fin x) ∧
    ∀ x, round64 n.value = .fin x → IsDouble x ∧ ∀ d, IsDouble d → |x - n.value| ≤ |d - n.value| := by
  refine ⟨readF64_numeral hn, fun hb => ?_, fun x hx => ?_⟩
  · by_cases h0 : n.value = 0
    · exact ⟨0, by rw [h0]; simp [round64]⟩
    · refine ⟨_, round64_of_nearest h0 ?_⟩
      have h1 := nearest64_nearest h0 isDouble_zero
      have h2 : IsDouble (pow2 1023) := ⟨1, 1023, by simp, by norm_num, by norm_num, by
        rw [abs_of_pos (pow2_pos _)]; exact pow2_lt_iff.mpr (by norm_num)⟩
      have h3 : IsDouble (-pow2 1023) := ⟨-1, 1023, by simp, by norm_num, by norm_num, by
        rw [abs_neg, abs_of_pos (pow2_pos _)]; exact pow2_lt_iff.mpr (by norm_num)⟩
      have k2 := nearest64_nearest h0 h2
      have k3 := nearest64_nearest h0 h3
      rw [← pow2_eq, abs_le] at hb
      rw [abs_of_nonneg (by linarith : 0 ≤ pow2 1023 - n.value)] at k2
      rw [abs_of_nonpos (by linarith : -pow2 1023 - n.value ≤ 0)] at k3
      have e : pow2 1024 = 2 * pow2 1023 := by
        rw [show (1024 : ℤ) = 1 + 1023 by norm_num, pow2_add]; rfl
      rw [abs_le] at k2 k3
      have hpos := pow2_pos 1023
      rw [abs_lt, e]
      generalize pow2 1023 = M at *
      generalize nearest64 n.value = r at *
      constructor <;> linarith [k2.1, k2.2, k3.1, k3.2]
  · obtain ⟨h1, h2⟩ := round64_fin hx
    refine ⟨h2, fun d hd => ?_⟩
    rcases h1 with ⟨h0, rfl⟩ | ⟨h0, rfl⟩
    · rw [h0]; simp
    · exact nearest64_nearest h0 hd

/-- **C93, exactly** `f64::from_str` reads exactly the texts of doubles: an optional sign, and a decimal numeral
with an optional exponent or the name of a special value. Integers: at least one decimal digit, perhaps after a
`+`, and a value in range. -/
theorem C93_exactly {s : List Char} :
    (∀ x, readF64 s = some x ↔ F64Text s x) ∧ (∀ n, readUsize s = some n ↔ UnsignedText (2 ^ 64) s n) ∧
      ∀ n, readU32 s = some n ↔ UnsignedText (2 ^ 32) s n :=
  ⟨fun _ => readF64_iff, fun _ => readUnsigned_iff, fun _ => readUnsigned_iff⟩

/-- a number that is too large, and a numeral with a letter -/
example : readU32 "4294967296".toList = none ∧ readU32 "+4294967295".toList = some 4294967295 ∧
    readF64 "0x1".toList = none ∧ readF64 "-5E1".toList = some (.fin (-50)) := by decide +kernel

/-- **C93, printing** What `Display` prints for a number is read as this number. -/
theorem C93_display {fmt : XNum ℚ → List Char} (hf : Display fmt) {x : XNum ℚ} (hx : DoubleVal x) :
    readF64 (fmt x) = some x := readF64_displayed hf hx

/-- **C93, shortest** A numeral that is nearer to a double than to all other numbers with 53 significant bits
is read as this double. -/
theorem C93_closest {n : Numeral} (hn : n.Valid) {x : ℚ} (hx : IsDouble x)
    (h : ∀ z q : ℤ, |z| ≤ 2 ^ 53 → -1074 ≤ q → z * (2 : ℚ) ^ q ≠ x → |n.value - x| < |n.value - z * (2 : ℚ) ^ q|) :
    readF64 n.text = some (.fin x) := by
  rw [readF64_numeral hn, round64_of_closest hx h]

/-- there is a function with the contract of `Display` -/
example : Display exactDisplay := display_exact

/-- one tenth -/
example : readF64 "0.1".toList = some (.fin (3602879701896397 / 36028797018963968)) := by decide +kernel

/-! ## C94 -/

theorem pyGraph_get (matrix : List (List α)) (i : Nat) :
    (pyGraph matrix)[i]? = (matrix[i]?).map fun row => row.zipIdx.filterMap fun x =>
      if i = x.2 then none else some ⟨x.2, x.1⟩ := by
  unfold pyGraph
  rw [List.getElem?_map, List.getElem?_zipIdx]
  cases matrix[i]? <;> simp

theorem pyGraph_mem {matrix : List (List α)} {i : Nat} {es : List (Edge α)}
    (h : (pyGraph matrix)[i]? = some es) {e : Edge α} (he : e ∈ es) :
    e.dst ≠ i ∧ ∃ row, matrix[i]? = some row ∧ row[e.dst]? = some e.cost := by
  rw [pyGraph_get] at h
  obtain ⟨row, hr, rfl⟩ := Option.map_eq_some_iff.mp h
  obtain ⟨x, hx, hxe⟩ := List.mem_filterMap.mp he
  by_cases hi : i = x.2
  · rw [if_pos hi] at hxe; cases hxe
  · rw [if_neg hi] at hxe
    cases hxe
    exact ⟨fun e => hi e.symm, row, hr, List.mem_zipIdx_iff_getElem?.mp hx⟩

theorem pyGraph_ends {matrix : List (List α)} {i : Nat} {es : List (Edge α)}
    (h : (pyGraph matrix)[i]? = some es) (hsq : ∀ row ∈ matrix, row.length = matrix.length) :
    es.map Edge.dst = (List.range matrix.length).filter (· ≠ i) := by
  rw [pyGraph_get] at h
  obtain ⟨row, hr, rfl⟩ := Option.map_eq_some_iff.mp h
  rw [← hsq row (List.mem_of_getElem? hr)]
  generalize hk : row.zipIdx = l
  have hl : List.range row.length = l.map Prod.snd := by
    rw [← hk, List.zipIdx_map_snd]
    simp [List.range_eq_range']
  rw [hl]
  clear hk hl
  induction l with
  | nil => rfl
  | cons x l ih =>
    rw [List.filterMap_cons, List.map_cons, List.filter_cons]
    by_cases hi : i = x.2
    · rw [if_pos hi, if_neg (by simpa using hi.symm)]
      exact ih
    · rw [if_neg hi, if_pos (by simpa using fun e => hi e.symm)]
      simp only [List.map_cons, ih]

/-- **C94** The Python function `convert_to_xml` is called with a symmetric matrix of doubles between 0 and
`2 ^ 1022`. With at least two cities, the text is accepted by `parse_from_xml`, also if there are zeros; the
graph is complete, and every cost differs from the entry of the matrix by a relative error of at most
`10⁻¹⁵`. With one city or none the result is an error. -/
theorem C94_python {fmt : XNum ℚ → List Char} (hf : Digits16 fmt) {matrix : List (List (XNum ℚ))}
    (hsize : matrix.length ≤ 2 ^ 64) (hsq : ∀ row ∈ matrix, row.length = matrix.length)
    (hc : ∀ row ∈ matrix, ∀ x ∈ row, ∃ q, x = .fin q ∧ IsDouble q ∧ 0 ≤ q ∧ q ≤ (2 : ℚ) ^ (1022 : ℤ))
    (hsym : ∀ (i j : Nat) r s, matrix[i]? = some r → matrix[j]? = some s → r[j]? = s[i]?) :
    (matrix.length ≤ 1 → @parseFromXml _ binary64.ops readF64 (pyXml fmt matrix) = .err) ∧
    (2 ≤ matrix.length → ∃ i, @parseFromXml _ binary64.ops readF64 (pyXml fmt matrix) = .ok i ∧
      i.graph.length = matrix.length ∧ @CompleteUndirected _ binary64.ops i.graph ∧
      ∀ (a : Nat) es, i.graph[a]? = some es → ∀ e ∈ es, ∃ row x y, matrix[a]? = some row ∧
        row[e.dst]? = some (.fin x) ∧ e.cost = .fin y ∧ IsDouble y ∧ 0 ≤ y ∧ |y - x| ≤ 1 / 10 ^ 15 * x) := by
  have hread : ∀ x, (∃ q, x = XNum.fin q ∧ IsDouble q ∧ 0 ≤ q ∧ q ≤ (2 : ℚ) ^ (1022 : ℤ)) →
      QuoteFree (fmt x) ∧ ∃ q y, x = .fin q ∧ readF64 (fmt x) = some (.fin y) ∧ IsDouble y ∧ 0 ≤ y ∧
        |y - q| ≤ 1 / 10 ^ 15 * q := by
    rintro _ ⟨q, rfl, h1, h2, h3⟩
    obtain ⟨n, e1, e2, e3⟩ := hf q h1
    rw [abs_of_nonneg h2] at e3
    obtain ⟨k1, k2, k3⟩ := C93_from_str e2
    have hv := abs_le.mp e3
    obtain ⟨y, hy⟩ := k2 (by
      have e : (2 : ℚ) ^ (1023 : ℤ) = 2 * (2 : ℚ) ^ (1022 : ℤ) := by
        rw [show (1023 : ℤ) = 1 + 1022 by norm_num, zpow_add₀ (by norm_num)]; rfl
      rw [e, abs_le]
      clear e k2
      have hq : 1 / 10 ^ 15 / 2 * q ≤ q := by
        have : (1 : ℚ) / 10 ^ 15 / 2 ≤ 1 := by norm_num
        exact (mul_le_mul_of_nonneg_right this h2).trans (one_mul q).le
      generalize (2 : ℚ) ^ (1022 : ℤ) = M at *
      generalize 1 / 10 ^ 15 / 2 * q = d at *
      constructor <;> linarith [hv.1, hv.2])
    obtain ⟨k4, k5⟩ := k3 y hy
    have k6 := k5 q h1
    rw [abs_sub_comm q] at k6
    have k7 : |y - q| ≤ 1 / 10 ^ 15 * q := by
      have := abs_sub_le y n.value q
      linarith
    refine ⟨?_, q, y, rfl, by rw [e1, k1, hy], k4, ?_, k7⟩
    · rw [e1]
      constructor
      · intro h
        rcases e2.mem h with h | h <;> revert h <;> decide
      · intro h
        rcases e2.mem h with h | h <;> revert h <;> decide
    · have := (abs_le.mp k7).1
      linarith
  set f : XNum ℚ → XNum ℚ := fun x => (readF64 (fmt x)).getD .nan with hfdef
  have hdoc : Document (instanceXml fmt (genInstance (pyGraph matrix))) (pyXml fmt matrix) :=
    .root (layout_pyXml fun row hrow x hx => (hread x (hc row hrow x hx)).1)
  have hR : Readable readF64 fmt f (pyGraph matrix) := by
    intro es hes e he
    obtain ⟨a, ha, rfl⟩ := List.mem_iff_getElem.mp hes
    obtain ⟨-, row, h1, h2⟩ := pyGraph_mem (List.getElem?_eq_getElem ha) he
    have hrow := List.mem_of_getElem? h1
    obtain ⟨-, q, y, -, h3, -⟩ := hread _ (hc row hrow _ (List.mem_of_getElem? h2))
    refine ⟨by rw [hfdef]; simp only [h3, Option.getD_some], ?_⟩
    have := (List.getElem?_eq_some_iff.mp h2).1
    rw [hsq row hrow] at this
    omega
  obtain ⟨r1, r2⟩ := readInstance_xml (i := genInstance (pyGraph matrix)) hR
    (show 15 < 2 ^ 32 by decide) (show 0 < 2 ^ 32 by decide)
  have hlen : (pyGraph matrix).length = matrix.length := by simp [pyGraph]
  obtain ⟨p1, -, p3⟩ := @C91_parse _ binary64.ops readF64 _ _ hdoc
  constructor
  · intro h1
    have hbad : pyGraph matrix = [] ∨ [] ∈ pyGraph matrix := by
      by_cases h0 : matrix.length = 0
      · left; rw [← List.length_eq_zero_iff, hlen, h0]
      · right
        have h0' : 0 < (pyGraph matrix).length := by omega
        have he := pyGraph_ends (List.getElem?_eq_getElem h0') hsq
        rw [show matrix.length = 1 by omega] at he
        have : (pyGraph matrix)[0] = [] := by
          rw [← List.length_eq_zero_iff, ← List.length_map (f := Edge.dst), he]
          rfl
        rw [← this]
        exact List.getElem_mem h0'
    have e : (readXml (pyXml fmt matrix) >>= readInstance readF64) = .error .deError := by
      rw [readXml_document hdoc]
      exact r1 hbad
    unfold parseFromXml
    rw [e]
  · intro h2
    have hgood : ¬(pyGraph matrix = [] ∨ [] ∈ pyGraph matrix) := by
      rintro (h | h)
      · rw [h] at hlen; simp at hlen; omega
      · obtain ⟨a, ha, hae⟩ := List.mem_iff_getElem.mp h
        have he := pyGraph_ends (es := []) (by rw [List.getElem?_eq_getElem ha, hae]) hsq
        have hb : (if a = 0 then 1 else 0) ∈ (List.range matrix.length).filter (· ≠ a) := by
          rw [List.mem_filter, List.mem_range]
          split <;> simp <;> omega
        rw [← he] at hb
        simp at hb
    have henc := readInstance_ok.mp (r2 hgood)
    have hml : (mapCosts f (pyGraph matrix)).length = matrix.length := by simp [mapCosts, hlen]
    -- an edge of the graph that is read
    have hedge : ∀ (a : Nat) es, (mapCosts f (pyGraph matrix))[a]? = some es →
        (∃ es', (pyGraph matrix)[a]? = some es' ∧ es = es'.map fun e => ⟨e.dst, f e.cost⟩) := by
      intro a es h
      rw [mapCosts, List.getElem?_map] at h
      obtain ⟨es', h1, h2⟩ := Option.map_eq_some_iff.mp h
      exact ⟨es', h1, h2.symm⟩
    have hcost : ∀ (a : Nat) es, (mapCosts f (pyGraph matrix))[a]? = some es → ∀ e ∈ es, ∃ row x y,
        matrix[a]? = some row ∧ row[e.dst]? = some (.fin x) ∧ e.cost = .fin y ∧ e.cost = f (.fin x) ∧
        IsDouble y ∧ 0 ≤ y ∧ |y - x| ≤ 1 / 10 ^ 15 * x := by
      intro a es h e he
      obtain ⟨es', h1, rfl⟩ := hedge a es h
      obtain ⟨e', he', rfl⟩ := List.mem_map.mp he
      obtain ⟨-, row, k1, k2⟩ := pyGraph_mem h1 he'
      obtain ⟨-, q, y, hq, h3, h4, h5, h6⟩ := hread _ (hc row (List.mem_of_getElem? k1) _ (List.mem_of_getElem? k2))
      refine ⟨row, q, y, k1, by rw [← hq]; exact k2, ?_, by rw [← hq], h4, h5, h6⟩
      rw [hfdef]
      simp only [h3, Option.getD_some]
    have hcomp : @CompleteUndirected _ binary64.ops (mapCosts f (pyGraph matrix)) := by
      refine @CompleteUndirected.mk _ binary64.ops _ ?_ ?_
      · intro a es h
        obtain ⟨es', h1, rfl⟩ := hedge a es h
        have := pyGraph_ends h1 hsq
        rw [List.map_map, hml, List.Nodup.erase_eq_filter List.nodup_range]
        have e : (Edge.dst ∘ fun e : Edge (XNum ℚ) => (⟨e.dst, f e.cost⟩ : Edge (XNum ℚ))) = Edge.dst := rfl
        rw [e, this]
        refine List.Perm.of_eq (List.filter_congr fun x _ => ?_)
        by_cases hx : x = a <;> simp [hx]
      · intro a b es fs ha hb e he g hg hd hd'
        obtain ⟨r, x, y, k1, k2, k3, k4, -⟩ := hcost a es ha e he
        obtain ⟨r', x', y', l1, l2, l3, l4, -⟩ := hcost b fs hb g hg
        have := hsym a b r r' k1 l1
        rw [hd] at k2
        rw [hd'] at l2
        rw [k2, l2] at this
        rw [Option.some.inj this] at k4
        rw [l4, ← k4, k3]
        show decide (y = y) = true
        simp
    refine ⟨_, (p1 _).mpr ⟨henc, @CompleteUndirected.accepted _ binary64.ops _ hcomp⟩, hml, hcomp, ?_⟩
    intro a es h e he
    obtain ⟨row, x, y, k1, k2, k3, -, k5, k6, k7⟩ := hcost a es h e he
    exact ⟨row, x, y, k1, k2, k3, k5, k6, k7⟩

/-- there is a function with the contract -/
example : Digits16 exactDisplay := digits16_exact

/-- two cities -/
example : @parseFromXml _ binary64.ops readF64
      (pyXml (fun _ => "5.000000000000000e+00".toList) ([[.fin 0, .fin 5], [.fin 5, .fin 0]] : List (List (XNum ℚ)))) =
    .ok (genInstance [[⟨1, .fin 5⟩], [⟨0, .fin 5⟩]]) := by decide +kernel

end Walky.Props
