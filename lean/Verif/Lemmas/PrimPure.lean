import Verif.Model.Prim
import Verif.Lemmas.Basic

/-! # Helper lemmas: Prim without laws of arithmetic

The monadic loop is reduced to the list of picked `(vertex, edge)` pairs. -/

set_option linter.unusedSectionVars false

namespace Walky

open FloatOps

variable {α : Type} [FloatOps α]

namespace Dist

@[simp] theorem length_relax (v : Nat) (row : Nat → α) (d : Dist α) (j : Nat) :
    (relax v row d j).length = d.length := by simp [relax]

@[simp] theorem length_updateInOrder (order : List Nat) (d : Dist α) (v : Nat) (row : Nat → α) :
    (updateInOrder order d v row).length = d.length := by
  unfold updateInOrder
  induction order generalizing d with
  | nil => rfl
  | cons a t ih => simp [ih]

/-- effect of relaxing entry `j` -/
def relaxEntry (v : Nat) (x : α) (p : Edge α × Bool) : Edge α × Bool :=
  if x <ᶠ p.1.cost then (⟨v, x⟩, p.2) else p

theorem getElem?_updateInOrder {order : List Nat} (hnd : order.Nodup) (d : Dist α) (v : Nat)
    (row : Nat → α) (j : Nat) :
    (updateInOrder order d v row)[j]? =
      if j ∈ order then d[j]?.map (relaxEntry v (row j)) else d[j]? := by
  unfold updateInOrder
  induction order generalizing d with
  | nil => simp
  | cons a t ih =>
    rw [List.nodup_cons] at hnd
    rw [List.foldl_cons, ih hnd.2]
    unfold relax
    rw [List.getElem?_modify]
    by_cases haj : a = j
    · subst haj
      simp only [hnd.1, if_false, if_true, List.mem_cons, true_or]
      rfl
    · have : j ≠ a := fun h => haj h.symm
      simp [haj, this]

/-- the order of the updates does not matter -/
theorem updateInOrder_perm {o₁ o₂ : List Nat} (h : o₁.Perm o₂) (hnd : o₁.Nodup) (d : Dist α)
    (v : Nat) (row : Nat → α) : updateInOrder o₁ d v row = updateInOrder o₂ d v row := by
  apply List.ext_getElem?
  intro j
  rw [getElem?_updateInOrder hnd, getElem?_updateInOrder (h.nodup_iff.mp hnd)]
  simp [h.mem_iff]

theorem mem_candidates {d : Dist α} {x : Nat × Edge α} :
    x ∈ d.candidates ↔ d[x.1]? = some (x.2, false) := by
  unfold candidates
  rw [List.mem_filterMap]
  constructor
  · rintro ⟨⟨⟨e, u⟩, i⟩, h, hu⟩
    rw [List.mem_zipIdx_iff_getElem?] at h
    cases u
    · simp only [Bool.false_eq_true, if_false, Option.some.injEq] at hu
      subst hu
      exact h
    · simp at hu
  · intro h
    refine ⟨((x.2, false), x.1), ?_, by simp⟩
    rw [List.mem_zipIdx_iff_getElem?]
    exact h

end Dist

theorem minByFirst_mem {β : Type} {lt : β → β → Bool} {l : List β} {x : β}
    (h : minByFirst lt l = some x) : x ∈ l := by
  cases l with
  | nil => simp [minByFirst] at h
  | cons a t =>
    simp only [minByFirst, Option.some.injEq] at h
    subst h
    have := foldl_inv (fun best y => if lt y best then y else best)
      (fun _ b => b ∈ a :: t) t a (by simp) (by
        intro done i rest b hl hb
        by_cases hi : lt i b = true
        · simp [hi, hl]
        · simpa [hi] using hb)
    exact this

theorem minByFirst_isSome {β : Type} {lt : β → β → Bool} {l : List β} (h : l ≠ []) :
    ∃ x, minByFirst lt l = some x := by
  cases l with
  | nil => exact absurd rfl h
  | cons a t => exact ⟨_, rfl⟩

/-- one round of Prim on the distance vector: mark `v`, relax its neighbours -/
def Dist.next (m : Mat α) (d : Dist α) (v : Nat) : Dist α :=
  Dist.updateInOrder (List.range m.dim) (d.modify v fun p => (p.1, true)) v (m.get v)

/-- the `(vertex, edge)` pairs picked by the loop -/
def picks (m : Mat α) : Nat → Dist α → List (Nat × Edge α)
  | 0, _ => []
  | k + 1, d =>
    if eq d.find.2.cost inf then []
    else d.find :: picks m k (d.next m d.find.1)

/-- effect of one pick on the adjacency lists -/
def addPick (start : Nat) (adj : Graph α) (p : Nat × Edge α) : Graph α :=
  if p.1 ≠ start then
    (adj.modify p.1 (· ++ [p.2])).modify p.2.dst (· ++ [⟨p.1, p.2.cost⟩])
  else adj

@[simp] theorem length_addPick (start : Nat) (adj : Graph α) (p : Nat × Edge α) :
    (addPick start adj p).length = adj.length := by
  unfold addPick; split <;> simp

/-- Law-free invariant of the distance vector. -/
structure DistOk (n start : Nat) (d : Dist α) : Prop where
  len : d.length = n + 1
  last : ∃ u, d[n]? = some (⟨n, inf⟩, u)
  dst : ∀ (j : Nat) (e : Edge α) (u : Bool), d[j]? = some (e, u) → e.dst < n ∨ e.cost = inf

theorem DistOk.find_lt {n start : Nat} {d : Dist α} (h : DistOk n start d)
    (hinf : eq (inf : α) inf = true) (hc : eq d.find.2.cost inf = false) :
    d.find.1 < n ∧ d.find.2.dst < n ∧ d[d.find.1]? = some (d.find.2, false) := by
  unfold Dist.find at *
  cases hm : minByFirst Dist.candLt d.candidates with
  | none => simp [hm, hinf] at hc
  | some x =>
    simp only [hm, Option.getD_some] at hc ⊢
    have hx := Dist.mem_candidates.mp (minByFirst_mem hm)
    have hlt : x.1 < d.length := by
      rw [List.getElem?_eq_some_iff] at hx
      exact hx.1
    refine ⟨?_, ?_, hx⟩
    · rcases Nat.lt_or_ge x.1 n with h1 | h1
      · exact h1
      · have : x.1 = n := by have := h.len; omega
        rw [this] at hx
        obtain ⟨u, hu⟩ := h.last
        rw [hu] at hx
        simp at hx
        rw [← hx.1] at hc
        simp [hinf] at hc
    · rcases h.dst _ _ _ hx with h1 | h1
      · exact h1
      · rw [h1, hinf] at hc; simp at hc

theorem DistOk.next {start : Nat} {m : Mat α} {d : Dist α} (h : DistOk m.dim start d) {v : Nat}
    (hv : v < m.dim) : DistOk m.dim start (d.next m v) := by
  refine ⟨by simp [Dist.next, h.len], ?_, ?_⟩
  · obtain ⟨u, hu⟩ := h.last
    refine ⟨u, ?_⟩
    unfold Dist.next
    rw [Dist.getElem?_updateInOrder List.nodup_range]
    simp only [List.mem_range, lt_irrefl, if_false]
    rw [List.getElem?_modify, hu]
    simp [Nat.ne_of_lt hv]
  · intro j e u hj
    unfold Dist.next at hj
    rw [Dist.getElem?_updateInOrder List.nodup_range, List.getElem?_modify] at hj
    have base : ∀ p, d[j]? = some p → p.1.dst < m.dim ∨ p.1.cost = inf :=
      fun p hp => h.dst j p.1 p.2 hp
    cases hd : d[j]? with
    | none => simp [hd] at hj
    | some p =>
      have hb := base p hd
      simp only [hd, Option.map_eq_map, Option.map_some] at hj
      have key : ∀ q : Edge α × Bool, q.1 = p.1 →
          (if j ∈ List.range m.dim then some (Dist.relaxEntry v (m.get v j) q) else some q) =
            some (e, u) → e.dst < m.dim ∨ e.cost = inf := by
        intro q hq h
        split at h
        · simp only [Option.some.injEq] at h
          unfold Dist.relaxEntry at h
          split at h
          · have : e = ⟨v, m.get v j⟩ := (congrArg Prod.fst h).symm
            left; rw [this]; exact hv
          · have : e = q.1 := (congrArg Prod.fst h).symm
            rw [this, hq]; exact hb
        · simp only [Option.some.injEq] at h
          have : e = q.1 := (congrArg Prod.fst h).symm
          rw [this, hq]; exact hb
      by_cases hvj : v = j
      · simp only [hvj, if_true] at hj key
        exact key (p.1, true) rfl (by simpa using hj)
      · simp only [hvj, if_false] at hj
        exact key p rfl (by simpa using hj)

/-- The monadic loop is the fold of the picks. -/
theorem primLoop_eq (m : Mat α) (start : Nat) (hinf : eq (inf : α) inf = true) :
    ∀ (k it : Nat) (d : Dist α) (adj : Graph α), DistOk m.dim start d →
      adj.length = m.dim + 1 →
      primLoop vecOps m start k it d adj = .ok ((picks m k d).foldl (addPick start) adj) := by
  intro k
  induction k with
  | zero => intro it d adj _ _; rfl
  | succ k ih =>
    intro it d adj hd hadj
    unfold primLoop picks
    simp only [vecOps, rm_bind_ok]
    cases hc : eq d.find.2.cost inf with
    | true => simp
    | false =>
      obtain ⟨h1, h2, h3⟩ := hd.find_lt hinf hc
      have hmark : Dist.markUsed d d.find.1 = .ok (d.modify d.find.1 fun p => (p.1, true)) := by
        unfold Dist.markUsed
        rw [if_pos]
        rw [hd.len]; omega
      have hpush : primPush start adj d.find.1 d.find.2 = .ok (addPick start adj d.find) := by
        unfold primPush
        unfold addPick
        split
        · unfold Graph.pushEdge
          rw [if_pos (by omega)]
          simp only [rm_bind_ok]
          rw [if_pos (by simp; omega)]
        · rfl
      simp only [Bool.false_eq_true, if_false, hmark, rm_bind_ok]
      rw [hpush]
      simp only [rm_bind_ok, h1, if_true]
      have := ih (it + 1) (d.next m d.find.1) (addPick start adj d.find) (hd.next h1) (by simp [hadj])
      unfold vecOps at this
      rw [List.foldl_cons, ← this]
      rfl

/-- first vertex that is not excluded -/
theorem firstNotExcluded_ok (ex : List Nat) : ∃ s, firstNotExcluded ex (ex.length + 1) 0 = .ok s ∧
    s ∉ ex ∧ ∀ i < s, i ∈ ex := by
  suffices H : ∀ fuel i, ex.length + 1 ≤ fuel + i → (∀ j < i, j ∈ ex) →
      ∃ s, firstNotExcluded ex fuel i = .ok s ∧ s ∉ ex ∧ ∀ i < s, i ∈ ex from
    H _ 0 (by omega) (by simp)
  intro fuel
  induction fuel with
  | zero =>
    intro i hi hj
    have : (List.range i).Subperm ex := by
      apply List.subperm_of_subset List.nodup_range
      intro j hjr
      exact hj j (by simpa using hjr)
    have := this.length_le
    simp at this
    omega
  | succ fuel ih =>
    intro i hi hj
    unfold firstNotExcluded
    by_cases hc : i ∈ ex
    · simp only [List.contains_iff_mem, hc, if_true]
      exact ih (i + 1) (by omega) (by
        intro j hji
        rcases Nat.lt_succ_iff_lt_or_eq.mp hji with h | h
        · exact hj j h
        · exact h ▸ hc)
    · refine ⟨i, ?_, hc, hj⟩
      simp [hc]

/-- distance vector before the loop -/
def initDist (n : Nat) (ex : List Nat) (start : Nat) : Dist α :=
  ex.foldl (fun d v => d.modify v fun p => (p.1, true))
    ((List.replicate (n + 1) (⟨n, inf⟩, false)).modify start fun p => (⟨start, zero⟩, p.2))

theorem getElem?_markAll (ex : List Nat) (d : Dist α) (j : Nat) :
    (ex.foldl (fun d v => d.modify v fun p => (p.1, true)) d)[j]? =
      d[j]?.map (fun p => (p.1, p.2 || decide (j ∈ ex))) := by
  induction ex generalizing d with
  | nil => simp
  | cons a t ih =>
    rw [List.foldl_cons, ih, List.getElem?_modify]
    by_cases haj : a = j
    · subst haj
      cases d[a]? <;> simp
    · have : j ≠ a := fun h => haj h.symm
      cases d[j]? <;> simp [haj, this]

theorem getElem?_initDist {n : Nat} {ex : List Nat} {start j : Nat} (hj : j < n + 1) :
    (initDist n ex start : Dist α)[j]? =
      some (if start = j then ⟨start, zero⟩ else ⟨n, inf⟩, decide (j ∈ ex)) := by
  unfold initDist
  rw [getElem?_markAll, List.getElem?_modify]
  have : (List.replicate (n + 1) ((⟨n, inf⟩ : Edge α), false))[j]? = some (⟨n, inf⟩, false) := by
    simp [hj]
  rw [this]
  by_cases h : start = j <;> simp [h]

theorem length_initDist (n : Nat) (ex : List Nat) (start : Nat) :
    (initDist n ex start : Dist α).length = n + 1 := by
  unfold initDist
  have : ∀ (d : Dist α), (ex.foldl (fun d v => d.modify v fun p => (p.1, true)) d).length
      = d.length := by
    induction ex with
    | nil => simp
    | cons a t ih => intro d; simp [ih]
  rw [this]; simp

theorem distOk_init {n : Nat} {ex : List Nat} {start : Nat} (hs : start < n) :
    DistOk n start (initDist n ex start : Dist α) := by
  refine ⟨length_initDist _ _ _, ⟨decide (n ∈ ex), ?_⟩, ?_⟩
  · rw [getElem?_initDist (by omega)]; simp [Nat.ne_of_lt hs]
  · intro j e u hj
    have hlt : j < n + 1 := by
      rw [List.getElem?_eq_some_iff] at hj
      have := hj.1
      rw [length_initDist] at this
      exact this
    rw [getElem?_initDist hlt] at hj
    simp only [Option.some.injEq] at hj
    have he : e = if start = j then ⟨start, zero⟩ else ⟨n, inf⟩ := (congrArg Prod.fst hj).symm
    rw [he]
    split
    · left; exact hs
    · right; rfl

/-- picks of the whole run -/
def primPicks (m : Mat α) (ex : List Nat) (start : Nat) : List (Nat × Edge α) :=
  picks m (m.dim + 1) (initDist m.dim ex start)

theorem markAll_eq {n : Nat} (ex : List Nat) (hex : ∀ v ∈ ex, v ≤ n) :
    ∀ (d : Dist α), d.length = n + 1 →
      ex.foldlM (fun d v => (vecOps : MinCostOps (Dist α) α).markUsed d v) d =
        (.ok (ex.foldl (fun d v => d.modify v fun p => (p.1, true)) d) : RM (Dist α)) := by
  induction ex with
  | nil => intro d _; rfl
  | cons a t ih =>
    intro d hd
    have ha : a ≤ n := hex a (by simp)
    have : (vecOps : MinCostOps (Dist α) α).markUsed d a =
        .ok (d.modify a fun p => (p.1, true)) := by
      simp only [vecOps, Dist.markUsed]
      rw [if_pos (by omega)]
    rw [List.foldlM_cons, this, rm_bind_ok, List.foldl_cons]
    exact ih (fun v hv => hex v (by simp [hv])) _ (by simpa using hd)

/-- `primSeq` never panics (excluded vertices in range) and is the fold of its picks. -/
theorem primSeq_eq (m : Mat α) (ex : List Nat) (hinf : eq (inf : α) inf = true)
    (hex : ∀ v ∈ ex, v ≤ m.dim) :
    ∃ start, start ∉ ex ∧ (∀ i < start, i ∈ ex) ∧
      primSeq m ex = .ok (if m.dim ≤ start then [] else
        ((primPicks m ex start).foldl (addPick start) (List.replicate (m.dim + 1) [])).dropLast) := by
  obtain ⟨s, hs, hs1, hs2⟩ := firstNotExcluded_ok ex
  refine ⟨s, hs1, hs2, ?_⟩
  unfold primSeq primGeneric
  simp only [hs, rm_bind_ok]
  by_cases hn : m.dim ≤ s
  · simp [hn]
  · simp only [hn, if_false]
    have hset : (vecOps : MinCostOps (Dist α) α).setCost
        ((vecOps : MinCostOps (Dist α) α).fromDefault ⟨m.dim, inf⟩ (m.dim + 1)) s ⟨s, zero⟩ =
        .ok ((List.replicate (m.dim + 1) (⟨m.dim, inf⟩, false)).modify s
          fun p => (⟨s, zero⟩, p.2)) := by
      simp only [vecOps, Dist.setCost]
      rw [if_pos (by simp; omega)]
    have hfold := markAll_eq (n := m.dim) (α := α) ex hex
    rw [hset]
    simp only [rm_bind_ok]
    rw [hfold _ (by simp)]
    simp only [rm_bind_ok]
    have := primLoop_eq m s hinf (m.dim + 1) 0 (initDist m.dim ex s)
      (List.replicate (m.dim + 1) []) (distOk_init (by omega)) (by simp)
    unfold initDist at this
    rw [this]
    rfl

end Walky
