import Verif.Lemmas.Queue
import Verif.Lemmas.Instance
import Verif.Lemmas.DfsShape
import Verif.Lemmas.Threaded
import Verif.Lemmas.NearestNeighbour
import Verif.Model.Cli

/-! # Helper lemmas: nothing panics, in every arithmetic -/

namespace Walky

open FloatOps Spec

variable {α : Type} [FloatOps α]

theorem evaluatePath_total {m : Mat α} {p : List Nat} (hp : ∀ i ∈ p, i < m.dim) :
    ∃ x, m.evaluatePath p = .ok x := by
  have key : ∀ (t : List Nat) (a : Nat) (x : α), (∀ i ∈ a :: t, i < m.dim) →
      ∃ y, ((a :: t).zip (a :: t).tail).foldlM (fun (acc : α) (e : Nat × Nat) => do
        let cost ← m.entry e.1 e.2
        return acc +ᶠ cost) x = .ok y := by
    intro t
    induction t with
    | nil => intro a x _; exact ⟨x, rfl⟩
    | cons b t ih =>
      intro a x h
      have ha : a < m.dim := h a (by simp)
      have hb : b < m.dim := h b (by simp)
      obtain ⟨y, hy⟩ := ih b (x +ᶠ m.get a b) (fun i hi => h i (List.mem_cons_of_mem _ hi))
      refine ⟨y, ?_⟩
      simp only [List.tail_cons, List.zip_cons_cons, List.foldlM_cons, entry_ok ha hb, rm_bind_ok, rm_pure]
      exact hy
  unfold Mat.evaluatePath
  split
  · exact ⟨_, rfl⟩
  · cases p with
    | nil => simp at *
    | cons a t => exact key t a zero hp

theorem evaluateCircle_total {m : Mat α} {p : List Nat} (hp : ∀ i ∈ p, i < m.dim) :
    ∃ x, m.evaluateCircle p = .ok x := by
  unfold Mat.evaluateCircle
  split
  · exact ⟨_, rfl⟩
  · rename_i hl
    have hne : p ≠ [] := by rintro rfl; simp at hl
    obtain ⟨x, hx⟩ := evaluatePath_total hp
    rw [List.getLast?_eq_getLast_of_ne_nil hne, List.head?_eq_some_head hne]
    simp only [unwrapO, rm_bind_ok]
    rw [entry_ok (hp _ (List.getLast_mem hne)) (hp _ (List.head_mem hne)), hx]
    exact ⟨_, rfl⟩

/-! ## v0 and v1 -/

theorem permLoop_total {m : Mat α} {step : List Nat → RM (Bool × List Nat)} {cur : List Nat}
    {l : List (List Nat)} (hrun : Run step cur l) (hl : ∀ p ∈ l, ∃ x, m.evaluateCircle p = .ok x) :
    ∀ (fuel : Nat) (best : Solution α), l.length < fuel →
      ∃ r, permLoop m step fuel cur best = .ok r ∧
        (r = best ∨ (r.2 ∈ l ∧ m.evaluateCircle r.2 = .ok r.1 ∧ ∃ y, r.1 <ᶠ y)) := by
  induction hrun with
  | stop h =>
    intro fuel best hf
    cases fuel with
    | zero => simp at hf
    | succ fuel => exact ⟨best, by simp [permLoop, h], Or.inl rfl⟩
  | @next a b l h hr ih =>
    intro fuel best hf
    cases fuel with
    | zero => simp at hf
    | succ fuel =>
      obtain ⟨x, hx⟩ := hl b (by simp)
      have ih := ih (fun p hp => hl p (List.mem_cons_of_mem _ hp)) fuel
      simp only [permLoop, h, rm_bind_ok, if_true, hx]
      split
      · rename_i hlt
        obtain ⟨r, h1, h2⟩ := ih (x, b) (by simpa using hf)
        refine ⟨r, h1, Or.inr ?_⟩
        rcases h2 with rfl | h2
        · exact ⟨by simp, hx, _, hlt⟩
        · exact ⟨List.mem_cons_of_mem _ h2.1, h2.2⟩
      · obtain ⟨r, h1, h2⟩ := ih best (by simpa using hf)
        refine ⟨r, h1, ?_⟩
        rcases h2 with rfl | h2
        · exact Or.inl rfl
        · exact Or.inr ⟨List.mem_cons_of_mem _ h2.1, h2.2⟩

/-! ## Threads -/

/-- "no tour found", or a tour with a cost that is smaller than something -/
def AnySol (m : Mat α) (r : Solution α) : Prop := r = (inf, []) ∨ (IsTour m.dim r.2 ∧ ∃ y, r.1 <ᶠ y)

theorem searchPrefix_total (m : Mat α) (htest : ∀ p, ValidPre m.dim p → ∃ x, mstBound m p = .ok x)
    {pre : List Nat} (hdim : 0 < m.dim) (hv : ValidPre m.dim pre) :
    ∃ r, searchPrefix m pre = .ok r ∧ AnySol m r := by
  obtain ⟨x, hx⟩ := evaluatePath_total (m := m) hv.2
  obtain ⟨r, h1, -, h2⟩ := dfs_shape m (test5 m) (fun _ => True) (fun _ _ => True) (fun x _ => ∃ y, x <ᶠ y)
    (fun a p x b _ hp _ => by
      obtain ⟨y, hy⟩ := htest p hp
      exact ⟨_, _, by unfold test5; rw [hy]; rfl, trivial⟩)
    (fun _ _ _ _ => trivial) (fun _ _ _ _ _ _ => ⟨trivial, trivial⟩)
    (fun _ _ _ _ _ _ _ _ _ h => ⟨_, h⟩) hdim (m.dim + 1) pre x ((inf, []), ()) hv (by omega) trivial trivial
  refine ⟨r.1, ?_, ?_⟩
  · unfold searchPrefix
    rw [hx, rm_bind_ok, h1]
    rfl
  · rcases h2 with h2 | h2
    · left; rw [h2]
    · exact Or.inr h2

/-- a thread has not passed its last prefix -/
structure AnyTOk (m : Mat α) (k hi : Nat) (t : TState α) : Prop where
  len : t.digits.length = k
  valid : ValidDigits m.dim t.digits
  mlen : t.maxDigits.length = k
  mvalid : ValidDigits m.dim t.maxDigits
  mval : digitsVal m.dim t.maxDigits = hi
  le : digitsVal m.dim t.digits ≤ hi
  fin : t.done = true ↔ digitsVal m.dim t.digits = hi
  pend : ∀ r, t.pending = some r → AnySol m r

theorem threadStep_total {m : Mat α} (hS : ∀ pre, ValidPre m.dim pre → ∃ r, searchPrefix m pre = .ok r ∧
      AnySol m r)
    {k hi : Nat} (hhi : hi < m.dim ^ k) {t : TState α} {best : Solution α} (h : AnyTOk m k hi t)
    (hd : t.done = false) (hb : AnySol m best) :
    ∃ t' b', threadStep m t best = .ok (t', b') ∧ AnyTOk m k hi t' ∧
      t'.measure m.dim hi < t.measure m.dim hi ∧ AnySol m b' := by
  have hlt : digitsVal m.dim t.digits < hi := by
    refine lt_of_le_of_ne h.le ?_
    intro e
    have := h.fin.mpr e
    simp [hd] at this
  unfold threadStep
  cases hp : t.pending with
  | some r =>
    refine ⟨_, _, rfl, ⟨h.len, h.valid, h.mlen, h.mvalid, h.mval, h.le, h.fin, by simp⟩,
      by simp [TState.measure, hp], ?_⟩
    split
    · exact h.pend r hp
    · exact hb
  | none =>
    obtain ⟨l, e1, e2, e3 | e3⟩ := getNextValue_ok h.valid
    · obtain ⟨_, e4, e5⟩ := e3
      simp only [e4, rm_bind_ok]
      have hmeas' : 2 * (hi - digitsVal m.dim l) + 1 < t.measure m.dim hi := by
        have : 2 * (hi - digitsVal m.dim l) + 1 < 2 * (hi - digitsVal m.dim t.digits) := by omega
        exact lt_of_lt_of_le this (Nat.le_add_right _ _)
      have hl : l.length = k := by rw [e1, h.len]
      by_cases hmax : l = t.maxDigits
      · rw [if_pos hmax]
        have hv : digitsVal m.dim l = hi := by rw [hmax, h.mval]
        refine ⟨_, _, rfl, ⟨hl, e2, h.mlen, h.mvalid, h.mval, hv.le, by simp [hv], by simp⟩, ?_, hb⟩
        simp only [TState.measure, hp] at hmeas' ⊢
        simp
        omega
      · rw [if_neg hmax]
        have hne : digitsVal m.dim l ≠ hi := by
          intro e
          exact hmax (digitsVal_inj (by rw [hl, h.mlen]) e2 h.mvalid (by rw [e, h.mval]))
        have hle : digitsVal m.dim l ≤ hi := by omega
        by_cases hu : isUnique l = true
        · rw [if_pos hu]
          obtain ⟨r, hr, hr2⟩ := hS l ⟨isUnique_iff.mp hu, e2⟩
          rw [hr]
          refine ⟨_, _, rfl, ⟨hl, e2, h.mlen, h.mvalid, h.mval, hle, by simp [hd, hne], ?_⟩, ?_, hb⟩
          · intro r' hr'
            simp only [Option.some.injEq] at hr'
            exact hr' ▸ hr2
          · simp only [TState.measure, hp] at hmeas' ⊢
            simp
            omega
        · rw [if_neg hu]
          refine ⟨_, _, rfl, ⟨hl, e2, h.mlen, h.mvalid, h.mval, hle, by simp [hd, hne], by simp⟩, ?_, hb⟩
          simp only [TState.measure, hp] at hmeas' ⊢
          simp
          omega
    · have := e3.1
      rw [h.len] at this
      omega

/-- invariant of the threads -/
structure AnySysOk (m : Mat α) (k : Nat) (hi : Nat → Nat) (nT : Nat) (s : TSys α) : Prop where
  len : s.threads.length = nT
  thr : ∀ (i : Nat) t, s.threads[i]? = some t → AnyTOk m k (hi i) t
  best : AnySol m s.best

theorem stepOf_total {m : Mat α} (hS : ∀ pre, ValidPre m.dim pre → ∃ r, searchPrefix m pre = .ok r ∧
      AnySol m r)
    {k nT : Nat} {hi : Nat → Nat} (hhi : ∀ i < nT, hi i < m.dim ^ k) {s : TSys α} (h : AnySysOk m k hi nT s)
    {i : Nat} {t : TState α} (ht : s.threads[i]? = some t) (hd : t.done = false) :
    ∃ t' b, threadStep m t s.best = .ok (t', b) ∧ AnySysOk m k hi nT { threads := s.threads.set i t', best := b } ∧
      TSys.measure m.dim hi { threads := s.threads.set i t', best := b } < s.measure m.dim hi := by
  have hi' : i < nT := by
    have := (List.getElem?_eq_some_iff.mp ht).1
    rw [h.len] at this
    exact this
  obtain ⟨t', b, h1, h2, h3, h4⟩ := threadStep_total hS (hhi i hi') (h.thr i t ht) hd h.best
  refine ⟨t', b, h1, ⟨by simp [h.len], ?_, h4⟩, ?_⟩
  swap
  · exact sum_mapIdx_set_lt (fun i t => t.measure m.dim (hi i)) _ _ _ _ ht h3
  intro j u hu
  simp only at hu ⊢
  by_cases hij : i = j
  · subst hij
    rw [List.getElem?_set_self (by rw [h.len]; exact hi')] at hu
    simp only [Option.some.injEq] at hu
    subst hu
    exact h2
  · rw [List.getElem?_set_ne hij] at hu
    exact h.thr j u hu

theorem init_total {m : Mat α} {k nT : Nat} (hn : 1 ≤ nT) (hlt : 2 * nT ≤ m.dim ^ k) :
    ∃ s, initThreads m k nT = .ok s ∧
      AnySysOk m k (fun i => i * (m.dim ^ k / nT) + m.dim ^ k / nT - 1) nT s := by
  have hcs : 2 ≤ m.dim ^ k / nT := (Nat.le_div_iff_mul_le hn).mpr hlt
  have hch : ∀ i : Nat, ∃ p : List Nat × List Nat, i < nT → splitChunks k m.dim nT i = .ok p ∧
      p.1.length = k ∧ p.2.length = k ∧ ValidDigits m.dim p.1 ∧ ValidDigits m.dim p.2 ∧
      digitsVal m.dim p.1 = i * (m.dim ^ k / nT) ∧
      digitsVal m.dim p.2 = i * (m.dim ^ k / nT) + m.dim ^ k / nT - 1 := by
    intro i
    by_cases hi : i < nT
    · obtain ⟨lo, hi', a1, a2, a3, a4, a5, a6, a7⟩ := Props.C14_chunk_digits (b := m.dim) (k := k) hn
        (by omega) hi
      refine ⟨(lo, hi'), fun _ => ⟨a1, a2, a3, a4, a5, a6, ?_⟩⟩
      rw [Nat.add_mul, Nat.one_mul] at a7
      unfold digitsVal
      simp only
      omega
    · exact ⟨([], []), fun h => absurd h hi⟩
  choose p hp using hch
  refine ⟨⟨(List.range nT).map fun i => ⟨(p i).1, (p i).2, none, false⟩, (inf, [])⟩, ?_,
    ⟨by simp, ?_, Or.inl rfl⟩⟩
  · unfold initThreads
    rw [mapM_ok (g := fun i => (⟨(p i).1, (p i).2, none, false⟩ : TState α))]
    · rfl
    · intro i hi
      rw [(hp i (by simpa using hi)).1]
      rfl
  · intro i t ht
    simp only [List.getElem?_map, Option.map_eq_some_iff] at ht
    obtain ⟨j, hj, rfl⟩ := ht
    have hi : i < nT := by
      have := (List.getElem?_eq_some_iff.mp hj).1
      simpa using this
    rw [List.getElem?_range hi] at hj
    simp only [Option.some.injEq] at hj
    subst hj
    obtain ⟨_, b2, b3, b4, b5, b6, b7⟩ := hp i hi
    refine ⟨b2, b4, b3, b5, b7, by simp only; omega, ?_, by simp⟩
    simp only [Bool.false_eq_true, false_iff]
    omega

theorem steps_total {m : Mat α} (hS : ∀ pre, ValidPre m.dim pre → ∃ r, searchPrefix m pre = .ok r ∧
      AnySol m r)
    {k nT : Nat} {hi : Nat → Nat} (hhi : ∀ i < nT, hi i < m.dim ^ k) {s0 s : TSys α} {n : Nat}
    (h : AnySysOk m k hi nT s0) (hs : Steps (TSys.step m) n s0 s) :
    AnySysOk m k hi nT s ∧ n + s.measure m.dim hi ≤ s0.measure m.dim hi := by
  induction hs with
  | refl s => exact ⟨h, by omega⟩
  | tail h1 h2 ih =>
    obtain ⟨i, t, t', b, a1, a2, a3, rfl⟩ := h2
    obtain ⟨b1, b2⟩ := ih h
    obtain ⟨t'', b'', c1, c2, c3⟩ := stepOf_total hS hhi b1 a1 a2
    rw [a3] at c1
    injection c1 with c1
    injection c1 with e1 e2
    subst e1 e2
    exact ⟨c2, by omega⟩

theorem final_total {m : Mat α} (hS : ∀ pre, ValidPre m.dim pre → ∃ r, searchPrefix m pre = .ok r ∧
      AnySol m r)
    {k nT : Nat} {hi : Nat → Nat} (hhi : ∀ i < nT, hi i < m.dim ^ k) :
    ∀ (L : Nat) (s0 s : TSys α) (n : Nat), s.measure m.dim hi ≤ L → AnySysOk m k hi nT s →
      Steps (TSys.step m) n s0 s → ∃ n' s', Steps (TSys.step m) n' s0 s' ∧ s'.final := by
  intro L
  induction L with
  | zero =>
    intro s0 s n hN h hs
    by_cases hf : s.final
    · exact ⟨n, s, hs, hf⟩
    · simp only [TSys.final, not_forall] at hf
      obtain ⟨t, ht, hd⟩ := hf
      obtain ⟨i, hi'⟩ := List.mem_iff_getElem?.mp ht
      obtain ⟨t', b, _, _, h3⟩ := stepOf_total hS hhi h hi' (by simpa using hd)
      omega
  | succ L ih =>
    intro s0 s n hN h hs
    by_cases hf : s.final
    · exact ⟨n, s, hs, hf⟩
    · simp only [TSys.final, not_forall] at hf
      obtain ⟨t, ht, hd⟩ := hf
      obtain ⟨i, hi'⟩ := List.mem_iff_getElem?.mp ht
      obtain ⟨t', b, h1, h2, h3⟩ := stepOf_total hS hhi h hi' (by simpa using hd)
      exact ih s0 _ (n + 1) (by omega) h2 (.tail hs ⟨i, t, t', b, hi', by simpa using hd, h1, rfl⟩)

/-! ## The priority queue -/

/-- what no arithmetic can break in the priority queue -/
structure AnyQOk (n : Nat) (s : PQ α) : Prop where
  keys : (s.queue.map Prod.fst).Nodup
  mem : ∀ j, j ∈ s.queue.map Prod.fst ↔ j = n ∨ (j < n ∧ s.used[j]? = some false)
  last : ∀ x, (n, x) ∈ s.queue → x = inf
  clen : s.conn.length = n + 1
  conn : ∀ w ∈ s.conn, w ≤ n
  ulen : s.used.length = n + 1

theorem AnyQOk.relax {n v : Nat} (hv : v ≤ n) (row : Nat → α) {s : PQ α} (h : AnyQOk n s) {j : Nat} (hj : j < n) :
    ∃ s', PQ.relax v row s j = .ok s' ∧ AnyQOk n s' := by
  unfold PQ.relax
  have hju : j < s.used.length := by rw [h.ulen]; omega
  rw [idx_ok (List.getElem?_eq_getElem hju)]
  simp only [rm_bind_ok]
  cases hu : s.used[j] with
  | true => exact ⟨s, rfl, h⟩
  | false =>
    have hjk := (h.mem j).mpr (Or.inr ⟨hj, by rw [List.getElem?_eq_getElem hju, hu]⟩)
    obtain ⟨⟨j', p⟩, hp, hjj⟩ := List.mem_map.mp hjk
    simp only at hjj
    subst hjj
    simp only [Bool.false_eq_true, if_false, lookup_of_mem h.keys hp]
    have hq : ∃ q', (if olt (row j') p = true then
        s.queue.map (fun x => if x.1 = j' then (j', row j') else x) else s.queue) = q' ∧
        q'.map Prod.fst = s.queue.map Prod.fst ∧ ∀ x, (n, x) ∈ q' → (n, x) ∈ s.queue := by
      refine ⟨_, rfl, ?_, ?_⟩
      · split
        · exact map_set_fst _ _ _
        · rfl
      · intro x hk
        split at hk
        · rcases mem_map_set hk with ⟨h1, _⟩ | ⟨_, h1⟩
          · omega
          · exact h1
        · exact hk
    obtain ⟨q', hq', k1, k2⟩ := hq
    rw [hq']
    generalize (if olt (row j') p = true then p else row j') = old
    split
    · rw [if_pos (by rw [h.clen]; omega)]
      refine ⟨_, rfl, by rw [k1]; exact h.keys, fun k => by rw [k1]; exact h.mem k,
        fun x hx => h.last x (k2 x hx), by simp [h.clen], ?_, h.ulen⟩
      intro w hw
      rcases List.mem_or_eq_of_mem_set hw with hw | rfl
      · exact h.conn w hw
      · exact hv
    · exact ⟨_, rfl, by rw [k1]; exact h.keys, fun k => by rw [k1]; exact h.mem k,
        fun x hx => h.last x (k2 x hx), h.clen, h.conn, h.ulen⟩

theorem AnyQOk.mark {n v : Nat} {s : PQ α} (h : AnyQOk n s) (hv : v < n) :
    AnyQOk n { s with queue := s.queue.filter (fun x => x.1 ≠ v), used := s.used.set v true } := by
  refine ⟨h.keys.sublist (List.filter_sublist.map _), ?_, ?_, h.clen, h.conn, by simp [h.ulen]⟩
  · intro j
    have e : j ∈ (s.queue.filter (fun x => x.1 ≠ v)).map Prod.fst ↔ j ∈ s.queue.map Prod.fst ∧ j ≠ v := by
      simp only [List.mem_map, List.mem_filter, decide_eq_true_eq]
      constructor
      · rintro ⟨x, ⟨h1, h2⟩, rfl⟩
        exact ⟨⟨x, h1, rfl⟩, h2⟩
      · rintro ⟨⟨x, h1, rfl⟩, h2⟩
        exact ⟨x, ⟨h1, h2⟩, rfl⟩
    simp only [e, h.mem j]
    by_cases hvj : v = j
    · subst hvj
      rw [List.getElem?_set_self (by rw [h.ulen]; omega)]
      simp
      omega
    · rw [List.getElem?_set_ne hvj]
      have : j ≠ v := fun h => hvj h.symm
      simp [this]
  · intro x hx
    exact h.last x (List.mem_of_mem_filter hx)

theorem queueLoop_total {m : Mat α} (hinf : eq (inf : α) inf = true)
    {peek : Nat → List (Nat × α) → Option (Nat × α)} (hsome : ∀ it l, l ≠ [] → ∃ x, peek it l = some x)
    (hmem : ∀ it l x, peek it l = some x → x ∈ l) (start : Nat) :
    ∀ (k it : Nat) (s : PQ α) (adj : Graph α), AnyQOk m.dim s → adj.length = m.dim + 1 →
      ∃ adj', primLoop (pqOps peek) m start k it s adj = .ok adj' := by
  intro k
  induction k with
  | zero => intro it s adj _ _; exact ⟨adj, rfl⟩
  | succ k ih =>
    intro it s adj h hlen
    have hne : s.queue ≠ [] := by
      intro h0
      have := (h.mem m.dim).mpr (Or.inl rfl)
      rw [h0] at this
      simp at this
    obtain ⟨⟨v, p⟩, hpe⟩ := hsome it _ hne
    have hvm := hmem _ _ _ hpe
    unfold primLoop
    simp only [pqOps, hpe, Option.getD_some]
    have hv := (h.mem v).mp (List.mem_map.mpr ⟨_, hvm, rfl⟩)
    have hvl : v < s.conn.length := by rw [h.clen]; omega
    rw [idx_ok (List.getElem?_eq_getElem hvl)]
    simp only [rm_bind_ok, rm_pure]
    by_cases he : eq p inf = true
    · exact ⟨adj, by rw [if_pos he]⟩
    rw [if_neg he]
    rcases hv with hvn | ⟨hvn, -⟩
    · subst hvn
      rw [h.last p hvm] at he
      exact absurd hinf he
    have hw : s.conn[v] ≤ m.dim := h.conn _ (List.getElem_mem hvl)
    rw [if_pos (by rw [h.ulen]; omega)]
    simp only [rm_bind_ok]
    obtain ⟨adj', ha, hal⟩ : ∃ adj', primPush start adj v ⟨s.conn[v], p⟩ = .ok adj' ∧ adj'.length = m.dim + 1 := by
      unfold primPush Graph.pushEdge
      split
      · rw [if_pos (by omega)]
        simp only [rm_bind_ok, List.length_modify]
        rw [if_pos (by omega)]
        exact ⟨_, rfl, by simp [hlen]⟩
      · exact ⟨_, rfl, hlen⟩
    rw [ha]
    simp only [rm_bind_ok, if_pos hvn]
    obtain ⟨s', h1, h2⟩ := foldlM_ok (PQ.relax v (m.get v)) (fun _ s => AnyQOk m.dim s) (List.range m.dim) _
      (h.mark hvn) (by
        intro done i rest b hl hb
        have hi : i ∈ List.range m.dim := by rw [hl]; simp
        exact hb.relax hvn.le _ (by simpa using hi))
    rw [h1]
    simp only [rm_bind_ok]
    exact ih _ _ _ h2 hal

theorem primQueue_total {m : Mat α} (hinf : eq (inf : α) inf = true)
    {peek : Nat → List (Nat × α) → Option (Nat × α)} (hsome : ∀ it l, l ≠ [] → ∃ x, peek it l = some x)
    (hmem : ∀ it l x, peek it l = some x → x ∈ l) : ∃ g, primQueue peek m [] = .ok g := by
  unfold primQueue primGeneric
  simp only [firstNotExcluded, List.contains_nil, Bool.false_eq_true, if_false, List.length_nil, rm_bind_ok,
    List.foldlM_nil, rm_pure]
  split
  · exact ⟨_, rfl⟩
  · rename_i hn
    have hn : 0 < m.dim := by omega
    simp only [pqOps, List.length_replicate, if_pos (show 0 < m.dim + 1 by omega), rm_bind_ok]
    obtain ⟨adj', h⟩ := queueLoop_total (m := m) hinf hsome hmem 0 (m.dim + 1) 0
      { queue := ((List.range (m.dim + 1)).map fun i => (i, (inf : α))).map
          (fun x => if x.1 = 0 then (0, zero) else x),
        conn := (List.replicate (m.dim + 1) m.dim).set 0 0, used := List.replicate (m.dim + 1) false }
      (List.replicate (m.dim + 1) []) (by
        have hk : (((List.range (m.dim + 1)).map fun i => (i, (inf : α))).map
            (fun x => if x.1 = 0 then (0, (zero : α)) else x)).map Prod.fst = List.range (m.dim + 1) := by
          rw [map_set_fst, List.map_map]
          exact List.map_id _
        refine ⟨by rw [hk]; exact List.nodup_range, ?_, ?_, by simp, ?_, by simp⟩
        · intro j
          rw [hk, List.mem_range, List.getElem?_replicate]
          simp
          omega
        · intro x hx
          rcases mem_map_set hx with ⟨h1, _⟩ | ⟨_, h1⟩
          · omega
          · obtain ⟨i, -, e⟩ := List.mem_map.mp h1
            exact (Prod.mk.inj e).2.symm
        · intro w hw
          rcases List.mem_or_eq_of_mem_set hw with hw | rfl
          · rw [List.eq_of_mem_replicate hw]
          · omega) (by simp)
    simp only [pqOps] at h
    rw [h]
    exact ⟨_, rfl⟩

/-! ## Nearest neighbour -/

omit [FloatOps α] in
theorem RTree.minBy_total {β : Type} {lt : β → β → Bool} (t : RTree β) (h : t.flatten ≠ []) :
    ∃ x, t.minBy lt = some x ∧ x ∈ t.flatten := by
  have key : ∀ t : RTree β, (t.minBy lt = none ∧ t.flatten = []) ∨ ∃ x, t.minBy lt = some x ∧ x ∈ t.flatten := by
    intro t
    induction t with
    | empty => exact Or.inl ⟨rfl, rfl⟩
    | leaf x => exact Or.inr ⟨x, rfl, by simp [RTree.flatten]⟩
    | node l r ihl ihr =>
      simp only [RTree.minBy, RTree.reduce, RTree.flatten] at ihl ihr ⊢
      rcases ihl with ⟨e1, e2⟩ | ⟨x, e1, e2⟩ <;> rcases ihr with ⟨e3, e4⟩ | ⟨y, e3, e4⟩
      · left; simp [e1, e2, e3, e4, combineO]
      · right; exact ⟨y, by simp [e1, e3, combineO], by simp [e4]⟩
      · right; exact ⟨x, by simp [e1, e3, combineO], by simp [e2]⟩
      · right
        simp only [e1, e3, combineO]
        refine ⟨_, rfl, ?_⟩
        split
        · simp [e4]
        · simp [e2]
  rcases key t with ⟨-, h'⟩ | h'
  · exact absurd h' h
  · exact h'

theorem nnScan_total {m : Mat α} {visited : List Bool} (hlen : visited.length = m.dim) {x : Nat}
    (hx : x < m.dim) :
    ∃ r, (List.range m.dim).foldlM (nnScanStep m visited x) (none, inf) = .ok r ∧
      (∀ y, r.1 = some y → y < m.dim ∧ visited[y]? = some false) ∧
      (r.1 = none → ∀ j, j < m.dim → visited[j]? = some false → ¬ m.get x j <ᶠ inf) := by
  obtain ⟨r, h1, h2⟩ := foldlM_ok (nnScanStep m visited x)
    (fun done (s : Option Nat × α) => (∀ y, s.1 = some y → y < m.dim ∧ visited[y]? = some false) ∧
      (s.1 = none → s.2 = inf ∧ ∀ j ∈ done, visited[j]? = some false → ¬ m.get x j <ᶠ inf))
    (List.range m.dim) (none, inf) (by simp) (by
      intro done i rest s hl ⟨h1, h2⟩
      have hi : i < m.dim := by
        have : i ∈ List.range m.dim := by rw [hl]; simp
        simpa using this
      have hiv : i < visited.length := by omega
      unfold nnScanStep
      rw [idx_ok (List.getElem?_eq_getElem hiv)]
      simp only [rm_bind_ok]
      cases hv : visited[i] with
      | true =>
        refine ⟨s, rfl, h1, fun h0 => ⟨(h2 h0).1, ?_⟩⟩
        intro j hj hf
        rcases List.mem_append.mp hj with hj | hj
        · exact (h2 h0).2 j hj hf
        · simp at hj
          subst hj
          rw [List.getElem?_eq_getElem hiv, hv] at hf
          simp at hf
      | false =>
        rw [entry_ok hx hi]
        simp only [Bool.false_eq_true, if_false, rm_bind_ok]
        split
        · refine ⟨_, rfl, ?_, by simp⟩
          intro y hy
          simp only [Option.some.injEq] at hy
          subst hy
          exact ⟨hi, by rw [List.getElem?_eq_getElem hiv, hv]⟩
        · rename_i hlt
          refine ⟨_, rfl, h1, fun h0 => ⟨(h2 h0).1, ?_⟩⟩
          intro j hj hf
          rcases List.mem_append.mp hj with hj | hj
          · exact (h2 h0).2 j hj hf
          · simp at hj
            subst hj
            rw [(h2 h0).1] at hlt
            exact hlt)
  exact ⟨r, h1, h2.1, fun h0 j hj => (h2.2 h0).2 j (by simpa using hj)⟩

/-- what no arithmetic can break in a nearest neighbour walk -/
structure AnyNNOk (n start : Nat) (s : NNState α) : Prop where
  last : ∃ l, s.path = l ++ [s.current]
  head : s.path.head? = some start
  nodup : s.path.Nodup
  rng : ∀ j ∈ s.path, j < n
  vlen : s.visited.length = n
  vis : ∀ j < n, s.visited[j]? = some (decide (j ∈ s.path))

theorem nnLoop_total {m : Mat α} {start : Nat} :
    ∀ (fuel : Nat) (s : NNState α), AnyNNOk m.dim start s → m.dim ≤ s.path.length + fuel →
      (∃ s', nnLoop m fuel s = .ok s' ∧ AnyNNOk m.dim start s' ∧ m.dim ≤ s'.path.length) ∨
      (nnLoop m fuel s = .error .explicit ∧ ∃ x < m.dim, ∃ y < m.dim, x ≠ y ∧ ¬ m.get x y <ᶠ inf) := by
  intro fuel
  induction fuel with
  | zero =>
    intro s h hf
    unfold nnLoop
    rw [if_neg (by omega)]
    exact Or.inl ⟨s, rfl, h, by omega⟩
  | succ fuel ih =>
    intro s h hf
    unfold nnLoop
    by_cases hlt : s.path.length < m.dim
    · rw [if_pos hlt]
      obtain ⟨l, hl⟩ := h.last
      have hcur : s.current ∈ s.path := by rw [hl]; simp
      obtain ⟨r, hr, hsome, hnone⟩ := nnScan_total h.vlen (h.rng _ hcur)
      simp only
      rw [hr]
      simp only [rm_bind_ok]
      obtain ⟨o, d⟩ := r
      cases o with
      | none =>
        refine Or.inr ⟨rfl, s.current, h.rng _ hcur, ?_⟩
        obtain ⟨j, hj, hjp⟩ : ∃ j < m.dim, j ∉ s.path := by
          by_contra hall
          push Not at hall
          have : (List.range m.dim).Subperm s.path :=
            List.subperm_of_subset List.nodup_range (fun j hj => hall j (by simpa using hj))
          have := this.length_le
          simp at this
          omega
        exact ⟨j, hj, fun e => hjp (e ▸ hcur), hnone rfl j hj (by rw [h.vis j hj]; simp [hjp])⟩
      | some y =>
        obtain ⟨hy1, hy⟩ := hsome y rfl
        have hy2 : y ∉ s.path := by
          rw [h.vis y hy1] at hy
          simpa using hy
        simp only [h.vlen, hy1, if_true]
        refine ih _ ⟨⟨s.path, rfl⟩, ?_, ?_, ?_, by simp [h.vlen], ?_⟩ (by simp; omega)
        · simp only
          rw [List.head?_append, h.head]
          rfl
        · exact List.nodup_append.mpr ⟨h.nodup, by simp, by
            intro a ha b hb; simp at hb; subst hb; exact fun e => hy2 (e ▸ ha)⟩
        · intro j hj
          rcases List.mem_append.mp hj with h' | h'
          · exact h.rng j h'
          · simp at h'; rw [h']; exact hy1
        · intro j hj
          simp only
          by_cases hjy : y = j
          · subst hjy
            rw [List.getElem?_set_self (by rw [h.vlen]; exact hj)]
            simp
          · have : j ≠ y := fun e => hjy e.symm
            rw [List.getElem?_set_ne hjy, h.vis j hj]
            simp [this]
    · rw [if_neg hlt]
      exact Or.inl ⟨s, rfl, h, by omega⟩

/-- A nearest neighbour walk gives a tour, or panics because some edge is not shorter than infinity. -/
theorem singleNN_total {m : Mat α} {i : Nat} (hi : i < m.dim) :
    (∃ r, singleNN m i = .ok r ∧ IsTour m.dim r.2 ∧ r.2.head? = some i) ∨
    (singleNN m i = .error .explicit ∧ ∃ x < m.dim, ∃ y < m.dim, x ≠ y ∧ ¬ m.get x y <ᶠ inf) := by
  unfold singleNN
  rw [if_pos hi]
  rcases nnLoop_total (m := m) (start := i) m.dim
    { path := [i], visited := (List.replicate m.dim false).set i true, current := i,
      distance := FloatOps.zero } (by
      refine ⟨⟨[], rfl⟩, rfl, by simp, by simpa using hi, by simp, ?_⟩
      intro j hj
      by_cases hij : i = j
      · subst hij; simp [hj]
      · have : j ≠ i := fun e => hij e.symm
        simp [hij, this, hj]) (by simp) with ⟨s, h1, h2, h3⟩ | ⟨h1, h2⟩
  · left
    rw [h1]
    simp only [rm_bind_ok]
    obtain ⟨l, hl⟩ := h2.last
    have hcur : s.current < m.dim := h2.rng _ (by rw [hl]; simp)
    rw [entry_ok hcur hi]
    refine ⟨_, rfl, ?_, h2.head⟩
    refine isTour_of_nodup h2.nodup h2.rng ?_
    simp only
    have : s.path.Subperm (List.range m.dim) :=
      List.subperm_of_subset h2.nodup (fun j hj => by simpa using h2.rng j hj)
    have := this.length_le
    simp at this
    omega
  · right
    rw [h1]
    exact ⟨rfl, h2⟩

theorem mapM_nn_total {m : Mat α} (h : ∀ x < m.dim, ∀ y < m.dim, x ≠ y → m.get x y <ᶠ inf) :
    ∀ l : List Nat, (∀ i ∈ l, i < m.dim) → ∃ rs : List (Solution α), l.mapM (singleNN m) = .ok rs ∧
      rs.length = l.length ∧ ∀ r ∈ rs, IsTour m.dim r.2 := by
  intro l
  induction l with
  | nil => intro _; exact ⟨[], rfl, rfl, by simp⟩
  | cons a t ih =>
    intro hl
    obtain ⟨rs, h1, h2, h3⟩ := ih (fun i hi => hl i (List.mem_cons_of_mem _ hi))
    rcases singleNN_total (m := m) (hl a (by simp)) with ⟨r, a1, a2, -⟩ | ⟨-, x, hx, y, hy, hxy, hn⟩
    · refine ⟨r :: rs, ?_, by simp [h2], ?_⟩
      · rw [List.mapM_cons, a1, rm_bind_ok, h1]
        rfl
      · intro q hq
        rcases List.mem_cons.mp hq with rfl | hq
        · exact a2
        · exact h3 q hq
    · exact absurd (h x hx y hy hxy) hn

theorem nearestNeighbour_total {m : Mat α} (hn : 1 ≤ m.dim)
    (h : ∀ x < m.dim, ∀ y < m.dim, x ≠ y → m.get x y <ᶠ inf) {xs : List Nat}
    (hxs : xs.Perm (List.range m.dim)) {shape : List (Solution α) → RTree (Solution α)}
    (hshape : ∀ l, (shape l).flatten = l) :
    (∃ r, nearestNeighbourSeq xs m = .ok r ∧ IsTour m.dim r.2) ∧
    ∃ r, nearestNeighbourPar shape xs m = .ok r ∧ IsTour m.dim r.2 := by
  have hlen : xs.length = m.dim := by rw [hxs.length_eq]; simp
  obtain ⟨rs, h1, h2, h3⟩ := mapM_nn_total h (nRandomNumbers xs m.dim) (by
    intro i hi
    have : i ∈ xs := List.mem_of_mem_take hi
    simpa using hxs.mem_iff.mp this)
  have hne : rs ≠ [] := by
    intro e
    rw [e] at h2
    unfold nRandomNumbers at h2
    simp at h2
    omega
  have h0 : m.dim ≠ 0 := by omega
  constructor
  · unfold nearestNeighbourSeq nNNSeq
    rw [if_neg h0, if_neg (lt_irrefl _), h1, rm_bind_ok]
    obtain ⟨r, hr⟩ := minByFirst_isSome (lt := solLt) hne
    exact ⟨r, by rw [hr]; rfl, h3 r (minByFirst_mem hr)⟩
  · unfold nearestNeighbourPar nNNPar
    rw [if_neg h0, if_neg (lt_irrefl _), h1, rm_bind_ok]
    obtain ⟨r, hr, hm⟩ := RTree.minBy_total (lt := solLt) (shape rs) (by rw [hshape]; exact hne)
    rw [hshape] at hm
    exact ⟨r, by rw [hr]; rfl, h3 r hm⟩

/-! ## Accepted instances -/

theorem instance_total {g : Graph α} (hacc : doConditionsHold g = .ok true) :
    ∃ m, (do naFromGraph (← parseChecked g)) = .ok m ∧ m.dim = g.length := by
  have h := doConditionsHold_iff.mp hacc
  have e : parseChecked g = .ok g := by
    unfold parseChecked
    rw [hacc]
    rfl
  rw [e, rm_bind_ok, naFromGraph_eq]
  have hw : ∀ w ∈ naWrites g, w.1 < g.length ∧ w.2.1 < g.length := by
    intro w hw
    obtain ⟨x, hx, hw⟩ := List.mem_flatMap.mp hw
    obtain ⟨e, he, rfl⟩ := List.mem_map.mp hw
    have hi := List.mk_mem_zipIdx_iff_getElem?.mp hx
    exact ⟨(List.getElem?_eq_some_iff.mp hi).1, ((h x.2 x.1 hi).2.2 e he).1⟩
  obtain ⟨m, h1, h2⟩ := foldlM_ok (fun (m : Mat α) w => m.setEntry w.1 w.2.1 w.2.2)
    (fun _ m => m.dim = g.length) (naWrites g) (Mat.fromDim g.length) rfl (by
      intro done w rest m hl hm
      obtain ⟨a, b⟩ := hw w (by rw [hl]; simp)
      unfold Mat.setEntry
      rw [if_pos (by rw [hm]; exact ⟨a, b⟩)]
      exact ⟨_, rfl, hm⟩)
  exact ⟨m, h1, h2⟩

end Walky
