import Verif.Props.StaticMpi
import Verif.Props.DynamicMpi

/-!
# C124: the amount of work and communication of the exact MPI jobs

Which worker gets which prefix depends on the order of the messages, and how long a search takes depends on the bound.
The number of messages does not depend on either.
-/

set_option linter.unusedSectionVars false

namespace Walky.Props

open FloatOps XNum Spec

/-! ## Counting prefixes -/

theorem length_flatMap_const {α β : Type} {l : List α} {f : α → List β} {k : Nat} (h : ∀ x ∈ l, (f x).length = k) :
    (l.flatMap f).length = l.length * k := by
  rw [List.length_flatMap, List.map_congr_left h]
  simp

/-- the prefixes of three different cities from `[1, 2, 3]` on -/
def offers (n : Nat) : List (List Nat) :=
  (((List.range n).drop 2).flatMap fun a => ((List.range n).erase a).flatMap fun b =>
    (((List.range n).erase a).erase b).map fun c => [a, b, c]) ++
  (((List.range n).drop 3).flatMap fun b => (((List.range n).erase 1).erase b).map fun c => [1, b, c]) ++
  ((List.range n).drop 3).map fun c => [1, 2, c]

theorem mem_drop_range {n k a : Nat} : a ∈ (List.range n).drop k ↔ k ≤ a ∧ a < n := by
  rw [List.mem_iff_getElem?]
  constructor
  · rintro ⟨i, hi⟩
    rw [List.getElem?_drop] at hi
    obtain ⟨h1, h2⟩ := List.getElem?_eq_some_iff.mp hi
    rw [List.getElem_range] at h2
    rw [List.length_range] at h1
    omega
  · rintro ⟨h1, h2⟩
    refine ⟨a - k, ?_⟩
    rw [List.getElem?_drop, List.getElem?_range (by omega)]
    congr 1
    omega

theorem offers_length {n : Nat} (hn : 4 ≤ n) : (offers n).length = (n - 1) * ((n - 1) * (n - 2) - 1) := by
  have h1 : (((List.range n).drop 2).flatMap fun a => ((List.range n).erase a).flatMap fun b =>
      (((List.range n).erase a).erase b).map fun c => [a, b, c]).length = (n - 2) * ((n - 1) * (n - 2)) := by
    rw [length_flatMap_const (k := (n - 1) * (n - 2))]
    · simp
    · intro a ha
      have ha' : a ∈ List.range n := List.mem_of_mem_drop ha
      rw [length_flatMap_const (k := n - 2)]
      · rw [List.length_erase_of_mem ha', List.length_range]
      · intro b hb
        rw [List.length_map, List.length_erase_of_mem hb, List.length_erase_of_mem ha', List.length_range]
        omega
  have h2 : (((List.range n).drop 3).flatMap fun b => (((List.range n).erase 1).erase b).map fun c => [1, b, c]).length =
      (n - 3) * (n - 2) := by
    rw [length_flatMap_const (k := n - 2)]
    · simp
    · intro b hb
      obtain ⟨hb1, hb2⟩ := mem_drop_range.mp hb
      have h1' : 1 ∈ List.range n := by simp; omega
      rw [List.length_map, List.length_erase_of_mem, List.length_erase_of_mem h1', List.length_range]
      · omega
      · rw [List.nodup_range.mem_erase_iff]
        exact ⟨by omega, by simp; omega⟩
  unfold offers
  rw [List.length_append, List.length_append, h1, h2, List.length_map, List.length_drop, List.length_range]
  obtain ⟨k, rfl⟩ : ∃ k, n = k + 4 := ⟨n - 4, by omega⟩
  have e1 : k + 4 - 1 = k + 3 := by omega
  have e2 : k + 4 - 2 = k + 2 := by omega
  have e3 : k + 4 - 3 = k + 1 := by omega
  have e4 : (k + 3) * (k + 2) - 1 = k * k + 5 * k + 5 := by
    have : (k + 3) * (k + 2) = k * k + 5 * k + 6 := by ring
    omega
  rw [e1, e2, e3, e4]
  ring

theorem val3 (n a b c : Nat) : digitsVal n [a, b, c] = a * n ^ 2 + b * n + c := by
  unfold digitsVal
  simp [Nat.ofDigits_cons]
  ring

theorem mem_offers {n : Nat} (hn : 4 ≤ n) (p : List Nat) :
    p ∈ offers n ↔ Triple n p ∧ dynStart n ≤ digitsVal n p := by
  have key : ∀ a b c : Nat, [a, b, c] ∈ offers n ↔
      (a < n ∧ b < n ∧ c < n) ∧ (a ≠ b ∧ a ≠ c ∧ b ≠ c) ∧ (2 ≤ a ∨ a = 1 ∧ 3 ≤ b ∨ a = 1 ∧ b = 2 ∧ 3 ≤ c) := by
    intro a b c
    simp only [offers, List.mem_append, List.mem_flatMap, List.mem_map, mem_drop_range, List.cons.injEq, and_true,
      List.nodup_range.mem_erase_iff, (List.nodup_range.erase _).mem_erase_iff, List.mem_range]
    constructor
    · rintro ((⟨a', h1, b', h2, c', h3, rfl, rfl, rfl⟩ | ⟨b', h2, c', h3, rfl, rfl, rfl⟩) | ⟨c', h3, rfl, rfl, rfl⟩) <;>
        omega
    · rintro ⟨h1, h2, h3 | ⟨rfl, h3⟩ | ⟨rfl, rfl, h3⟩⟩
      · exact Or.inl (Or.inl ⟨a, by omega, b, by omega, c, by omega, rfl, rfl, rfl⟩)
      · exact Or.inl (Or.inr ⟨b, by omega, c, by omega, rfl, rfl, rfl⟩)
      · exact Or.inr ⟨c, by omega, rfl, rfl, rfl⟩
  constructor
  · intro hp
    have h3 : ∃ a b c, p = [a, b, c] := by
      simp only [offers, List.mem_append, List.mem_flatMap, List.mem_map] at hp
      rcases hp with (⟨a, -, b, -, c, -, rfl⟩ | ⟨b, -, c, -, rfl⟩) | ⟨c, -, rfl⟩
      · exact ⟨a, b, c, rfl⟩
      · exact ⟨1, b, c, rfl⟩
      · exact ⟨1, 2, c, rfl⟩
    obtain ⟨a, b, c, rfl⟩ := h3
    obtain ⟨h1, h2, h3⟩ := (key a b c).mp hp
    refine ⟨⟨rfl, ?_, ?_⟩, ?_⟩
    · intro d hd
      simp at hd
      omega
    · simp
      omega
    · rw [dynStart, val3, val3]
      rcases h3 with h | ⟨rfl, h⟩ | ⟨rfl, rfl, h⟩
      · nlinarith [Nat.mul_le_mul_right (n ^ 2) h]
      · nlinarith [Nat.mul_le_mul_right n h]
      · omega
  · rintro ⟨⟨h1, h2, h3⟩, h4⟩
    rcases p with _ | ⟨a, _ | ⟨b, _ | ⟨c, _ | ⟨d, t⟩⟩⟩⟩
    · simp at h1
    · simp at h1
    · simp at h1
    · have ha := h2 a (by simp)
      have hb := h2 b (by simp)
      have hc := h2 c (by simp)
      simp at h3
      rw [key]
      refine ⟨⟨ha, hb, hc⟩, by omega, ?_⟩
      rw [dynStart, val3, val3] at h4
      by_contra hcon
      have hcases : a = 0 ∨ (a = 1 ∧ b = 0) ∨ (a = 1 ∧ b = 2 ∧ c = 0) := by omega
      rcases hcases with rfl | ⟨rfl, rfl⟩ | ⟨rfl, rfl, rfl⟩
      · nlinarith [Nat.mul_le_mul_right n (show b + 1 ≤ n by omega)]
      · omega
      · omega
    · simp at h1

theorem offers_nodup (n : Nat) : (offers n).Nodup := by
  have hd : ∀ k, ((List.range n).drop k).Nodup := fun k => List.nodup_range.sublist (List.drop_sublist _ _)
  unfold offers
  refine List.Nodup.append (List.Nodup.append ?_ ?_ ?_) ?_ ?_
  · rw [List.nodup_flatMap]
    refine ⟨fun a _ => ?_, ?_⟩
    · rw [List.nodup_flatMap]
      refine ⟨fun b _ => ?_, ?_⟩
      · exact List.Nodup.map (fun x y h => by simpa using h) ((List.nodup_range.erase _).erase _)
      · refine List.Pairwise.imp ?_ (List.nodup_range.erase a)
        intro b b' hb p hp hp'
        simp only [List.mem_map] at hp hp'
        obtain ⟨c, -, rfl⟩ := hp
        obtain ⟨c', -, e⟩ := hp'
        simp at e
        exact hb e.1.symm
    · refine List.Pairwise.imp ?_ (hd 2)
      intro b b' hb p hp hp'
      simp only [List.mem_map, List.mem_flatMap] at hp hp'
      obtain ⟨c, -, x, -, rfl⟩ := hp
      obtain ⟨c', -, x', -, e⟩ := hp'
      simp at e
      exact hb e.1.symm
  · rw [List.nodup_flatMap]
    refine ⟨fun b _ => ?_, ?_⟩
    · exact List.Nodup.map (fun x y h => by simpa using h) ((List.nodup_range.erase _).erase _)
    · refine List.Pairwise.imp ?_ (hd 3)
      intro b b' hb p hp hp'
      simp only [List.mem_map] at hp hp'
      obtain ⟨c, -, rfl⟩ := hp
      obtain ⟨c', -, e⟩ := hp'
      simp at e
      exact hb e.1.symm
  · intro p hp hp'
    simp only [List.mem_map, List.mem_flatMap, mem_drop_range] at hp hp'
    obtain ⟨a, ha, x, -, y, -, rfl⟩ := hp
    obtain ⟨c', -, x', -, e⟩ := hp'
    simp at e
    omega
  · exact List.Nodup.map (fun x y h => by simpa using h) (hd 3)
  · intro p hp hp'
    simp only [List.mem_append, List.mem_map, List.mem_flatMap, mem_drop_range] at hp hp'
    obtain ⟨c', -, rfl⟩ := hp'
    rcases hp with ⟨a, ha, x, -, y, -, e⟩ | ⟨b, hb, y, -, e⟩
    · simp at e
      omega
    · simp at e
      omega

/-! ## The dynamic solver -/

section dynamic
variable {α : Type} [FloatOps α]

/-- messages of a worker that have not been received by it -/
def _root_.Walky.DWorker.pending (w : DWorker α) : Nat := w.down.length

/-- invariant after `k` steps -/
structure DTok (n nW k : Nat) (s : DSys α) : Prop where
  len : s.workers.length = nW
  tok : ∀ (i : Nat) w, s.workers[i]? = some w →
    w.up.length + w.down.length + (if w.done then 1 else 0) = 1 ∧ ∀ x ∈ w.up, x.2 = i + 1
  cur : CurOk n s.current s.log
  wait : s.waiting ≤ nW ∧ s.log.length = (handed s.log).length + s.waiting ∧ (1 ≤ s.waiting → s.current = none)
  count : k + (s.workers.mapIdx fun _ w => w.pending).sum = 2 * s.log.length

theorem dtok_init {n nW : Nat} (hn : 4 ≤ n) : DTok n nW 0 (initDynamic nW : DSys α) := by
  have hT : Triple n [1, 2, 3] := ⟨rfl, by intro d hd; simp at hd; omega, by simp⟩
  refine ⟨by simp [initDynamic], ?_, ?_, ⟨by simp [initDynamic], by simp [initDynamic, handed],
    by simp [initDynamic]⟩, ?_⟩
  · intro i w hw
    simp only [initDynamic, List.getElem?_map, Option.map_eq_some_iff] at hw
    obtain ⟨j, hj, rfl⟩ := hw
    obtain ⟨h1, h2⟩ := List.getElem?_eq_some_iff.mp hj
    rw [List.getElem_range] at h2
    subst h2
    simp
  · refine ⟨by simp [initDynamic, handed], by simp [initDynamic, handed], ?_, ?_⟩
    · intro p e
      simp only [initDynamic, Option.some.injEq] at e
      subst e
      exact ⟨hT, le_rfl, by simp [initDynamic, handed], by simp [initDynamic]⟩
    · intro l _ h1 h2
      have := h2 [1, 2, 3] rfl
      unfold dynStart at h1
      omega
  · simp only [initDynamic, List.length_nil, Nat.mul_zero, Nat.zero_add]
    rw [List.sum_eq_zero_iff]
    intro x hx
    rw [List.mem_mapIdx] at hx
    obtain ⟨i, hi, rfl⟩ := hx
    simp [DWorker.pending]

theorem dtok_step {m : Mat α} {nW k : Nat} {s t : DSys α} (h : DTok m.dim nW k s) (hst : DStep m s t) :
    DTok m.dim nW (k + 1) t := by
  cases hst with
  | recv i w w' msg rest a1 a2 a3 a4 =>
    have hil := (List.getElem?_eq_some_iff.mp a1).1
    obtain ⟨t1, t2⟩ := h.tok i w a1
    rw [a2, a3] at t1
    simp only [List.length_cons, Bool.false_eq_true, if_false] at t1
    have hup : w.up = [] := List.length_eq_zero_iff.mp (by omega)
    have hrest : rest = [] := List.length_eq_zero_iff.mp (by omega)
    have hw' : w'.up.length + w'.down.length + (if w'.done then 1 else 0) = 1 ∧ (∀ x ∈ w'.up, x.2 = i + 1) ∧
        w'.down = [] := by
      unfold dynWorker at a4
      split at a4
      · cases a4
        simp [hup, hrest]
      · cases hs : searchMpi m msg.1 msg.2 with
        | error e => rw [hs] at a4; cases a4
        | ok x =>
          rw [hs] at a4
          cases a4
          simp [hup, hrest, a2]
    refine ⟨by simp [h.len], ?_, h.cur, h.wait, ?_⟩
    · intro j u hu
      simp only at hu
      by_cases hij : i = j
      · subst hij
        rw [List.getElem?_set_self hil] at hu
        cases hu
        exact ⟨hw'.1, hw'.2.1⟩
      · rw [List.getElem?_set_ne hij] at hu
        exact h.tok j u hu
    · have := sum_mapIdx_set (fun _ w => DWorker.pending w) s.workers i w w' a1
      have hc := h.count
      simp only [DWorker.pending, hw'.2.2, a3, hrest, List.length_nil, List.length_cons] at this hc ⊢
      omega
  | root t i w msg rest a0 a1 a2 a3 =>
    have hil := (List.getElem?_eq_some_iff.mp a1).1
    obtain ⟨t1, t2⟩ := h.tok i w a1
    rw [a2] at t1 t2
    simp only [List.length_cons] at t1
    have hdown : w.down = [] := List.length_eq_zero_iff.mp (by omega)
    have hrest : rest = [] := List.length_eq_zero_iff.mp (by omega)
    have hdone : w.done = false := by
      cases hd : w.done with
      | false => rfl
      | true => rw [hd] at t1; simp at t1
    have hr : msg.2 - 1 = i := by
      have := t2 msg (by simp)
      omega
    -- the worker that has asked gets an answer
    have hset : ∀ g : α × List Nat, (s.workers.set i { w with up := rest }).modify (msg.2 - 1)
        (fun w => { w with down := w.down ++ [g] }) = s.workers.set i { w with up := rest, down := [g] } := by
      intro g
      rw [hr, modify_set_self]
      simp [hdown]
    have hnew : ∀ g : α × List Nat, ∀ (j : Nat) u,
        (s.workers.set i { w with up := rest, down := [g] })[j]? = some u →
        u.up.length + u.down.length + (if u.done then 1 else 0) = 1 ∧ ∀ x ∈ u.up, x.2 = j + 1 := by
      intro g j u hu
      by_cases hij : i = j
      · subst hij
        rw [List.getElem?_set_self hil] at hu
        cases hu
        simp [hrest, hdone]
      · rw [List.getElem?_set_ne hij] at hu
        exact h.tok j u hu
    have hsum : ∀ g : α × List Nat,
        ((s.workers.set i { w with up := rest, down := [g] }).mapIdx fun _ w => DWorker.pending w).sum =
        (s.workers.mapIdx fun _ w => DWorker.pending w).sum + 1 := by
      intro g
      have := sum_mapIdx_set (fun _ w => DWorker.pending w) s.workers i w { w with up := rest, down := [g] } a1
      simp only [DWorker.pending, hdown, List.length_nil, List.length_cons] at this ⊢
      omega
    unfold DSys.handle at a3
    simp only at a3
    have hc := h.count
    obtain ⟨w1, w2, w3⟩ := h.wait
    cases hcur : s.current with
    | some p =>
      rw [hcur] at a3
      have hcok := h.cur
      rw [hcur] at hcok
      obtain ⟨next, n1, n2, -⟩ := hcok.advance (r := msg.2)
      simp only [n1, rm_bind_ok, rm_pure, hset] at a3
      cases a3
      have hp := (hcok.next p rfl).1
      have hw0 : s.waiting = 0 := by
        by_contra h0
        have := w3 (by omega)
        rw [hcur] at this
        cases this
      refine ⟨by simp [h.len], hnew _, n2, ⟨w1, ?_, ?_⟩, ?_⟩
      · simp only
        rw [handed_append hp.ne]
        simp only [List.length_append, List.length_cons, List.length_nil]
        omega
      · intro h1
        simp only at h1
        omega
      · simp only [hsum, List.length_append, List.length_cons, List.length_nil]
        omega
    | none =>
      rw [hcur] at a3
      simp only [rm_pure, hset] at a3
      cases a3
      have hh : handed (s.log ++ [(msg.2, [0, 0, 0])]) = handed s.log := by
        simp [handed]
      have hcok := h.cur
      rw [hcur] at hcok
      have hlen := h.len
      refine ⟨by simp [h.len], hnew _, ?_, ⟨by simp only; omega, ?_, fun _ => rfl⟩, ?_⟩
      · exact ⟨by rw [hh]; exact hcok.sorted, by rw [hh]; exact hcok.valid, (fun p e => nomatch e),
          fun l h1 h2 _ => by rw [hh]; exact hcok.complete l h1 h2 (fun p e => nomatch e)⟩
      · simp only [hh, List.length_append, List.length_cons, List.length_nil]
        omega
      · simp only [hsum, List.length_append, List.length_cons, List.length_nil]
        omega

/-- **C124, dynamic distribution.** With `n` cities and `nW` workers every complete run of the dynamic solver has the
same number of steps, in every arithmetic, for all costs and message orders: `(n - 1) * ((n - 1) * (n - 2) - 1)`
prefixes are handed out and `nW` workers are released, and every one of these messages is sent in answer to a
request and received. -/
theorem C124_dynamic {m : Mat α} (hn : 4 ≤ m.dim) {nW : Nat} (h1 : 1 ≤ nW) {k : Nat} {s : DSys α}
    (hs : Steps (DStep m) k (initDynamic nW) s) (hf : s.final) :
    ((s.log.map Prod.snd).filter fun p => p != [0, 0, 0]).length = (m.dim - 1) * ((m.dim - 1) * (m.dim - 2) - 1) ∧
    s.log.length = (m.dim - 1) * ((m.dim - 1) * (m.dim - 2) - 1) + nW ∧
    k = 2 * ((m.dim - 1) * ((m.dim - 1) * (m.dim - 2) - 1) + nW) := by
  have inv : ∀ {k s}, Steps (DStep m) k (initDynamic nW) s → DTok m.dim nW k s := by
    intro k s hs
    generalize h0 : (initDynamic nW : DSys α) = s0 at hs
    induction hs with
    | refl => subst h0; exact dtok_init hn
    | tail _ h2 ih => exact dtok_step (ih h0) h2
  have h := inv hs
  obtain ⟨f1, f2⟩ := hf
  obtain ⟨w1, w2, w3⟩ := h.wait
  have hlen := h.len
  have hcur := w3 (by omega)
  have hcok := h.cur
  rw [hcur] at hcok
  have hperm : (handed s.log).Perm (offers m.dim) := by
    rw [List.perm_ext_iff_of_nodup]
    · intro p
      rw [mem_offers hn]
      exact ⟨hcok.valid p, fun hp => hcok.complete p hp.1 hp.2 (by intro p e; cases e)⟩
    · exact hcok.sorted.imp fun hlt e => by rw [e] at hlt; exact lt_irrefl _ hlt
    · exact offers_nodup _
  have hP : (handed s.log).length = (m.dim - 1) * ((m.dim - 1) * (m.dim - 2) - 1) := by
    rw [hperm.length_eq, offers_length hn]
  have hpend : (s.workers.mapIdx fun _ w => DWorker.pending w).sum = 0 := by
    rw [List.sum_eq_zero_iff]
    intro x hx
    rw [List.mem_mapIdx] at hx
    obtain ⟨i, hi, rfl⟩ := hx
    have hd := f2 _ (List.getElem_mem hi)
    have := (h.tok i _ (List.getElem?_eq_getElem hi)).1
    rw [hd] at this
    simp only [if_true] at this
    unfold DWorker.pending
    omega
  have hc := h.count
  rw [hpend] at hc
  refine ⟨hP, by omega, by omega⟩

end dynamic

/-! ## The static solver -/

section static
variable {K : Type} [Field K] [LinearOrder K] [IsStrictOrderedRing K]

/-- the three base-`n` digits of `x` are different -/
def distinct3 (n x : Nat) : Bool :=
  decide (x / n ^ 2 ≠ x / n % n ∧ x / n ^ 2 ≠ x % n ∧ x / n % n ≠ x % n)

theorem distinct3_iff {n : Nat} {l : List Nat} (hl : l.length = 3) (hv : ValidDigits n l) :
    distinct3 n (digitsVal n l) = isUnique l := by
  rcases l with _ | ⟨a, _ | ⟨b, _ | ⟨c, _ | ⟨d, t⟩⟩⟩⟩
  · simp at hl
  · simp at hl
  · simp at hl
  · have ha := hv a (by simp)
    have hb := hv b (by simp)
    have hc := hv c (by simp)
    have e : digitsVal n [a, b, c] = c + n * (b + n * a) := by
      rw [val3]
      ring
    have e1 : (c + n * (b + n * a)) % n = c := by
      rw [Nat.add_mul_mod_self_left, Nat.mod_eq_of_lt hc]
    have e2 : (c + n * (b + n * a)) / n = b + n * a := by
      rw [Nat.add_mul_div_left _ _ (by omega), Nat.div_eq_of_lt hc]
      omega
    have e3 : (b + n * a) % n = b := by
      rw [Nat.add_mul_mod_self_left, Nat.mod_eq_of_lt hb]
    have e4 : (c + n * (b + n * a)) / n ^ 2 = a := by
      rw [pow_two, ← Nat.div_div_eq_div_mul, e2, Nat.add_mul_div_left _ _ (by omega), Nat.div_eq_of_lt hb]
      omega
    rw [Bool.eq_iff_iff, isUnique_iff, distinct3, decide_eq_true_eq, e, e1, e2, e3, e4]
    simp
    tauto
  · simp at hl

/-- how many of `lo + 1, …, v` have different digits -/
def between (n lo v : Nat) : Nat := (List.range' (lo + 1) (v - lo)).countP (distinct3 n)

theorem between_succ {n lo v : Nat} (h : lo ≤ v) :
    between n lo (v + 1) = between n lo v + if distinct3 n (v + 1) then 1 else 0 := by
  unfold between
  rw [show v + 1 - lo = (v - lo) + 1 by omega, List.range'_concat, List.countP_append, List.countP_singleton,
    show lo + 1 + 1 * (v - lo) = v + 1 by omega]

/-- the steps of a worker with boundaries `lo` and `hi` that are done when its messages in transit have been
received -/
def spent (n lo hi : Nat) (w : SWorker (XNum K)) : Nat :=
  match w.phase with
  | .done => (hi - lo) + 2 * between n lo (hi - 1) + 1
  | _ => (digitsVal n w.digits - lo) + 2 * between n lo (digitsVal n w.digits)

/-- the steps due to the messages in transit -/
def transit (w : SWorker (XNum K)) : Nat :=
  match w.phase with
  | .done => w.up.length
  | _ => 2 * w.up.length + w.down.length

variable {N : Nat} {S : XNum K → List Nat → RM (Solution (XNum K))} {V : List Nat → K → Prop}
  {A : K → List Nat → List Nat → Prop}

theorem spent_round {lo hi rank : Nat} {win : XNum K} {w w' : SWorker (XNum K)} (hlt : lo < hi)
    (h : WInv N V A 3 lo hi rank win w) (hp : w.phase = .work) (hr : workerRoundG N S rank w = .ok w') :
    spent N lo hi w' + transit w = spent N lo hi w + transit w' + 1 := by
  obtain ⟨hup, hdown⟩ : w.up = [] ∧ w.down = [] := by
    cases h.shape with
    | work h1 h2 h3 => exact ⟨h2, h3⟩
    | sent h1 h2 h3 => rw [hp] at h1; cases h1
    | answered g h1 h2 h3 h4 h5 h6 => rw [hp] at h1; cases h1
    | stuck h1 h2 h3 h4 => rw [hp] at h1; cases h1
    | leaving h1 h2 h3 => rw [hp] at h1; cases h1
    | left h1 h2 h3 => rw [hp] at h1; cases h1
  obtain ⟨hpos1, hpos2⟩ := h.pos (by rw [hp]; simp)
  have hhi : hi < N ^ 3 := by
    have := digitsVal_lt h.mvalid
    rwa [h.mlen, h.mval] at this
  unfold workerRoundG at hr
  obtain ⟨l, e1, e2, e3 | e3⟩ := getNextValue_ok h.valid
  · obtain ⟨_, e4, e5⟩ := e3
    have hl : l.length = 3 := by rw [e1, h.len]
    simp only [e4, rm_bind_ok] at hr
    by_cases hmax : l = w.maxDigits
    · rw [if_pos hmax] at hr
      cases hr
      have hv : digitsVal N l = hi := by rw [hmax, h.mval]
      simp only [spent, transit, hp, hup, hdown, List.nil_append, List.length_cons, List.length_nil]
      rw [show hi - 1 = digitsVal N w.digits by omega]
      omega
    · rw [if_neg hmax] at hr
      have hb := between_succ (n := N) hpos1
      rw [← e5, distinct3_iff hl e2] at hb
      by_cases hu : isUnique l = true
      · rw [if_pos hu] at hr
        rw [if_pos hu] at hb
        cases hs : S w.global l with
        | error e => rw [hs] at hr; cases hr
        | ok r =>
          rw [hs] at hr
          cases hr
          simp only [spent, transit, hp, hup, hdown, List.nil_append, List.length_cons, List.length_nil]
          omega
      · rw [if_neg hu] at hr
        rw [if_neg hu] at hb
        cases hr
        simp only [spent, transit, hp, hup, hdown, List.length_nil]
        omega
  · obtain ⟨e4, e5⟩ := e3
    rw [h.len] at e4
    omega

theorem spent_step {nW : Nat} {lo hi : Nat → Nat} {s s' : SSys (XNum K)}
    (hlt : ∀ i < nW, lo i < hi i) (hnn : ∀ q w, IsTour N q → V q w → 0 ≤ w)
    (h : SInv N V A 3 lo hi nW s) (hs : SStepG N S s s') :
    (s'.workers.mapIdx fun i w => spent N (lo i) (hi i) w).sum + (s.workers.mapIdx fun _ w => transit w).sum =
    (s.workers.mapIdx fun i w => spent N (lo i) (hi i) w).sum + (s'.workers.mapIdx fun _ w => transit w).sum + 1 := by
  have key : ∀ {i : Nat} {w w' : SWorker (XNum K)}, s.workers[i]? = some w →
      spent N (lo i) (hi i) w' + transit w = spent N (lo i) (hi i) w + transit w' + 1 →
      ((s.workers.set i w').mapIdx fun i w => spent N (lo i) (hi i) w).sum +
        (s.workers.mapIdx fun _ w => transit w).sum =
      (s.workers.mapIdx fun i w => spent N (lo i) (hi i) w).sum +
        ((s.workers.set i w').mapIdx fun _ w => transit w).sum + 1 := by
    intro i w w' hw he
    have a := sum_mapIdx_set (fun i w => spent N (lo i) (hi i) w) s.workers i w w' hw
    have b := sum_mapIdx_set (fun _ w => transit w) s.workers i w w' hw
    omega
  cases hs with
  | round i w w' h1 h2 h3 =>
    have hi' : i < nW := by
      rw [← h.len]
      exact (List.getElem?_eq_some_iff.mp h1).1
    exact key h1 (spent_round (hlt i hi') (h.wk i w h1) h2 h3)
  | recv i w g rest h1 h2 h3 =>
    have hW := h.wk i w h1
    have hup : w.up = [] ∧ rest = [] := by
      cases hW.shape with
      | work h1 _ _ => rw [h2] at h1; cases h1
      | sent _ _ h4 => rw [h3] at h4; cases h4
      | answered g _ h5 h6 _ _ _ => rw [h3] at h6; cases h6; exact ⟨h5, rfl⟩
      | stuck _ _ h4 _ => rw [h3] at h4; cases h4
      | leaving h1 _ _ => rw [h2] at h1; cases h1
      | left h1 _ _ => rw [h2] at h1; cases h1
    refine key h1 ?_
    simp only [spent, transit, h2, h3, hup, List.length_cons, List.length_nil]
  | root i w msg rest h1 h2 h3 =>
    have hW := h.wk i w h2
    cases hW.shape with
    | work _ h4 _ => rw [h3] at h4; cases h4
    | answered _ _ h4 _ _ _ _ => rw [h3] at h4; cases h4
    | stuck _ h4 _ _ => rw [h3] at h4; cases h4
    | left _ h4 _ => rw [h3] at h4; cases h4
    | leaving h4 h5 h6 =>
      rw [h3] at h5
      cases h5
      have hneg : FloatOps.le (zero : XNum K) (fin (-1)) = false := by simp
      unfold SSys.handle
      simp only [hneg, Bool.false_eq_true, if_false]
      refine key h2 ?_
      simp only [spent, transit, h4, h3, List.length_cons, List.length_nil]
    | sent h4 h5 h6 =>
      rw [h3] at h5
      cases h5
      have hpos : FloatOps.le (zero : XNum K) w.sol.1 = true := by
        rcases hW.sol with e | ⟨e1, x, e2, e3⟩
        · rw [e]
          rfl
        · rw [e2]
          simpa using hnn _ _ e1 e3
      have hi' : i + 1 - 1 = i := by omega
      unfold SSys.handle
      simp only [hpos, if_true, hi', modify_set_self]
      refine key h2 ?_
      simp only [spent, transit, h4, h3, h6, List.nil_append, List.length_cons, List.length_nil]

/-- the workers at the beginning -/
theorem initStatic_workers {m : Mat (XNum K)} {nW : Nat} (h1 : 1 ≤ nW) (h2 : nW < m.dim ^ 3) {s0 : SSys (XNum K)}
    (h : initStatic m 3 nW = .ok s0) {i : Nat} {w : SWorker (XNum K)} (hw : s0.workers[i]? = some w) :
    w.phase = .work ∧ w.up = [] ∧ w.down = [] ∧ digitsVal m.dim w.digits = i * (m.dim ^ 3 / nW) := by
  have hch : ∀ i : Nat, ∃ p : List Nat × List Nat, i < nW → splitChunks 3 m.dim nW i = .ok p ∧
      digitsVal m.dim p.1 = i * (m.dim ^ 3 / nW) := by
    intro i
    by_cases hi : i < nW
    · obtain ⟨lo, hi', a1, a2, a3, a4, a5, a6, a7⟩ := C14_chunk_digits (b := m.dim) (k := 3) (by omega) h2 hi
      exact ⟨(lo, hi'), fun _ => ⟨a1, a6⟩⟩
    · exact ⟨([], []), fun h => absurd h hi⟩
  choose p hp using hch
  unfold initStatic at h
  rw [mapM_ok (g := fun i =>
    (⟨(p i).1, (p i).2, (XNum.inf, []), XNum.inf, .work, [], []⟩ : SWorker (XNum K)))] at h
  · cases h
    simp only [List.getElem?_map, Option.map_eq_some_iff] at hw
    obtain ⟨j, hj, rfl⟩ := hw
    obtain ⟨k1, k2⟩ := List.getElem?_eq_some_iff.mp hj
    rw [List.getElem_range] at k2
    rw [List.length_range] at k1
    subst k2
    exact ⟨rfl, rfl, rfl, (hp i k1).2⟩
  · intro i hi
    rw [(hp i (by simpa using hi)).1]
    rfl

theorem static_steps {m : Mat (XNum K)} (hS : MSearch m.dim S V A)
    (hnn : ∀ q w, IsTour m.dim q → V q w → 0 ≤ w) {nW : Nat} (h1 : 1 ≤ nW) (h2 : 2 * nW ≤ m.dim ^ 3)
    {s0 s : SSys (XNum K)} {k : Nat} (h0 : initStatic m 3 nW = .ok s0) (hs : Steps (SStepG m.dim S) k s0 s)
    (hf : s.final) :
    k = nW * (m.dim ^ 3 / nW) + 2 * ((List.range nW).map fun i =>
      (List.range' (i * (m.dim ^ 3 / nW) + 1) (m.dim ^ 3 / nW - 2)).countP (distinct3 m.dim)).sum := by
  have hlt3 : nW < m.dim ^ 3 := by omega
  have hdim : 0 < m.dim := by
    rcases Nat.eq_zero_or_pos m.dim with e | e
    · rw [e] at hlt3; simp at hlt3
    · exact e
  obtain ⟨q, hq⟩ : ∃ q, q = m.dim ^ 3 / nW := ⟨_, rfl⟩
  rw [← hq]
  have hq2 : 2 ≤ q := by
    rw [hq, Nat.le_div_iff_mul_le (by omega)]
    omega
  obtain ⟨s0', e1, e2⟩ := sinit_inv (V := V) (A := A) hlt3 hdim
  rw [h0] at e1
  cases e1
  have hlohi : ∀ i < nW, sLo (m.dim ^ 3) nW i < sHi (m.dim ^ 3) nW i := by
    intro i _
    simp only [sLo, sHi]
    rw [← hq]
    omega
  -- the initial state
  have hi0 : (s0.workers.mapIdx fun i w => spent m.dim (sLo (m.dim ^ 3) nW i) (sHi (m.dim ^ 3) nW i) w).sum = 0 ∧
      (s0.workers.mapIdx fun _ w => transit w).sum = 0 := by
    constructor
    · rw [List.sum_eq_zero_iff]
      intro x hx
      rw [List.mem_mapIdx] at hx
      obtain ⟨i, hi, rfl⟩ := hx
      obtain ⟨a1, a2, a3, a4⟩ := initStatic_workers h1 hlt3 h0 (List.getElem?_eq_getElem hi)
      simp only [spent, a1, a4, sLo, between, Nat.sub_self]
      simp
    · rw [List.sum_eq_zero_iff]
      intro x hx
      rw [List.mem_mapIdx] at hx
      obtain ⟨i, hi, rfl⟩ := hx
      obtain ⟨a1, a2, a3, a4⟩ := initStatic_workers h1 hlt3 h0 (List.getElem?_eq_getElem hi)
      simp only [transit, a1, a2, a3]
      simp
  have inv : ∀ {k s}, Steps (SStepG m.dim S) k s0 s →
      k + (s.workers.mapIdx fun _ w => transit w).sum =
        (s.workers.mapIdx fun i w => spent m.dim (sLo (m.dim ^ 3) nW i) (sHi (m.dim ^ 3) nW i) w).sum := by
    intro k' t ht
    clear hf hs
    induction ht with
    | refl => omega
    | tail a b ih =>
      have hI := (ssteps_inv hS hdim e2 a).1
      have := spent_step hlohi hnn hI b
      have ih := ih h0 e2 hi0
      omega
  have hI := (ssteps_inv hS hdim e2 hs).1
  have hfin := finished_all hI hnn hf.1
  have ht : (s.workers.mapIdx fun _ w => transit w).sum = 0 := by
    rw [List.sum_eq_zero_iff]
    intro x hx
    rw [List.mem_mapIdx] at hx
    obtain ⟨i, hi, rfl⟩ := hx
    obtain ⟨a1, a2, a3⟩ := hfin _ (List.getElem_mem hi)
    simp only [transit, a1, a2]
    simp
  have hk := inv hs
  rw [ht, Nat.add_zero] at hk
  rw [hk]
  have hmap : (s.workers.mapIdx fun i w => spent m.dim (sLo (m.dim ^ 3) nW i) (sHi (m.dim ^ 3) nW i) w) =
      (List.range nW).map fun i => q + 2 * (List.range' (i * q + 1) (q - 2)).countP (distinct3 m.dim) := by
    apply List.ext_getElem
    · simp [hI.len]
    · intro i k1 k2
      rw [List.getElem_mapIdx, List.getElem_map, List.getElem_range]
      have hi : i < s.workers.length := by simpa using k1
      obtain ⟨a1, -, -⟩ := hfin _ (List.getElem_mem hi)
      simp only [spent, a1, sLo, sHi, between]
      rw [← hq, show i * q + q - 1 - 1 - i * q = q - 2 by omega]
      omega
  rw [hmap]
  clear hmap hk ht hfin hI inv hi0 hlohi e2 hf hs h0 h2 h1 hlt3
  clear hq
  induction nW with
  | zero => simp
  | succ n ih =>
    rw [List.range_succ, List.map_append, List.sum_append, List.map_append, List.sum_append, ih]
    simp
    ring

/-- **C124, static distribution.** With `n` cities and `nW` workers every complete run of the static solver has the
same number of steps, for all finite non-negative costs and all message orders: with chunks of `q = n³ / nW` numbers,
`nW * q` steps (every worker goes through its chunk, and announces its end) and two more for every number with three
different digits inside of a chunk (the message with the result is received, and the answer to it). -/
theorem C124_static {m : Mat (XNum K)} {c : Nat → Nat → K} (hm : Rep m c) (hc : Nonneg m.dim c) {nW : Nat}
    (h1 : 1 ≤ nW) (h2 : 2 * nW ≤ m.dim ^ 3) {s0 s : SSys (XNum K)} {k : Nat} (h0 : initStatic m 3 nW = .ok s0)
    (hs : Steps (SStep m) k s0 s) (hf : s.final) :
    k = nW * (m.dim ^ 3 / nW) + 2 * ((List.range nW).map fun i =>
      (List.range' (i * (m.dim ^ 3 / nW) + 1) (m.dim ^ 3 / nW - 2)).countP (distinct3 m.dim)).sum := by
  have hd : 2 ≤ m.dim := by
    by_contra h
    have : m.dim = 0 ∨ m.dim = 1 := by omega
    rcases this with h | h <;> rw [h] at h2 <;> simp at h2 <;> omega
  rw [SStep_eq sameCmp_exact] at hs
  exact static_steps (searchMpi_ok hm (by omega)) (fun q w hq hw => by rw [hw]; exact tour_nonneg hd hc hq)
    h1 h2 h0 hs hf

/-- all prefixes of three different cities -/
def triples (n : Nat) : List (List Nat) :=
  (List.range n).flatMap fun a => ((List.range n).erase a).flatMap fun b =>
    (((List.range n).erase a).erase b).map fun c => [a, b, c]

theorem triples_length (n : Nat) : (triples n).length = n * (n - 1) * (n - 2) := by
  unfold triples
  rw [length_flatMap_const (k := (n - 1) * (n - 2))]
  · rw [List.length_range, Nat.mul_assoc]
  · intro a ha
    rw [length_flatMap_const (k := n - 2)]
    · rw [List.length_erase_of_mem ha, List.length_range]
    · intro b hb
      rw [List.length_map, List.length_erase_of_mem hb, List.length_erase_of_mem ha, List.length_range]
      omega

theorem mem_triples {n a b c : Nat} : [a, b, c] ∈ triples n ↔
    (a < n ∧ b < n ∧ c < n) ∧ a ≠ b ∧ a ≠ c ∧ b ≠ c := by
  simp only [triples, List.mem_flatMap, List.mem_map, List.cons.injEq, and_true,
    List.nodup_range.mem_erase_iff, (List.nodup_range.erase _).mem_erase_iff, List.mem_range]
  constructor
  · rintro ⟨a', h1, b', h2, c', h3, rfl, rfl, rfl⟩
    omega
  · rintro ⟨h1, h2⟩
    exact ⟨a, by omega, b, by omega, c, by omega, rfl, rfl, rfl⟩

theorem countP_distinct3 (n : Nat) : (List.range (n ^ 3)).countP (distinct3 n) ≤ n * (n - 1) * (n - 2) := by
  rw [List.countP_eq_length_filter, ← triples_length]
  have hsub : (List.range (n ^ 3)).filter (distinct3 n) ⊆ (triples n).map (digitsVal n) := by
    intro x hx
    rw [List.mem_filter, List.mem_range] at hx
    obtain ⟨hx, hd⟩ := hx
    have hn : 0 < n := by
      rcases Nat.eq_zero_or_pos n with rfl | h
      · simp at hx
      · exact h
    simp only [distinct3, decide_eq_true_eq] at hd
    rw [List.mem_map]
    refine ⟨[x / n ^ 2, x / n % n, x % n], mem_triples.mpr ⟨⟨?_, Nat.mod_lt _ hn, Nat.mod_lt _ hn⟩, hd⟩, ?_⟩
    · rw [Nat.div_lt_iff_lt_mul (by positivity)]
      calc x < n ^ 3 := hx
        _ = n * n ^ 2 := by ring
    · rw [val3]
      have e1 := Nat.div_add_mod x n
      have e2 := Nat.div_add_mod (x / n) n
      rw [Nat.div_div_eq_div_mul, ← pow_two] at e2
      calc x / n ^ 2 * n ^ 2 + x / n % n * n + x % n = n * (n * (x / n ^ 2) + x / n % n) + x % n := by ring
        _ = x := by rw [e2, e1]
  have := (List.subperm_of_subset (List.nodup_range.filter _) hsub).length_le
  rwa [List.length_map] at this

theorem countP_chunks (p : Nat → Bool) (q k : Nat) :
    ((List.range k).map fun i => (List.range' (i * q + 1) (q - 2)).countP p).sum ≤ (List.range (k * q)).countP p := by
  induction k with
  | zero => simp
  | succ k ih =>
    have hr : List.range ((k + 1) * q) = List.range (k * q) ++ List.range' (k * q) q := by
      have := List.range'_append_1 (s := 0) (m := k * q) (n := q)
      rw [Nat.zero_add] at this
      rw [List.range_eq_range', List.range_eq_range', Nat.add_mul, Nat.one_mul, ← this]
    rw [List.range_succ, List.map_append, List.sum_append, hr, List.countP_append]
    simp only [List.map_cons, List.map_nil, List.sum_cons, List.sum_nil, Nat.add_zero]
    refine Nat.add_le_add ih ?_
    apply List.Sublist.countP_le
    rcases Nat.lt_or_ge q 2 with h | h
    · rw [show q - 2 = 0 by omega]
      simp
    · obtain ⟨r, rfl⟩ : ∃ r, q = r + 2 := ⟨q - 2, by omega⟩
      rw [show r + 2 - 2 = r by omega, show r + 2 = 1 + (r + 1) by omega, ← List.range'_append_1,
        ← List.range'_append_1]
      exact (List.sublist_append_left _ _).trans (List.sublist_append_right _ _)

/-- **C124, static distribution, bound.** At most `n³` rounds and `2 n (n - 1) (n - 2)` messages with costs. -/
theorem C124_static_bound {m : Mat (XNum K)} {c : Nat → Nat → K} (hm : Rep m c) (hc : Nonneg m.dim c) {nW : Nat}
    (h1 : 1 ≤ nW) (h2 : 2 * nW ≤ m.dim ^ 3) {s0 s : SSys (XNum K)} {k : Nat} (h0 : initStatic m 3 nW = .ok s0)
    (hs : Steps (SStep m) k s0 s) (hf : s.final) :
    k ≤ m.dim ^ 3 + 2 * (m.dim * (m.dim - 1) * (m.dim - 2)) := by
  rw [C124_static hm hc h1 h2 h0 hs hf]
  have a := countP_chunks (distinct3 m.dim) (m.dim ^ 3 / nW) nW
  have b := countP_distinct3 m.dim
  have hle : nW * (m.dim ^ 3 / nW) ≤ m.dim ^ 3 := Nat.mul_div_le _ _
  have d : (List.range (nW * (m.dim ^ 3 / nW))).countP (distinct3 m.dim) ≤
      (List.range (m.dim ^ 3)).countP (distinct3 m.dim) :=
    List.Sublist.countP_le (List.range_sublist.mpr hle)
  omega

end static

/-- four cities, three workers: 15 prefixes are handed out in 36 steps, whatever the order of the messages -/
example {k : Nat} {s : DSys (XNum ℚ)} (hs : Steps (DStep Ex.m4) k (initDynamic 3) s) (hf : s.final) :
    s.log.length = 18 ∧ k = 36 :=
  (C124_dynamic (m := Ex.m4) (by decide) (by decide) hs hf).2

/-- such a run exists -/
example : ∃ k s, Steps (DStep Ex.m4) k (initDynamic 3) s ∧ s.final :=
  (C24_dynamic_handout Ex.rep4 (by decide) (by decide)).1

/-- the static solver on the same cities: `4³ + 2 * 24 = 112` steps with one worker; with three workers the chunks have
21 numbers, one number is in no chunk, and none of the 24 prefixes is at a boundary -/
example {k : Nat} {s0 s : SSys (XNum ℚ)} (h0 : initStatic Ex.m4 3 1 = .ok s0) (hs : Steps (SStep Ex.m4) k s0 s)
    (hf : s.final) : k = 112 :=
  (C124_static Ex.rep4 Ex.nonneg4 (by decide) (by decide) h0 hs hf).trans (by decide +kernel)

example {k : Nat} {s0 s : SSys (XNum ℚ)} (h0 : initStatic Ex.m4 3 3 = .ok s0) (hs : Steps (SStep Ex.m4) k s0 s)
    (hf : s.final) : k = 111 :=
  (C124_static Ex.rep4 Ex.nonneg4 (by decide) (by decide) h0 hs hf).trans (by decide +kernel)

end Walky.Props
