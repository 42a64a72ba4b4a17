import Verif.Props.Traffic
import Verif.Props.RobustStatic

/-! # C124: the number of messages of the static solver does not depend on the rounding, nor on infinite costs -/

namespace Walky.Props

open FloatOps XNum Spec

namespace StaticAny

section
variable {K : Type} [Field K] [LinearOrder K] [IsStrictOrderedRing K]
  {N : Nat} {S : XNum K → List Nat → RM (Solution (XNum K))} {V : List Nat → K → Prop}

/-- a worker is inside of its chunk -/
structure Bnd (N lo hi : Nat) (w : SWorker (XNum K)) : Prop where
  mlen : w.maxDigits.length = 3
  mvalid : ValidDigits N w.maxDigits
  mval : digitsVal N w.maxDigits = hi
  pos : w.phase ≠ .done → lo ≤ digitsVal N w.digits ∧ digitsVal N w.digits < hi

omit [IsStrictOrderedRing K] in
theorem spent_round {lo hi rank : Nat} {win : XNum K} {w w' : SWorker (XNum K)}
    (h : WAny N V 3 rank win w) (hb : Bnd N lo hi w) (hp : w.phase = .work)
    (hr : workerRoundG N S rank w = .ok w') :
    Bnd N lo hi w' ∧ spent N lo hi w' + transit w = spent N lo hi w + transit w' + 1 := by
  obtain ⟨hup, hdown⟩ : w.up = [] ∧ w.down = [] := by
    cases h.shape with
    | work h1 h2 h3 => exact ⟨h2, h3⟩
    | sent h1 h2 h3 => rw [hp] at h1; cases h1
    | answered g h1 h2 h3 h4 => rw [hp] at h1; cases h1
    | leaving h1 h2 h3 => rw [hp] at h1; cases h1
    | left h1 h2 h3 => rw [hp] at h1; cases h1
  obtain ⟨hpos1, hpos2⟩ := hb.pos (by rw [hp]; simp)
  have hhi : hi < N ^ 3 := by
    have := digitsVal_lt hb.mvalid
    rwa [hb.mlen, hb.mval] at this
  unfold workerRoundG at hr
  obtain ⟨l, e1, e2, e3 | e3⟩ := getNextValue_ok h.valid
  · obtain ⟨_, e4, e5⟩ := e3
    have hl : l.length = 3 := by rw [e1, h.len]
    simp only [e4, rm_bind_ok] at hr
    by_cases hmax : l = w.maxDigits
    · rw [if_pos hmax] at hr
      cases hr
      refine ⟨⟨hb.mlen, hb.mvalid, hb.mval, fun h => absurd rfl h⟩, ?_⟩
      have hv : digitsVal N l = hi := by rw [hmax, hb.mval]
      simp only [spent, transit, hp, hup, hdown, List.nil_append, List.length_cons, List.length_nil]
      rw [show hi - 1 = digitsVal N w.digits by omega]
      omega
    · rw [if_neg hmax] at hr
      have hne : digitsVal N l ≠ hi := by
        intro e
        rw [← hb.mval] at e
        exact hmax (digitsVal_inj (by rw [hl, hb.mlen]) e2 hb.mvalid e)
      have hbt := between_succ (n := N) hpos1
      rw [← e5, distinct3_iff hl e2] at hbt
      by_cases hu : isUnique l = true
      · rw [if_pos hu] at hr
        rw [if_pos hu] at hbt
        cases hs : S w.global l with
        | error e => rw [hs] at hr; cases hr
        | ok r =>
          rw [hs] at hr
          cases hr
          refine ⟨⟨hb.mlen, hb.mvalid, hb.mval, fun _ => ⟨by simp only; omega, by simp only; omega⟩⟩, ?_⟩
          simp only [spent, transit, hp, hup, hdown, List.nil_append, List.length_cons, List.length_nil]
          omega
      · rw [if_neg hu] at hr
        rw [if_neg hu] at hbt
        cases hr
        refine ⟨⟨hb.mlen, hb.mvalid, hb.mval, fun _ => ⟨by simp only; omega, by simp only; omega⟩⟩, ?_⟩
        simp only [spent, transit, hp, hup, hdown, List.length_nil]
        omega
  · obtain ⟨e4, e5⟩ := e3
    rw [h.len] at e4
    omega

theorem spent_step {nW : Nat} {lo hi : Nat → Nat} {s s' : SSys (XNum K)} (hnn : ∀ q w, V q w → 0 ≤ w)
    (h : SAny N V 3 nW s) (hb : ∀ i w, s.workers[i]? = some w → Bnd N (lo i) (hi i) w) (hs : SStepG N S s s') :
    (∀ i w, s'.workers[i]? = some w → Bnd N (lo i) (hi i) w) ∧
    (s'.workers.mapIdx fun i w => spent N (lo i) (hi i) w).sum + (s.workers.mapIdx fun _ w => transit w).sum =
    (s.workers.mapIdx fun i w => spent N (lo i) (hi i) w).sum + (s'.workers.mapIdx fun _ w => transit w).sum + 1 := by
  have key : ∀ {i : Nat} {w w' : SWorker (XNum K)}, s.workers[i]? = some w → Bnd N (lo i) (hi i) w' →
      spent N (lo i) (hi i) w' + transit w = spent N (lo i) (hi i) w + transit w' + 1 →
      (∀ j u, (s.workers.set i w')[j]? = some u → Bnd N (lo j) (hi j) u) ∧
      ((s.workers.set i w').mapIdx fun i w => spent N (lo i) (hi i) w).sum +
        (s.workers.mapIdx fun _ w => transit w).sum =
      (s.workers.mapIdx fun i w => spent N (lo i) (hi i) w).sum +
        ((s.workers.set i w').mapIdx fun _ w => transit w).sum + 1 := by
    intro i w w' hw hw' he
    have a := sum_mapIdx_set (fun i w => spent N (lo i) (hi i) w) s.workers i w w' hw
    have b := sum_mapIdx_set (fun _ w => transit w) s.workers i w w' hw
    refine ⟨?_, by omega⟩
    intro j u hu
    by_cases hij : i = j
    · subst hij
      rw [List.getElem?_set_self (List.getElem?_eq_some_iff.mp hw).1] at hu
      cases hu
      exact hw'
    · rw [List.getElem?_set_ne hij] at hu
      exact hb j u hu
  cases hs with
  | round i w w' h1 h2 h3 =>
    obtain ⟨a, b⟩ := spent_round (h.wk i w h1) (hb i w h1) h2 h3
    exact key h1 a b
  | recv i w g rest h1 h2 h3 =>
    have hW := h.wk i w h1
    have hup : w.up = [] ∧ rest = [] := by
      cases hW.shape with
      | work h1 _ _ => rw [h2] at h1; cases h1
      | sent _ _ h4 => rw [h3] at h4; cases h4
      | answered g _ h5 h6 _ => rw [h3] at h6; cases h6; exact ⟨h5, rfl⟩
      | leaving h1 _ _ => rw [h2] at h1; cases h1
      | left h1 _ _ => rw [h2] at h1; cases h1
    have hB := hb i w h1
    refine key h1 ⟨hB.mlen, hB.mvalid, hB.mval, fun _ => hB.pos (by rw [h2]; simp)⟩ ?_
    simp only [spent, transit, h2, h3, hup, List.length_cons, List.length_nil]
  | root i w msg rest h1 h2 h3 =>
    have hW := h.wk i w h2
    have hB := hb i w h2
    cases hW.shape with
    | work _ h4 _ => rw [h3] at h4; cases h4
    | answered _ _ h4 _ _ => rw [h3] at h4; cases h4
    | left _ h4 _ => rw [h3] at h4; cases h4
    | leaving h4 h5 h6 =>
      rw [h3] at h5
      cases h5
      have hneg : FloatOps.le (zero : XNum K) (XNum.fin (-1)) = false := by simp
      unfold SSys.handle
      simp only [hneg, Bool.false_eq_true, if_false]
      refine key h2 ⟨hB.mlen, hB.mvalid, hB.mval, hB.pos⟩ ?_
      simp only [spent, transit, h4, h3, List.length_cons, List.length_nil]
    | sent h4 h5 h6 =>
      rw [h3] at h5
      cases h5
      have hpos := notNeg_sol hnn hW.sol
      have hi' : i + 1 - 1 = i := by omega
      unfold SSys.handle
      simp only [hpos, if_true, hi', modify_set_self]
      refine key h2 ⟨hB.mlen, hB.mvalid, hB.mval, hB.pos⟩ ?_
      simp only [spent, transit, h4, h3, h6, List.nil_append, List.length_cons, List.length_nil]

omit [IsStrictOrderedRing K] in
/-- the boundaries at the beginning -/
theorem init_bnd {m : Mat (XNum K)} {nW : Nat} (h1 : 1 ≤ nW) (h2 : 2 * nW ≤ m.dim ^ 3) {s0 : SSys (XNum K)}
    (h : initStatic m 3 nW = .ok s0) {i : Nat} {w : SWorker (XNum K)} (hw : s0.workers[i]? = some w) :
    Bnd m.dim (i * (m.dim ^ 3 / nW)) (i * (m.dim ^ 3 / nW) + m.dim ^ 3 / nW - 1) w := by
  have hq : 2 ≤ m.dim ^ 3 / nW := by
    rw [Nat.le_div_iff_mul_le (by omega)]
    omega
  have hlt : nW < m.dim ^ 3 := by omega
  have hch : ∀ i : Nat, ∃ p : List Nat × List Nat, i < nW → splitChunks 3 m.dim nW i = .ok p ∧
      p.2.length = 3 ∧ ValidDigits m.dim p.2 ∧ digitsVal m.dim p.1 = i * (m.dim ^ 3 / nW) ∧
      digitsVal m.dim p.2 + 1 = (i + 1) * (m.dim ^ 3 / nW) := by
    intro i
    by_cases hi : i < nW
    · obtain ⟨lo, hi', a1, a2, a3, a4, a5, a6, a7⟩ := C14_chunk_digits (b := m.dim) (k := 3) (by omega) hlt hi
      exact ⟨(lo, hi'), fun _ => ⟨a1, a3, a5, a6, a7⟩⟩
    · exact ⟨([], []), fun h => absurd h hi⟩
  choose p hp using hch
  unfold initStatic at h
  rw [mapM_ok (g := fun i =>
    (⟨(p i).1, (p i).2, (XNum.inf, []), XNum.inf, .work, [], []⟩ : SWorker (XNum K)))] at h
  · cases h
    simp only [List.getElem?_map, Option.map_eq_some_iff] at hw
    obtain ⟨j, hj, rfl⟩ := hw
    obtain ⟨k1, k2⟩ := List.getElem?_eq_some_iff.mp hj
    rw [List.getElem_range] at k2
    rw [List.length_range] at k1
    subst k2
    obtain ⟨-, c1, c2, c3, c4⟩ := hp i k1
    rw [Nat.succ_mul] at c4
    exact ⟨c1, c2, by simp only; omega, fun _ => ⟨by simp only; omega, by simp only; omega⟩⟩
  · intro i hi
    rw [(hp i (by simpa using hi)).1]
    rfl

theorem static_steps {m : Mat (XNum K)} (hS : Search m.dim S V) (hnn : ∀ q w, V q w → 0 ≤ w) {nW : Nat} (h1 : 1 ≤ nW)
    (h2 : 2 * nW ≤ m.dim ^ 3) {s0 s : SSys (XNum K)} {k : Nat} (h0 : initStatic m 3 nW = .ok s0)
    (hs : Steps (SStepG m.dim S) k s0 s) (hf : s.final) :
    k = nW * (m.dim ^ 3 / nW) + 2 * ((List.range nW).map fun i =>
      (List.range' (i * (m.dim ^ 3 / nW) + 1) (m.dim ^ 3 / nW - 2)).countP (distinct3 m.dim)).sum := by
  have hlt3 : nW < m.dim ^ 3 := by omega
  have hdim : 0 < m.dim := by
    rcases Nat.eq_zero_or_pos m.dim with e | e
    · rw [e] at hlt3; simp at hlt3
    · exact e
  obtain ⟨q, hq⟩ : ∃ q, q = m.dim ^ 3 / nW := ⟨_, rfl⟩
  have hq2 : 2 ≤ q := by
    rw [hq, Nat.le_div_iff_mul_le (by omega)]
    omega
  obtain ⟨s0', e1, e2⟩ := init (V := V) (k := 3) hlt3 hdim
  rw [h0] at e1
  cases e1
  have hb0 : ∀ i w, s0.workers[i]? = some w → Bnd m.dim (i * q) (i * q + q - 1) w := by
    intro i w hw
    rw [hq]
    exact init_bnd h1 h2 h0 hw
  rw [← hq]
  -- the initial state
  have hi0 : (s0.workers.mapIdx fun i w => spent m.dim (i * q) (i * q + q - 1) w).sum = 0 ∧
      (s0.workers.mapIdx fun _ w => transit w).sum = 0 := by
    constructor
    · rw [List.sum_eq_zero_iff]
      intro x hx
      rw [List.mem_mapIdx] at hx
      obtain ⟨i, hi, rfl⟩ := hx
      obtain ⟨a1, a2, a3, a4⟩ := initStatic_workers h1 hlt3 h0 (List.getElem?_eq_getElem hi)
      rw [← hq] at a4
      simp only [spent, a1, a4, between, Nat.sub_self]
      simp
    · rw [List.sum_eq_zero_iff]
      intro x hx
      rw [List.mem_mapIdx] at hx
      obtain ⟨i, hi, rfl⟩ := hx
      obtain ⟨a1, a2, a3, a4⟩ := initStatic_workers h1 hlt3 h0 (List.getElem?_eq_getElem hi)
      simp only [transit, a1, a2, a3]
      simp
  have inv : ∀ {k s}, Steps (SStepG m.dim S) k s0 s →
      (∀ i w, s.workers[i]? = some w → Bnd m.dim (i * q) (i * q + q - 1) w) ∧
      k + (s.workers.mapIdx fun _ w => transit w).sum =
        (s.workers.mapIdx fun i w => spent m.dim (i * q) (i * q + q - 1) w).sum := by
    intro k' t ht
    clear hf hs
    induction ht with
    | refl => exact ⟨hb0, by omega⟩
    | tail a b ih =>
      obtain ⟨ih1, ih2⟩ := ih h0 e2 hb0 hi0
      obtain ⟨c1, c2⟩ := spent_step (lo := fun i => i * q) (hi := fun i => i * q + q - 1) hnn
        (steps hS hnn hdim e2 a).1 ih1 b
      refine ⟨c1, ?_⟩
      simp only at c2
      omega
  have hI := (steps hS hnn hdim e2 hs).1
  have hfin : ∀ w ∈ s.workers, w.phase = .done ∧ w.up = [] ∧ w.down = [] := by
    have hle : s.workers.countP SWorker.counted ≤ s.workers.length := List.countP_le_length
    have hc : s.workers.countP SWorker.counted = s.workers.length := by
      have := hf.1
      rw [hI.fin] at this
      omega
    rw [List.countP_eq_length] at hc
    intro w hw
    have := hc w hw
    simp only [SWorker.counted, Bool.and_eq_true, List.isEmpty_iff] at this
    exact ⟨hf.2 w hw, this.1.2, this.2⟩
  have ht : (s.workers.mapIdx fun _ w => transit w).sum = 0 := by
    rw [List.sum_eq_zero_iff]
    intro x hx
    rw [List.mem_mapIdx] at hx
    obtain ⟨i, hi, rfl⟩ := hx
    obtain ⟨a1, a2, a3⟩ := hfin _ (List.getElem_mem hi)
    simp only [transit, a1, a2]
    simp
  have hk := (inv hs).2
  rw [ht, Nat.add_zero] at hk
  rw [hk]
  have hmap : (s.workers.mapIdx fun i w => spent m.dim (i * q) (i * q + q - 1) w) =
      (List.range nW).map fun i => q + 2 * (List.range' (i * q + 1) (q - 2)).countP (distinct3 m.dim) := by
    apply List.ext_getElem
    · simp [hI.len]
    · intro i k1 k2
      rw [List.getElem_mapIdx, List.getElem_map, List.getElem_range]
      have hi : i < s.workers.length := by simpa using k1
      obtain ⟨a1, -, -⟩ := hfin _ (List.getElem_mem hi)
      simp only [spent, a1, between]
      rw [show i * q + q - 1 - 1 - i * q = q - 2 by omega]
      omega
  rw [hmap]
  clear hmap hk ht hfin hI inv hi0 hb0 e2 hf hs h0 h2 h1 hlt3
  clear hq
  induction nW with
  | zero => simp
  | succ n ih =>
    rw [List.range_succ, List.map_append, List.sum_append, List.map_append, List.sum_append, ih]
    simp
    ring

end

end StaticAny

section
variable {K : Type} [Field K] [LinearOrder K] [IsStrictOrderedRing K] {R : Rounding K} {D : K → Prop}

/-- **C124, static distribution, any rounding.** The number of steps in `C124_static` is the same however sums are
rounded, and also if some or all costs are infinite. -/
theorem C124_static_any (hF : R.Floors D) (hD : D 0) {m : Mat (XNum K)}
    (hm : ∀ i j, i < m.dim → j < m.dim → i ≠ j → m.get i j = .inf ∨ ∃ w, m.get i j = .fin w ∧ D w ∧ 0 ≤ w) {nW : Nat}
    (h1 : 1 ≤ nW) (h2 : 2 * nW ≤ m.dim ^ 3) {s0 s : SSys (XNum K)} {k : Nat}
    (h0 : @initStatic _ R.ops m 3 nW = .ok s0) (hs : Steps (@SStep _ R.ops m) k s0 s) (hf : s.final) :
    k = nW * (m.dim ^ 3 / nW) + 2 * ((List.range nW).map fun i =>
      (List.range' (i * (m.dim ^ 3 / nW) + 1) (m.dim ^ 3 / nW - 2)).countP (distinct3 m.dim)).sum ∧
    k ≤ m.dim ^ 3 + 2 * (m.dim * (m.dim - 1) * (m.dim - 2)) := by
  have hd : 2 ≤ m.dim := by
    by_contra h
    have : m.dim = 0 ∨ m.dim = 1 := by omega
    rcases this with h | h <;> rw [h] at h2 <;> simp at h2 <;> omega
  have hS : StaticAny.Search m.dim (@searchMpi _ R.ops m) (fun q v => 0 ≤ v ∧ FiniteTour m q) := by
    intro g pre hp
    obtain ⟨r, h1, h2⟩ := searchMpi_pos hF hD hm hd g hp
    refine ⟨r, h1, ?_⟩
    rcases h2 with h2 | ⟨h2, -, ⟨v, h3, h4⟩, h5⟩
    · exact Or.inl h2
    · exact Or.inr ⟨h2, v, h3, h4, h5⟩
  rw [initStatic_eq (sameCmp_ops R)] at h0
  rw [SStep_eq (sameCmp_ops R)] at hs
  have e := StaticAny.static_steps hS (fun _ _ h => h.1) h1 h2 h0 hs hf
  refine ⟨e, ?_⟩
  have a := countP_chunks (distinct3 m.dim) (m.dim ^ 3 / nW) nW
  have b := countP_distinct3 m.dim
  have hle : nW * (m.dim ^ 3 / nW) ≤ m.dim ^ 3 := Nat.mul_div_le _ _
  have d : (List.range (nW * (m.dim ^ 3 / nW))).countP (distinct3 m.dim) ≤
      (List.range (m.dim ^ 3)).countP (distinct3 m.dim) :=
    List.Sublist.countP_le (List.range_sublist.mpr hle)
  omega

/-- four cities, two workers, double precision, all costs infinite: 112 steps -/
example {m : Mat (XNum ℚ)} (hm : (do @naFromGraph _ binary64.ops (← @parseChecked _ binary64.ops (quad .inf .inf))) = .ok m)
    {s0 s : SSys (XNum ℚ)} {k : Nat} (h0 : @initStatic _ binary64.ops m 3 2 = .ok s0)
    (hs : Steps (@SStep _ binary64.ops m) k s0 s) (hf : s.final) : k = 112 := by
  obtain ⟨m', hm', hdim, hE⟩ := matrix (R := binary64) (g := quad .inf .inf) (by decide +kernel)
  rw [hm] at hm'
  cases hm'
  have h4 : m.dim = 4 := hdim
  have := (C124_static_any (D := IsDouble) floors64 isDouble_zero
    (infOrPos_of (hE (quad_noLoop _ _)).2 (quad_costs (P := fun x => x = .inf ∨ ∃ w, x = .fin w ∧ IsDouble w ∧ 0 ≤ w)
      (Or.inl rfl) (Or.inl rfl))) (by omega) (by rw [h4]; decide) h0 hs hf).1
  rw [this, h4]
  decide +kernel

end

end Walky.Props
