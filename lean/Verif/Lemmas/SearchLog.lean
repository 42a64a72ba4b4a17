import Verif.Lemmas.DfsShape
import Verif.Lemmas.Printed
import Verif.Lemmas.Eval

/-! # Helper lemmas: which prefixes a search tests -/

set_option linter.unusedSectionVars false

namespace Walky

open FloatOps Spec

variable {α : Type} [FloatOps α]

/-- `test`, together with a record of the prefixes that have been tested and of the answers -/
def logged {σ : Type} (test : PruneTest σ α) : PruneTest (σ × List (List Nat × Bool)) α :=
  fun s pre cur best => do
    let r ← test s.1 pre cur best
    return (r.1, (r.2, s.2 ++ [(pre, r.1)]))

/-- the record of a search below `pre` -/
inductive Log (n : Nat) : List Nat → List (List Nat × Bool) → Prop
  | leaf {pre : List Nat} (h : pre.length = n) : Log n pre []
  | node {pre : List Nat} (h : pre.length ≠ n) (go : Nat → Bool)
      (rest : Nat → List (List Nat × Bool))
      (hs : ∀ i, i < n → i ∉ pre → pre = [] ∨ go i = true → Log n (pre ++ [i]) (rest i))
      (hr : ∀ i, i < n → i ∉ pre → pre ≠ [] → go i = false → rest i = []) :
      Log n pre ((citiesExcept n pre).flatMap fun i =>
        (if pre = [] then [] else [(pre ++ [i], go i)]) ++ rest i)

theorem foldlM_run {ι β : Type} {f : β → ι → RM β} (Inv : List ι → β → Prop) {l : List ι} {b b' : β}
    (h : l.foldlM f b = .ok b') (h0 : Inv [] b)
    (hstep : ∀ done i rest b b', l = done ++ i :: rest → Inv done b → f b i = .ok b' →
      Inv (done ++ [i]) b') : Inv l b' := by
  suffices H : ∀ (rest done : List ι) (b : β), l = done ++ rest → Inv done b →
      rest.foldlM f b = .ok b' → Inv l b' from H l [] b rfl h0 h
  intro rest
  induction rest with
  | nil =>
    intro done b e hi hr
    rw [← Except.ok.inj hr, e, List.append_nil]
    exact hi
  | cons i rest ih =>
    intro done b e hi hr
    rw [List.foldlM_cons] at hr
    obtain ⟨b1, h1, h2⟩ := bind_ok hr
    exact ih (done ++ [i]) b1 (by rw [e]; simp) (hstep _ _ _ _ _ e hi h1) h2

theorem citiesExcept_append (pre : List Nat) (d : List Nat) (i : Nat) :
    (d ++ [i]).filter (fun i => !pre.contains i) =
      d.filter (fun i => !pre.contains i) ++ (if pre.contains i then [] else [i]) := by
  rw [List.filter_append]
  congr 1
  by_cases h : pre.contains i = true <;> simp_all

/-- a search keeps the record of its tests -/
theorem dfs_log {σ : Type} (m : Mat α) (test : PruneTest σ α) : ∀ (fuel : Nat) (pre : List Nat)
    (cost : α) (s : Solution α) (a : σ) (L0 : List (List Nat × Bool))
    (r : Solution α × σ × List (List Nat × Bool)),
    dfs m (logged test) fuel pre cost (s, (a, L0)) = .ok r →
    ∃ L, Log m.dim pre L ∧ r.2.2 = L0 ++ L := by
  intro fuel
  induction fuel with
  | zero => intro pre cost s a L0 r h; simp [dfs] at h
  | succ fuel ih =>
    intro pre cost s a L0 r h
    unfold dfs at h
    split at h
    · rename_i hlen
      obtain ⟨l, -, h⟩ := bind_ok h
      obtain ⟨f, -, h⟩ := bind_ok h
      obtain ⟨w, -, h⟩ := bind_ok h
      refine ⟨[], .leaf hlen, ?_⟩
      simp only at h
      split at h
      · rw [← Except.ok.inj h]; simp
      · rw [← Except.ok.inj h]; simp
    · rename_i hlen
      obtain ⟨x, hf, hx⟩ := bind_ok h
      clear h
      obtain ⟨cur, s', a', L'⟩ := x
      have hx := (Except.ok.inj hx).symm
      simp only at hx
      subst hx
      have key := foldlM_run (fun done (st : α × Solution α × σ × List (List Nat × Bool)) =>
        ∃ (go : Nat → Bool) (rest : Nat → List (List Nat × Bool)),
          (∀ i ∈ done, i ∉ pre → pre = [] ∨ go i = true → Log m.dim (pre ++ [i]) (rest i)) ∧
          (∀ i ∈ done, i ∉ pre → pre ≠ [] → go i = false → rest i = []) ∧
          st.2.2.2 = L0 ++ ((done.filter fun i => !pre.contains i).flatMap fun i =>
            (if pre = [] then [] else [(pre ++ [i], go i)]) ++ rest i)) hf
        ⟨fun _ => true, fun _ => [], by simp, by simp, by simp⟩ ?_
      · obtain ⟨go, rest, h1, h2, h3⟩ := key
        exact ⟨_, .node hlen go rest (fun i hi => h1 i (by simpa using hi))
          (fun i hi => h2 i (by simpa using hi)), h3⟩
      · rintro done i more ⟨c1, s1, a1, L1⟩ ⟨c2, s2, a2, L2⟩ hd ⟨go, rest, h1, h2, h3⟩ hstep
        simp only at h3
        have hnd : (done ++ i :: more).Nodup := hd ▸ List.nodup_range
        have hni : i ∉ done := by
          intro hi
          exact (List.nodup_append.mp hnd).2.2 i hi i (by simp) rfl
        simp only at hstep ⊢
        rw [citiesExcept_append]
        by_cases hc : pre.contains i = true
        · rw [if_pos hc] at hstep
          obtain ⟨-, -, -, rfl⟩ : c1 = c2 ∧ s1 = s2 ∧ a1 = a2 ∧ L1 = L2 := by
            have := Except.ok.inj hstep
            simp only [Prod.mk.injEq] at this
            exact this
          have hc' : i ∈ pre := by simpa using hc
          refine ⟨go, rest, ?_, ?_, ?_⟩
          · intro j hj hp
            rcases List.mem_append.mp hj with hj | hj
            · exact h1 j hj hp
            · simp at hj; subst hj; exact absurd hc' hp
          · intro j hj hp
            rcases List.mem_append.mp hj with hj | hj
            · exact h2 j hj hp
            · simp at hj; subst hj; exact absurd hc' hp
          · rw [if_pos hc, List.append_nil]
            exact h3
        · rw [if_neg hc] at hstep
          have hc' : i ∉ pre := by simpa using hc
          rw [if_neg hc]
          -- it is enough to know what is recorded for `i`
          have fin : ∀ (g : Bool) (R : List (List Nat × Bool)),
              (pre = [] ∨ g = true → Log m.dim (pre ++ [i]) R) → (pre ≠ [] → g = false → R = []) →
              L2 = L1 ++ ((if pre = [] then [] else [(pre ++ [i], g)]) ++ R) →
              ∃ (go : Nat → Bool) (rest : Nat → List (List Nat × Bool)),
                (∀ j ∈ done ++ [i], j ∉ pre → pre = [] ∨ go j = true → Log m.dim (pre ++ [j]) (rest j)) ∧
                (∀ j ∈ done ++ [i], j ∉ pre → pre ≠ [] → go j = false → rest j = []) ∧
                L2 = L0 ++ ((done.filter fun i => !pre.contains i) ++ [i]).flatMap fun i =>
                  (if pre = [] then [] else [(pre ++ [i], go i)]) ++ rest i := by
            intro g R g1 g2 g3
            have hne : ∀ j ∈ done, j ≠ i := fun j hj e => hni (e ▸ hj)
            refine ⟨Function.update go i g, Function.update rest i R, ?_, ?_, ?_⟩
            · intro j hj hp
              rcases List.mem_append.mp hj with hj | hj
              · rw [Function.update_of_ne (hne j hj), Function.update_of_ne (hne j hj)]
                exact h1 j hj hp
              · simp at hj; subst hj
                rw [Function.update_self, Function.update_self]
                exact g1
            · intro j hj hp
              rcases List.mem_append.mp hj with hj | hj
              · rw [Function.update_of_ne (hne j hj), Function.update_of_ne (hne j hj)]
                exact h2 j hj hp
              · simp at hj; subst hj
                rw [Function.update_self, Function.update_self]
                exact g2
            · rw [g3, h3, List.flatMap_append, List.append_assoc]
              congr 2
              · refine List.flatMap_congr fun j hj => ?_
                have hj' : j ≠ i := hne j (List.mem_filter.mp hj).1
                rw [Function.update_of_ne hj', Function.update_of_ne hj']
              · simp
          by_cases hone : (pre ++ [i]).length = 1
          · rw [if_pos hone] at hstep
            obtain ⟨y, hy, hy2⟩ := bind_ok hstep
            obtain ⟨L, hL, e⟩ := ih _ _ _ _ _ _ hy
            have e2 := Except.ok.inj hy2
            simp only [Prod.mk.injEq] at e2
            obtain ⟨-, rfl⟩ := e2
            have hpre : pre = [] := by
              rw [List.length_append, List.length_singleton] at hone
              exact List.length_eq_zero_iff.mp (by omega)
            refine fin true L (fun _ => hL) (fun h => absurd hpre h) ?_
            rw [if_pos hpre]
            exact e
          · rw [if_neg hone] at hstep
            have hpre : pre ≠ [] := by rintro rfl; simp at hone
            obtain ⟨x, -, hstep⟩ := bind_ok hstep
            obtain ⟨y, -, hstep⟩ := bind_ok hstep
            obtain ⟨w, -, hstep⟩ := bind_ok hstep
            obtain ⟨⟨g, a3, L3⟩, ht, hstep⟩ := bind_ok hstep
            unfold logged at ht
            obtain ⟨t, -, ht⟩ := bind_ok ht
            have e2 := Except.ok.inj ht
            simp only [Prod.mk.injEq] at e2
            obtain ⟨hg, -, hL3⟩ := e2
            simp only at hstep
            cases hgo : g with
            | true =>
              rw [hgo] at hstep hg
              simp only [if_true] at hstep
              obtain ⟨y, hy, hy2⟩ := bind_ok hstep
              obtain ⟨L, hL, e⟩ := ih _ _ _ _ _ _ hy
              have e2 := Except.ok.inj hy2
              simp only [Prod.mk.injEq] at e2
              obtain ⟨-, rfl⟩ := e2
              refine fin true L (fun _ => hL) (fun _ h => by simp at h) ?_
              simp only at e
              rw [if_neg hpre, e, ← hL3, hg]
              simp
            | false =>
              rw [hgo] at hstep hg
              simp only [Bool.false_eq_true, if_false, rm_pure, rm_bind_ok] at hstep
              have e2 := Except.ok.inj hstep
              simp only [Prod.mk.injEq] at e2
              obtain ⟨-, -, -, rfl⟩ := e2
              refine fin false [] (fun h => ?_) (fun _ _ => rfl) ?_
              · rcases h with h | h
                · exact absurd h hpre
                · simp at h
              · rw [if_neg hpre, ← hL3, hg]
                simp

/-! ## what is in the record -/

theorem Log.mem_prefix {n : Nat} {pre : List Nat} {L : List (List Nat × Bool)} (h : Log n pre L) :
    ∀ x ∈ L, pre <+: x.1 ∧ pre.length < x.1.length ∧ 2 ≤ x.1.length := by
  induction h with
  | leaf h => simp
  | @node pre h go rest hs hr ih =>
    intro x hx
    rw [List.mem_flatMap] at hx
    obtain ⟨i, hi, hx⟩ := hx
    obtain ⟨hi1, hi2⟩ := mem_citiesExcept.mp hi
    rw [List.mem_append] at hx
    rcases hx with hx | hx
    · split at hx
      · simp at hx
      · rename_i hpre
        simp only [List.mem_singleton] at hx
        subst hx
        have : pre.length ≠ 0 := by simpa using hpre
        refine ⟨⟨[i], rfl⟩, by simp, by simp; omega⟩
    · by_cases hg : pre = [] ∨ go i = true
      · obtain ⟨h1, h2, h3⟩ := ih i hi1 hi2 hg x hx
        refine ⟨(List.prefix_append pre [i]).trans h1, ?_, h3⟩
        simp at h2
        omega
      · push Not at hg
        rw [hr i hi1 hi2 hg.1 (by simpa using hg.2)] at hx
        simp at hx

theorem Log.valid {n : Nat} {pre : List Nat} {L : List (List Nat × Bool)} (h : Log n pre L)
    (hv : ValidPre n pre) : ∀ x ∈ L, ValidPre n x.1 := by
  induction h with
  | leaf h => simp
  | @node pre h go rest hs hr ih =>
    intro x hx
    rw [List.mem_flatMap] at hx
    obtain ⟨i, hi, hx⟩ := hx
    obtain ⟨hi1, hi2⟩ := mem_citiesExcept.mp hi
    rw [List.mem_append] at hx
    rcases hx with hx | hx
    · split at hx
      · simp at hx
      · simp only [List.mem_singleton] at hx
        subst hx
        exact hv.snoc hi1 hi2
    · by_cases hg : pre = [] ∨ go i = true
      · exact ih i hi1 hi2 hg (hv.snoc hi1 hi2) x hx
      · push Not at hg
        rw [hr i hi1 hi2 hg.1 (by simpa using hg.2)] at hx
        simp at hx

/-- no prefix is tested twice -/
theorem Log.nodup {n : Nat} {pre : List Nat} {L : List (List Nat × Bool)} (h : Log n pre L) :
    (L.map Prod.fst).Nodup := by
  induction h with
  | leaf h => simp
  | @node pre h go rest hs hr ih =>
    have hseg : ∀ i, i < n → i ∉ pre → ∀ x ∈ (if pre = [] then [] else [(pre ++ [i], go i)]) ++ rest i,
        pre ++ [i] <+: x.1 := by
      intro i hi1 hi2 x hx
      rw [List.mem_append] at hx
      rcases hx with hx | hx
      · split at hx
        · simp at hx
        · simp only [List.mem_singleton] at hx
          subst hx
          exact List.prefix_refl _
      · by_cases hg : pre = [] ∨ go i = true
        · exact ((hs i hi1 hi2 hg).mem_prefix x hx).1
        · push Not at hg
          rw [hr i hi1 hi2 hg.1 (by simpa using hg.2)] at hx
          simp at hx
    rw [List.map_flatMap, List.nodup_flatMap]
    refine ⟨?_, ?_⟩
    · intro i hi
      obtain ⟨hi1, hi2⟩ := mem_citiesExcept.mp hi
      by_cases hg : pre = [] ∨ go i = true
      · have h1 := ih i hi1 hi2 hg
        split
        · simpa using h1
        · simp only [List.cons_append, List.nil_append, List.map_cons, List.nodup_cons]
          refine ⟨?_, h1⟩
          intro hmem
          rw [List.mem_map] at hmem
          obtain ⟨x, hx, e⟩ := hmem
          have := ((hs i hi1 hi2 hg).mem_prefix x hx).2.1
          rw [e] at this
          omega
      · push Not at hg
        rw [hr i hi1 hi2 hg.1 (by simpa using hg.2)]
        split <;> simp
    · have hnd : (citiesExcept n pre).Nodup := List.nodup_range.filter _
      refine hnd.imp_of_mem ?_
      intro i j hi hj hij
      obtain ⟨hi1, hi2⟩ := mem_citiesExcept.mp hi
      obtain ⟨hj1, hj2⟩ := mem_citiesExcept.mp hj
      show List.Disjoint _ _
      rw [List.disjoint_left]
      intro p hp hq
      rw [List.mem_map] at hp hq
      obtain ⟨x, hx, ex⟩ := hp
      obtain ⟨y, hy, ey⟩ := hq
      have h1 := hseg i hi1 hi2 x hx
      have h2 := hseg j hj1 hj2 y hy
      rw [ex] at h1
      rw [ey] at h2
      have h3 := List.prefix_of_prefix_length_le h1 h2 (by simp)
      have h4 := h3.eq_of_length (by simp)
      simp at h4
      exact hij h4

/-- exactly those prefixes are tested of which all shorter ones have passed -/
theorem Log.mem_iff {n : Nat} {pre : List Nat} {L : List (List Nat × Bool)} (h : Log n pre L)
    (hv : ValidPre n pre) (p : List Nat) :
    p ∈ L.map Prod.fst ↔ ValidPre n p ∧ 2 ≤ p.length ∧ pre <+: p ∧ pre.length < p.length ∧
      ∀ q, q <+: p → 2 ≤ q.length → pre.length < q.length → q.length < p.length → (q, true) ∈ L := by
  constructor
  · intro hp
    have hp' := hp
    rw [List.mem_map] at hp
    obtain ⟨x, hx, rfl⟩ := hp
    obtain ⟨h1, h2, h3⟩ := h.mem_prefix x hx
    refine ⟨h.valid hv x hx, h3, h1, h2, ?_⟩
    clear h1 h2 h3 hp'
    induction h with
    | leaf h => simp at hx
    | @node pre h go rest hs hr ih =>
      rw [List.mem_flatMap] at hx
      obtain ⟨i, hi, hx⟩ := hx
      obtain ⟨hi1, hi2⟩ := mem_citiesExcept.mp hi
      intro q hq q2 hq1 hq3
      rw [List.mem_append] at hx
      rcases hx with hx | hx
      · split at hx
        · simp at hx
        · simp only [List.mem_singleton] at hx
          subst hx
          simp at hq3
          omega
      · by_cases hg : pre = [] ∨ go i = true
        · have hlog := hs i hi1 hi2 hg
          have hpx := (hlog.mem_prefix x hx).1
          rw [List.mem_flatMap]
          refine ⟨i, hi, ?_⟩
          rw [List.mem_append]
          by_cases hl : (pre ++ [i]).length < q.length
          · exact Or.inr (ih i hi1 hi2 hg (hv.snoc hi1 hi2) hx q hq q2 hl hq3)
          · left
            have e : q = pre ++ [i] := by
              have := List.prefix_of_prefix_length_le hq hpx (by omega)
              exact this.eq_of_length (by simp at hl ⊢; omega)
            subst e
            have hpre : pre ≠ [] := by rintro rfl; simp at q2
            rw [if_neg hpre]
            rcases hg with hg | hg
            · exact absurd hg hpre
            · simp [hg]
        · push Not at hg
          rw [hr i hi1 hi2 hg.1 (by simpa using hg.2)] at hx
          simp at hx
  · rintro ⟨hvp, h2, hpre, hlen, hall⟩
    induction h with
    | @leaf pre h =>
      have := hvp.length_le
      omega
    | @node pre h go rest hs hr ih =>
      obtain ⟨t, rfl⟩ := hpre
      cases t with
      | nil => simp at hlen
      | cons i t =>
        have hi1 : i < n := hvp.2 i (by simp)
        have hi2 : i ∉ pre := by
          intro hi
          exact (List.nodup_append.mp hvp.1).2.2 i hi i (by simp) rfl
        have hi := mem_citiesExcept.mpr ⟨hi1, hi2⟩
        rw [List.map_flatMap, List.mem_flatMap]
        refine ⟨i, hi, ?_⟩
        rw [List.map_append, List.mem_append]
        by_cases ht : t = []
        · subst ht
          left
          have hpre : pre ≠ [] := by rintro rfl; simp at h2
          simp [hpre]
        · right
          have hlt : (pre ++ [i]).length < (pre ++ i :: t).length := by
            have := List.length_pos_iff.mpr ht
            simp
            omega
          have hpf : pre ++ [i] <+: pre ++ i :: t := ⟨t, by simp⟩
          have hnd := (Log.node h go rest hs hr).nodup
          have hg : pre = [] ∨ go i = true := by
            by_cases hpre : pre = []
            · exact Or.inl hpre
            · right
              have : pre.length ≠ 0 := by simpa using hpre
              have hq := hall (pre ++ [i]) hpf (by simp; omega) (by simp) hlt
              rw [List.mem_flatMap] at hq
              obtain ⟨j, hj, hq⟩ := hq
              obtain ⟨hj1, hj2⟩ := mem_citiesExcept.mp hj
              rw [if_neg hpre, List.mem_append] at hq
              rcases hq with hq | hq
              · simp only [List.mem_singleton, Prod.mk.injEq, List.append_cancel_left_eq,
                  List.cons.injEq, and_true] at hq
                obtain ⟨rfl, e⟩ := hq
                exact e.symm
              · by_cases hgj : go j = true
                · have := ((hs j hj1 hj2 (Or.inr hgj)).mem_prefix _ hq).2.1
                  simp at this
                · rw [hr j hj1 hj2 hpre (by simpa using hgj)] at hq
                  simp at hq
          refine ih i hi1 hi2 hg (hv.snoc hi1 hi2) hpf hlt ?_
          intro q hq q2 hq1 hq3
          have hq' := hall q hq q2 (by simp at hq1; omega) hq3
          rw [List.mem_flatMap] at hq'
          obtain ⟨j, hj, hq'⟩ := hq'
          obtain ⟨hj1, hj2⟩ := mem_citiesExcept.mp hj
          have hpq : pre ++ [i] <+: q := List.prefix_of_prefix_length_le hpf hq (by omega)
          rw [List.mem_append] at hq'
          rcases hq' with hq' | hq'
          · split at hq'
            · simp at hq'
            · simp only [List.mem_singleton, Prod.mk.injEq] at hq'
              rw [hq'.1] at hq1
              simp at hq1
          · by_cases hgj : pre = [] ∨ go j = true
            · have h5 := ((hs j hj1 hj2 hgj).mem_prefix _ hq').1
              have h6 := List.prefix_of_prefix_length_le hpq h5 (by simp)
              have h7 := h6.eq_of_length (by simp)
              simp at h7
              subst h7
              exact hq'
            · push Not at hgj
              rw [hr j hj1 hj2 hgj.1 (by simpa using hgj.2)] at hq'
              simp at hq'

/-! ## the record does not change the search -/

theorem dfs_logged {σ : Type} (m : Mat α) (test : PruneTest σ α) (fuel : Nat) (pre : List Nat)
    (cost : α) (s : Solution α) (a : σ) (L0 : List (List Nat × Bool)) (hv : ValidPre m.dim pre) :
    RelRes (fun r1 r2 => r1.1 = r2.1 ∧ r1.2.1 = r2.2) (dfs m (logged test) fuel pre cost (s, (a, L0)))
      (dfs m test fuel pre cost (s, a)) := by
  refine dfs_sim m (logged test) test (fun x y => x.1 = y) ?_ fuel pre cost s (a, L0) a hv rfl
  rintro ⟨x, L⟩ y p cur best h _ _
  simp only at h
  subst h
  unfold logged
  cases test x p cur best with
  | error e => simp [RelRes, rm_bind_err]
  | ok r => simp [RelRes, rm_bind_ok, rm_pure]

/-- a search in which every test succeeds, as long as the running cost satisfies `Q` and the best cost
satisfies `B` -/
theorem dfs_through {σ : Type} (m : Mat α) (test : PruneTest σ α) (J : σ → Prop)
    (Q : List Nat → α → Prop) (B : α → Prop)
    (htest : ∀ a p x b, J a → ValidPre m.dim p → 2 ≤ p.length → Q p x → B b →
      ∃ a', test a p x b = .ok (true, a') ∧ J a')
    (hQ1 : ∀ i x, i < m.dim → Q [] x → Q [i] x)
    (hQ2 : ∀ p a i x, ValidPre m.dim (p ++ [a, i]) → Q (p ++ [a]) x →
      Q (p ++ [a, i]) (x +ᶠ m.get a i) ∧ Q (p ++ [a]) ((x +ᶠ m.get a i) -ᶠ m.get a i))
    (hR : ∀ p x a b, IsTour m.dim p → p.getLast? = some a → p.head? = some b → Q p x →
      B (x +ᶠ m.get a b))
    (hdim : 0 < m.dim) :
    ∀ (fuel : Nat) (pre : List Nat) (cost : α) (s : Solution α × σ), ValidPre m.dim pre →
      m.dim + 1 ≤ fuel + pre.length → J s.2 → Q pre cost → B s.1.1 →
      ∃ r, dfs m test fuel pre cost s = .ok r ∧ J r.2 ∧ B r.1.1 := by
  intro fuel
  induction fuel with
  | zero =>
    intro pre cost s hv hf
    have := hv.length_le
    omega
  | succ fuel ih =>
    intro pre cost s hv hf hJ hQ hB
    unfold dfs
    by_cases hlen : pre.length = m.dim
    · have hne : pre ≠ [] := by rintro rfl; simp at hlen; omega
      have hT : IsTour m.dim pre := isTour_of_nodup hv.1 hv.2 hlen
      have hl : pre.getLast? = some (pre.getLast hne) := List.getLast?_eq_getLast_of_ne_nil hne
      have hh : pre.head? = some (pre.head hne) := List.head?_eq_some_head hne
      have he := entry_ok (m := m) (hv.2 _ (List.getLast_mem hne)) (hv.2 _ (List.head_mem hne))
      simp only [hlen, if_true, hl, hh, unwrapO, rm_bind_ok, he, rm_pure]
      split
      · rename_i hlt
        exact ⟨_, rfl, hJ, hR _ _ _ _ hT hl hh hQ⟩
      · exact ⟨s, rfl, hJ, hB⟩
    · simp only [hlen, if_false]
      have key := foldlM_ok (fun (st : α × Solution α × σ) i => do
        let (cur, s) := st
        if pre.contains i then return (cur, s)
        let pre' := pre ++ [i]
        if pre'.length = 1 then do
          let s ← dfs m test fuel pre' cur s
          return (cur, s)
        else do
          let a ← idx pre' (pre'.length - 2)
          let b ← idx pre' (pre'.length - 2 + 1)
          let w ← m.entry a b
          let cur := cur +ᶠ w
          let (go, aux) ← test s.2 pre' cur s.1.1
          let s ← if go then dfs m test fuel pre' cur (s.1, aux) else pure (s.1, aux)
          return (cur -ᶠ w, s))
        (fun _ st => J st.2.2 ∧ Q pre st.1 ∧ B st.2.1.1)
        (List.range m.dim) (cost, s) ⟨hJ, hQ, hB⟩ ?_
      · obtain ⟨b, hb, h1, _, h3⟩ := key
        exact ⟨b.2, by rw [hb]; rfl, h1, h3⟩
      · rintro done i rest ⟨cur, t⟩ hl ⟨h1, h2, h3⟩
        have hi : i < m.dim := by
          have : i ∈ List.range m.dim := by rw [hl]; simp
          simpa using this
        by_cases hc : pre.contains i = true
        · have hc' : i ∈ pre := by simpa using hc
          exact ⟨(cur, t), by simp [hc'], h1, h2, h3⟩
        · have hc' : i ∉ pre := by simpa using hc
          have hv' := hv.snoc hi hc'
          have hcont : (pre.contains i) = false := by simpa using hc'
          simp only [hcont, Bool.false_eq_true, if_false]
          by_cases hone : (pre ++ [i]).length = 1
          · simp only [hone, if_true]
            have hnil : pre = [] := by
              apply List.length_eq_zero_iff.mp
              simpa using hone
            obtain ⟨r, hr, r1, r2⟩ := ih (pre ++ [i]) cur t hv' (by simp; omega) h1 (by
              subst hnil; exact hQ1 i cur hi h2) h3
            exact ⟨(cur, r), by simp [hr], r1, h2, r2⟩
          · simp only [hone, if_false]
            have hne : pre ≠ [] := by rintro rfl; simp at hone
            have hpos : 0 < pre.length := List.length_pos_of_ne_nil hne
            have i1 : idx (pre ++ [i]) ((pre ++ [i]).length - 2) = .ok (pre.getLast hne) := by
              apply idx_ok
              rw [List.getLast_eq_getElem]
              simp only [List.length_append, List.length_cons, List.length_nil]
              rw [List.getElem?_append_left (by omega)]
              rw [show pre.length + (0 + 1) - 2 = pre.length - 1 by omega]
              exact List.getElem?_eq_getElem _
            have i2 : idx (pre ++ [i]) ((pre ++ [i]).length - 2 + 1) = .ok i := by
              apply idx_ok
              simp only [List.length_append, List.length_cons, List.length_nil]
              rw [show pre.length + (0 + 1) - 2 + 1 = pre.length by omega]
              simp
            have hlastm := List.getLast_mem hne
            have i3 := entry_ok (m := m) (hv.2 _ hlastm) hi
            have hsplit : pre = pre.dropLast ++ [pre.getLast hne] :=
              (List.dropLast_append_getLast hne).symm
            have hsplit' : pre ++ [i] = pre.dropLast ++ [pre.getLast hne, i] := by
              conv_lhs => rw [hsplit]
              simp
            obtain ⟨q1, q2⟩ := hQ2 pre.dropLast (pre.getLast hne) i cur (hsplit' ▸ hv')
              (by rw [← hsplit]; exact h2)
            rw [← hsplit'] at q1
            rw [← hsplit] at q2
            simp only [i1, i2, i3, rm_bind_ok]
            have hlen2 : 2 ≤ (pre ++ [i]).length := by simp; omega
            obtain ⟨a', ht, hJ'⟩ := htest t.2 (pre ++ [i])
              (cur +ᶠ m.get (pre.getLast hne) i) t.1.1 h1 hv' hlen2 q1 h3
            simp only [ht, rm_bind_ok]
            obtain ⟨r, hr, r1, r2⟩ := ih (pre ++ [i]) (cur +ᶠ m.get (pre.getLast hne) i)
              (t.1, a') hv' (by simp; omega) hJ' q1 h3
            refine ⟨(cur +ᶠ m.get (pre.getLast hne) i -ᶠ m.get (pre.getLast hne) i, r), ?_, r1, q2, r2⟩
            simp only [if_true, hr, rm_bind_ok, rm_pure]

/-! ## counting prefixes -/

/-- all repetition-free lists of `k` cities -/
def prefixesOf (n : Nat) : Nat → List (List Nat)
  | 0 => [[]]
  | k + 1 => (prefixesOf n k).flatMap fun p => (citiesExcept n p).map fun i => p ++ [i]

theorem mem_prefixesOf {n : Nat} : ∀ {k : Nat} {p : List Nat},
    p ∈ prefixesOf n k ↔ ValidPre n p ∧ p.length = k := by
  intro k
  induction k with
  | zero =>
    intro p
    simp only [prefixesOf, List.mem_singleton]
    constructor
    · rintro rfl; exact ⟨validPre_nil _, rfl⟩
    · rintro ⟨_, h⟩; exact List.length_eq_zero_iff.mp h
  | succ k ih =>
    intro p
    simp only [prefixesOf, List.mem_flatMap, List.mem_map]
    constructor
    · rintro ⟨q, hq, i, hi, rfl⟩
      obtain ⟨h1, h2⟩ := ih.mp hq
      obtain ⟨h3, h4⟩ := mem_citiesExcept.mp hi
      exact ⟨h1.snoc h3 h4, by simp [h2]⟩
    · rintro ⟨hv, hl⟩
      have hne : p ≠ [] := by rintro rfl; simp at hl
      have hs := List.dropLast_append_getLast hne
      have hnd := hv.1
      rw [← hs] at hnd
      have hnd' := List.nodup_append.mp hnd
      refine ⟨p.dropLast, ih.mpr ⟨⟨hnd'.1, fun i hi => hv.2 i (List.mem_of_mem_dropLast hi)⟩,
        by simp [hl]⟩, p.getLast hne, mem_citiesExcept.mpr ⟨hv.2 _ (List.getLast_mem hne), ?_⟩, hs⟩
      intro hm
      exact hnd'.2.2 _ hm _ (by simp) rfl

theorem nodup_prefixesOf (n : Nat) : ∀ k, (prefixesOf n k).Nodup := by
  intro k
  induction k with
  | zero => simp [prefixesOf]
  | succ k ih =>
    simp only [prefixesOf]
    rw [List.nodup_flatMap]
    refine ⟨fun p _ => (nodup_citiesExcept n p).map (fun i j h => by simpa using h), ?_⟩
    refine ih.imp ?_
    intro p q hpq x hx hy
    rw [List.mem_map] at hx hy
    obtain ⟨i, _, rfl⟩ := hx
    obtain ⟨j, _, h⟩ := hy
    exact hpq (List.append_inj' h rfl).1.symm

theorem length_citiesExcept {n : Nat} {p : List Nat} (hv : ValidPre n p) :
    (citiesExcept n p).length + p.length = n := by
  have h : (citiesExcept n p ++ p).Perm (List.range n) := by
    refine (List.perm_ext_iff_of_nodup ?_ List.nodup_range).mpr ?_
    · rw [List.nodup_append]
      refine ⟨nodup_citiesExcept n p, hv.1, ?_⟩
      rintro a ha b hb rfl
      exact (mem_citiesExcept.mp ha).2 hb
    · intro i
      rw [List.mem_append, mem_citiesExcept, List.mem_range]
      constructor
      · rintro (h | h)
        · exact h.1
        · exact hv.2 i h
      · intro h
        by_cases hi : i ∈ p
        · exact Or.inr hi
        · exact Or.inl ⟨h, hi⟩
  have := h.length_eq
  simpa using this

theorem length_prefixesOf (n : Nat) : ∀ k, (prefixesOf n k).length = n.descFactorial k := by
  intro k
  induction k with
  | zero => simp [prefixesOf]
  | succ k ih =>
    simp only [prefixesOf, List.length_flatMap, List.length_map]
    rw [Nat.descFactorial_succ, ← ih]
    have : (prefixesOf n k).map (fun p => (citiesExcept n p).length) =
        (prefixesOf n k).map (fun _ => n - k) := by
      apply List.map_congr_left
      intro p hp
      obtain ⟨h1, h2⟩ := mem_prefixesOf.mp hp
      have := length_citiesExcept h1
      omega
    rw [this]
    simp [mul_comm]

theorem sum_descFactorial_succ (n : Nat) :
    ((List.range (n + 2)).map fun k => (n + 1).descFactorial k).sum =
      1 + (n + 1) * ((List.range (n + 1)).map fun k => n.descFactorial k).sum := by
  rw [List.range_succ_eq_map]
  simp only [List.map_cons, List.map_map, List.sum_cons, Nat.descFactorial_zero]
  congr 1
  rw [← List.sum_map_mul_left]
  congr 1
  apply List.map_congr_left
  intro k _
  exact Nat.succ_descFactorial_succ n k

/-- fewer than `3 n!` repetition-free lists -/
theorem sum_descFactorial_le : ∀ n, 1 ≤ n →
    ((List.range (n + 1)).map fun k => n.descFactorial k).sum + 1 ≤ 3 * n.factorial := by
  intro n hn
  induction n with
  | zero => omega
  | succ n ih =>
    rcases Nat.eq_zero_or_pos n with rfl | hp
    · decide
    · rw [sum_descFactorial_succ, Nat.factorial_succ]
      have := Nat.mul_le_mul_left (n + 1) (ih hp)
      nlinarith

/-! ## the loop over all permutations -/

/-- one step of the loops of v0 and v1 -/
def keepBetter (m : Mat α) (best : Solution α) (p : List Nat) : RM (Solution α) := do
  let cost ← m.evaluateCircle p
  return if cost <ᶠ best.1 then (cost, p) else best

theorem permLoop_fold {m : Mat α} {step : List Nat → RM (Bool × List Nat)} {cur : List Nat}
    {l : List (List Nat)} (hrun : Run step cur l) :
    ∀ (fuel : Nat) (best : Solution α), l.length < fuel →
      permLoop m step fuel cur best = l.foldlM (keepBetter m) best := by
  induction hrun with
  | stop h =>
    intro fuel best hf
    cases fuel with
    | zero => simp at hf
    | succ fuel => simp [permLoop, h]
  | @next a b l h hr ih =>
    intro fuel best hf
    cases fuel with
    | zero => simp at hf
    | succ fuel =>
      simp only [List.length_cons] at hf
      rw [List.foldlM_cons]
      simp only [permLoop, h, rm_bind_ok, if_true, keepBetter]
      cases he : m.evaluateCircle b with
      | error e => rfl
      | ok x =>
        simp only [rm_bind_ok, rm_pure]
        split
        · exact ih fuel _ (by omega)
        · exact ih fuel _ (by omega)

end Walky
