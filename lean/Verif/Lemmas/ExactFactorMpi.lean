import Verif.Lemmas.DfsEntered
import Verif.Lemmas.ExactFactor
import Verif.Lemmas.StaticMpi
import Verif.Lemmas.DynamicMpi

/-! # Tools for C105: costs that go round between the processes of the MPI solvers -/

namespace Walky

open FloatOps XNum Spec

set_option linter.unusedSectionVars false

variable {K : Type} [Field K] [LinearOrder K] [IsStrictOrderedRing K]

/-- If all cities that could come next are pruned, the search leaves everything as it was. -/
theorem dfs_pruned {σ : Type} {m : Mat (XNum K)} {c : Nat → Nat → K} (hm : Rep m c)
    {test : PruneTest σ (XNum K)} {pre : List Nat} {s : Solution (XNum K) × σ} (fuel : Nat)
    (hv : ValidPre m.dim pre) (hne : pre ≠ []) (hlt : pre.length < m.dim)
    (ht : ∀ i < m.dim, i ∉ pre →
      test s.2 (pre ++ [i]) (fin (pathCost c (pre ++ [i]))) s.1.1 = .ok (false, s.2)) :
    dfs m test (fuel + 1) pre (fin (pathCost c pre)) s = .ok s := by
  unfold dfs
  rw [if_neg (by omega)]
  have key := foldlM_ok (fun (st : XNum K × Solution (XNum K) × σ) i => do
        let (cur, s) := st
        if pre.contains i then return (cur, s)
        let pre' := pre ++ [i]
        if pre'.length = 1 then do
          let s ← dfs m test fuel pre' cur s
          return (cur, s)
        else do
          let a ← idx pre' (pre'.length - 2)
          let b ← idx pre' (pre'.length - 2 + 1)
          let w ← m.entry a b
          let cur := cur +ᶠ w
          let (go, aux) ← test s.2 pre' cur s.1.1
          let s ← if go then dfs m test fuel pre' cur (s.1, aux) else pure (s.1, aux)
          return (cur -ᶠ w, s))
        (fun _ st => st = (fin (pathCost c pre), s))
        (List.range m.dim) (fin (pathCost c pre), s) rfl (by
    rintro done i rest st hl rfl
    refine ⟨_, ?_, rfl⟩
    have hi : i < m.dim := by
      have : i ∈ List.range m.dim := by rw [hl]; simp
      simpa using this
    by_cases hc : i ∈ pre
    · simp [hc]
    · have hcont : (pre.contains i) = false := by simpa using hc
      simp only [hcont, Bool.false_eq_true, if_false]
      have hpos : 0 < pre.length := List.length_pos_of_ne_nil hne
      have h1 : ¬ (pre ++ [i]).length = 1 := by simp; exact hne
      simp only [h1, if_false]
      have i1 : idx (pre ++ [i]) ((pre ++ [i]).length - 2) = .ok (pre.getLast hne) := by
        apply idx_ok
        rw [List.getLast_eq_getElem]
        simp only [List.length_append, List.length_cons, List.length_nil]
        rw [List.getElem?_append_left (by omega)]
        rw [show pre.length + (0 + 1) - 2 = pre.length - 1 by omega]
        exact List.getElem?_eq_getElem _
      have i2 : idx (pre ++ [i]) ((pre ++ [i]).length - 2 + 1) = .ok i := by
        apply idx_ok
        simp only [List.length_append, List.length_cons, List.length_nil]
        rw [show pre.length + (0 + 1) - 2 + 1 = pre.length by omega]
        simp
      have hlastm := List.getLast_mem hne
      have i3 : m.entry (pre.getLast hne) i = .ok (fin (c (pre.getLast hne) i)) := by
        rw [entry_ok (hv.2 _ hlastm) hi, hm.off _ _ (hv.2 _ hlastm) hi]
        rintro rfl
        exact hc hlastm
      have hpc : pathCost c pre + c (pre.getLast hne) i = pathCost c (pre ++ [i]) := by
        conv_rhs => rw [← List.dropLast_append_getLast hne]
        rw [List.append_assoc, List.cons_append, List.nil_append, pathCost_snoc,
          List.dropLast_append_getLast]
      have hadd : FloatOps.add (fin (pathCost c pre)) (fin (c (pre.getLast hne) i)) =
          fin (pathCost c (pre ++ [i])) := by rw [XNum.add_fin, hpc]
      have hback : FloatOps.sub (fin (pathCost c (pre ++ [i])))
          (fin (c (pre.getLast hne) i)) = fin (pathCost c pre) := by
        rw [XNum.sub_fin, ← hpc]; congr 1; ring
      simp only [i1, i2, i3, rm_bind_ok, hadd, ht i hi hc]
      simp [hback])
  obtain ⟨b, hb, rfl⟩ := key
  rw [hb]
  rfl

/-- without a global best cost the test is that of v5 -/
theorem testMpi_inf (m : Mat (XNum K)) : testMpi m XNum.inf = test5 m := by
  funext a p x b
  unfold test5 testMpi
  have : FloatOps.lt XNum.inf b = false := by cases b <;> rfl
  rw [this]
  rfl

/-- an increasing path pays at most once for every city up to `d` -/
theorem ladder_inc_le (d : Nat) : ∀ (t : List Nat) (a : Nat), (a :: t).Pairwise (· < ·) →
    pathCost (ladder d) (a :: t) + (min a d : ℕ) ≤
      (t.length : K) + (min ((a :: t).getLast (by simp)) d : ℕ)
  | [], a, _ => by simp
  | b :: t, a, h => by
    have ih := ladder_inc_le d t b (List.pairwise_cons.mp h).2
    have hab : a < b := (List.pairwise_cons.mp h).1 b (by simp)
    have hstep : (ladder d a b : K) + (min a d : ℕ) ≤ 1 + (min b d : ℕ) := by
      rcases Nat.lt_or_ge d b with hd | hd
      · rw [ladder_far (by omega) (Or.inr hd)]
        have : 1 + min a d ≤ 1 + min b d := by omega
        exact_mod_cast this
      · by_cases hb : b = a + 1
        · subst hb
          rw [ladder_two hd]
          have : 2 + min a d ≤ 1 + min (a + 1) d := by omega
          exact_mod_cast this
        · rw [ladder_one (by omega) (by omega) (by omega)]
          have : 1 + min a d ≤ 1 + min b d := by omega
          exact_mod_cast this
    rw [List.getLast_cons (by simp : b :: t ≠ []), pathCost_cons₂]
    simp only [List.length_cons]
    push_cast at ih hstep ⊢
    linarith

/-- the first tour below a prefix of three cities is not much longer than `n + d` -/
theorem ladder_firstLeaf_le {n d : Nat} {pre : List Nat} (hv : ValidPre n pre) (hl : pre.length = 3)
    (hn : 4 ≤ n) : tourCost (ladder d) (firstLeaf n pre) ≤ (n : K) + d + 4 := by
  have hleaf := isTour_firstLeaf hv
  unfold firstLeaf at hleaf ⊢
  set F := (List.range n).filter (fun i => !pre.contains i) with hF
  have hlenF : pre.length + F.length = n := by
    have := hleaf.length
    simpa using this
  have hpw : F.Pairwise (· < ·) := List.pairwise_lt_range.filter _
  obtain ⟨x, y, z, rfl⟩ := List.length_eq_three.mp hl
  obtain ⟨a, t, hat⟩ : ∃ a t, F = a :: t := by
    cases hF' : F with
    | nil => rw [hF'] at hlenF; simp at hlenF; omega
    | cons a t => exact ⟨a, t, rfl⟩
  have hinc := ladder_inc_le (K := K) d t a (hat ▸ hpw)
  rw [hat] at hlenF ⊢
  rw [tourCost_eq _ _ (by simp)]
  simp only [List.cons_append, List.nil_append, pathCost_cons₂, List.length_cons, List.length_nil] at hlenF ⊢
  have h1 := ladder_le (K := K) d x y
  have h2 := ladder_le (K := K) d y z
  have h3 := ladder_le (K := K) d z a
  have h4 := fun u => ladder_le (K := K) d u x
  have hmin : ((min ((a :: t).getLast (by simp)) d : ℕ) : K) ≤ d := by exact_mod_cast Nat.min_le_right _ _
  have hmin2 : (0 : K) ≤ (min a d : ℕ) := Nat.cast_nonneg _
  have e : (n : K) = t.length + 4 := by
    have : n = t.length + 4 := by omega
    exact_mod_cast this
  have h5 := h4 ((x :: y :: z :: a :: t).getLast (by simp))
  simp only [List.head_cons]
  linarith

variable {N : Nat} {S : XNum K → List Nat → RM (Solution (XNum K))} {V : List Nat → K → Prop}
  {A : K → List Nat → List Nat → Prop}

/-- every cost in the system satisfies `Q`; the messages of leaving workers carry -1 -/
def SCosts (Q : XNum K → Prop) (s : SSys (XNum K)) : Prop :=
  Q s.winner.1 ∧ ∀ (i : Nat) (w : SWorker (XNum K)), s.workers[i]? = some w → Q w.sol.1 ∧ Q w.global ∧ (∀ g ∈ w.down, Q g) ∧
    ∀ x ∈ w.up, Q x.1 ∨ FloatOps.le (zero : XNum K) x.1 = false

theorem getElem?_set_cases {α : Type} {l : List α} {i j : Nat} {a b : α}
    (h : (l.set i a)[j]? = some b) : b = a ∨ l[j]? = some b := by
  rw [List.getElem?_set] at h
  split at h
  · split at h
    · left; injection h with h; exact h.symm
    · cases h
  · exact Or.inr h

/-- Whatever the search preserves, all costs in the static solver have. -/
theorem scosts_step (hS : MSearch N S V A) {Q : XNum K → Prop}
    (hQ : ∀ g pre r, Q g → ValidPre N pre → pre.length = 3 → S g pre = .ok r → Q r.1)
    {nW : Nat} {lo hi : Nat → Nat} {s s' : SSys (XNum K)} (h : SInv N V A 3 lo hi nW s)
    (hc : SCosts Q s) (hs : SStepG N S s s') : SCosts Q s' := by
  obtain ⟨c1, c2⟩ := hc
  cases hs with
  | round i w w' h1 h2 h3 =>
    refine ⟨c1, fun j u hu => ?_⟩
    rcases getElem?_set_cases hu with rfl | hu
    · obtain ⟨d1, d2, d3, d4⟩ := c2 i w h1
      have hW := h.wk i w h1
      have hneg : FloatOps.le (zero : XNum K) negOne = false := by
        change decide ((0 : K) ≤ -1) = false
        simp
      have hleave : ∀ l : List Nat, ∀ x ∈ w.up ++ [((negOne : XNum K), i + 1)],
          Q x.1 ∨ FloatOps.le (zero : XNum K) x.1 = false := by
        intro _ x hx
        rcases List.mem_append.mp hx with hx | hx
        · exact d4 x hx
        · rw [List.mem_singleton] at hx
          subst hx
          exact Or.inr hneg
      unfold workerRoundG at h3
      obtain ⟨l, e1, e2, e3 | e3⟩ := getNextValue_ok hW.valid
      · obtain ⟨_, e4, e5⟩ := e3
        simp only [e4, rm_bind_ok] at h3
        split at h3
        · injection h3 with h3
          subst h3
          exact ⟨d1, d2, d3, hleave []⟩
        · split at h3
          · rename_i hu'
            have hl3 : l.length = 3 := by rw [e1, hW.len]
            obtain ⟨r, hr, -⟩ := hS w.global l hW.glob.1 ⟨isUnique_iff.mp hu', e2⟩
            have hq := hQ _ _ _ d2 ⟨isUnique_iff.mp hu', e2⟩ hl3 hr
            rw [hr] at h3
            simp only [rm_bind_ok, rm_pure] at h3
            injection h3 with h3
            subst h3
            have hsol : Q (if FloatOps.lt r.1 w.sol.1 = true then r else w.sol).1 := by
              split
              · exact hq
              · exact d1
            refine ⟨hsol, d2, d3, ?_⟩
            intro x hx
            rcases List.mem_append.mp hx with hx | hx
            · exact d4 x hx
            · rw [List.mem_singleton] at hx
              subst hx
              exact Or.inl hsol
          · injection h3 with h3
            subst h3
            exact ⟨d1, d2, d3, d4⟩
      · obtain ⟨e4, e5⟩ := e3
        simp only [e5, rm_bind_ok] at h3
        injection h3 with h3
        subst h3
        exact ⟨d1, d2, d3, hleave []⟩
    · exact c2 j u hu
  | recv i w g rest h1 h2 h3 =>
    refine ⟨c1, fun j u hu => ?_⟩
    rcases getElem?_set_cases hu with rfl | hu
    · obtain ⟨d1, d2, d3, d4⟩ := c2 i w h1
      rw [h3] at d3
      exact ⟨d1, d3 g (by simp), fun x hx => d3 x (by simp [hx]), d4⟩
    · exact c2 j u hu
  | root i w msg rest h1 h2 h3 =>
    have hset : ∀ (j : Nat) (u : SWorker (XNum K)), (s.workers.set i { w with up := rest })[j]? = some u →
        Q u.sol.1 ∧ Q u.global ∧ (∀ g ∈ u.down, Q g) ∧
          ∀ x ∈ u.up, Q x.1 ∨ FloatOps.le (zero : XNum K) x.1 = false := by
      intro j u hu
      rcases getElem?_set_cases hu with rfl | hu
      · obtain ⟨d1, d2, d3, d4⟩ := c2 i w h2
        rw [h3] at d4
        exact ⟨d1, d2, d3, fun x hx => d4 x (by simp [hx])⟩
      · exact c2 j u hu
    have hmsg := (c2 i w h2).2.2.2 msg (by rw [h3]; simp)
    unfold SSys.handle
    split
    · rename_i h0
      have hm : Q msg.1 := by
        rcases hmsg with h | h
        · exact h
        · rw [h] at h0; cases h0
      have hwin : Q (if FloatOps.lt msg.1 s.winner.1 = true then msg else s.winner).1 := by
        split
        · exact hm
        · exact c1
      refine ⟨hwin, fun j u hu => ?_⟩
      simp only [List.getElem?_modify, Option.map_eq_map, Option.map_eq_some_iff] at hu
      obtain ⟨u', hu', rfl⟩ := hu
      have := hset j u' hu'
      split
      · refine ⟨this.1, this.2.1, ?_, this.2.2.2⟩
        intro g hg
        rcases List.mem_append.mp hg with hg | hg
        · exact this.2.2.1 g hg
        · rw [List.mem_singleton] at hg
          subst hg
          exact hwin
      · exact this
    · exact ⟨c1, hset⟩

theorem scosts_steps (hS : MSearch N S V A) (hdim : 0 < N) {Q : XNum K → Prop}
    (hQ : ∀ g pre r, Q g → ValidPre N pre → pre.length = 3 → S g pre = .ok r → Q r.1)
    {nW n : Nat} {lo hi : Nat → Nat} {s0 s : SSys (XNum K)} (h : SInv N V A 3 lo hi nW s0)
    (hc : SCosts Q s0) (hs : Steps (SStepG N S) n s0 s) : SCosts Q s := by
  induction hs with
  | refl s => exact hc
  | tail h1 h2 ih => exact scosts_step hS hQ (ssteps_inv hS hdim h h1).1 (ih h hc) h2

/-- every cost in the system satisfies `Q` -/
def DCosts (Q : XNum K → Prop) (s : DSys (XNum K)) : Prop :=
  Q s.winner.1 ∧ ∀ (i : Nat) (w : DWorker (XNum K)), s.workers[i]? = some w → Q w.sol.1 ∧ (∀ x ∈ w.down, Q x.1) ∧
    ∀ x ∈ w.up, Q x.1

/-- Whatever the search preserves, all costs in the dynamic solver have. -/
theorem dcosts_step (hS : MSearch N S V A) {Q : XNum K → Prop}
    (hQ : ∀ g pre r, Q g → ValidPre N pre → pre.length = 3 → S g pre = .ok r → Q r.1)
    {nW : Nat} {s s' : DSys (XNum K)} (h : DInv N V A nW s)
    (hc : DCosts Q s) (hs : DStepG N S s s') : DCosts Q s' := by
  obtain ⟨c1, c2⟩ := hc
  cases hs with
  | recv i w w' msg rest h1 h2 h3 h4 =>
    refine ⟨c1, fun j u hu => ?_⟩
    rcases getElem?_set_cases hu with rfl | hu
    · obtain ⟨d1, d2, d3⟩ := c2 i w h1
      rw [h3] at d2
      have hW := h.wk i w h1
      unfold dynWorkerG at h4
      split at h4
      · injection h4 with h4
        subst h4
        exact ⟨d1, fun x hx => d2 x (by simp [hx]), d3⟩
      · rename_i hz
        have hT : Triple N msg.2 ∧ Proper msg.1 := by
          cases hW.shape with
          | asked a1 a2 a3 => rw [h3] at a3; cases a3
          | task g p a1 a2 a3 a4 a5 a6 =>
            rw [h3] at a3
            injection a3 with a3
            rw [a3]
            exact ⟨a4, a5⟩
          | released g a1 a2 a3 =>
            rw [h3] at a3
            injection a3 with a3
            rw [a3] at hz
            exact absurd rfl hz
          | left a1 a2 a3 => rw [h3] at a3; cases a3
        obtain ⟨r, hr, -⟩ := hS msg.1 msg.2 hT.2 hT.1.validPre
        have hq := hQ _ _ _ (d2 msg (by simp)) hT.1.validPre hT.1.len hr
        rw [hr] at h4
        simp only [rm_bind_ok, rm_pure] at h4
        injection h4 with h4
        subst h4
        have hsol : Q (if FloatOps.lt r.1 w.sol.1 = true then r else w.sol).1 := by
          split
          · exact hq
          · exact d1
        refine ⟨hsol, fun x hx => d2 x (by simp [hx]), ?_⟩
        intro x hx
        rcases List.mem_append.mp hx with hx | hx
        · exact d3 x hx
        · rw [List.mem_singleton] at hx
          subst hx
          exact hsol
    · exact c2 j u hu
  | root _ i w msg rest h1 h2 h3 h4 =>
    have hset : ∀ (j : Nat) (u : DWorker (XNum K)), (s.workers.set i { w with up := rest })[j]? = some u →
        Q u.sol.1 ∧ (∀ x ∈ u.down, Q x.1) ∧ ∀ x ∈ u.up, Q x.1 := by
      intro j u hu
      rcases getElem?_set_cases hu with rfl | hu
      · obtain ⟨d1, d2, d3⟩ := c2 i w h2
        rw [h3] at d3
        exact ⟨d1, d2, fun x hx => d3 x (by simp [hx])⟩
      · exact c2 j u hu
    have hm : Q msg.1 := (c2 i w h2).2.2 msg (by rw [h3]; simp)
    set win := if (FloatOps.le (zero : XNum K) msg.1 && FloatOps.lt msg.1 s.winner.1) = true then msg
      else s.winner with hwin'
    have hwin : Q win.1 := by
      rw [hwin']
      split
      · exact hm
      · exact c1
    have hsend : ∀ (p : List Nat) (j : Nat) (u : DWorker (XNum K)), ((s.workers.set i { w with up := rest }).modify (msg.2 - 1)
        fun w => { w with down := w.down ++ [(win.1, p)] })[j]? = some u →
        Q u.sol.1 ∧ (∀ x ∈ u.down, Q x.1) ∧ ∀ x ∈ u.up, Q x.1 := by
      intro p j u hu
      simp only [List.getElem?_modify, Option.map_eq_map, Option.map_eq_some_iff] at hu
      obtain ⟨u', hu', rfl⟩ := hu
      have := hset j u' hu'
      split
      · refine ⟨this.1, ?_, this.2.2⟩
        intro g hg
        rcases List.mem_append.mp hg with hg | hg
        · exact this.2.1 g hg
        · rw [List.mem_singleton] at hg
          subst hg
          exact hwin
      · exact this
    unfold DSys.handle at h4
    cases hcur : s.current with
    | none =>
      simp only [hcur, rm_pure] at h4
      injection h4 with h4
      subst h4
      exact ⟨hwin, hsend _⟩
    | some p =>
      simp only [hcur] at h4
      cases hnp : nextPrefix N (N ^ 3 + 1) p with
      | error e => rw [hnp] at h4; cases h4
      | ok q =>
        rw [hnp] at h4
        simp only [rm_bind_ok, rm_pure] at h4
        injection h4 with h4
        subst h4
        exact ⟨hwin, hsend _⟩

theorem dcosts_steps (hS : MSearch N S V A) (hdim : 0 < N) {Q : XNum K → Prop}
    (hQ : ∀ g pre r, Q g → ValidPre N pre → pre.length = 3 → S g pre = .ok r → Q r.1)
    {nW n : Nat} {s0 s : DSys (XNum K)} (h : DInv N V A nW s0)
    (hc : DCosts Q s0) (hs : Steps (DStepG N S) n s0 s) : DCosts Q s := by
  induction hs with
  | refl s => exact hc
  | tail h1 h2 ih => exact dcosts_step hS hQ (dsteps_inv hS hdim h h1).1 (ih h hc) h2

end Walky
