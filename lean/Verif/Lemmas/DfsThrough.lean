import Verif.Lemmas.DfsEntered

/-! # Helper lemmas: a search that finds a good tour early and then enters only cheap prefixes -/

set_option linter.unusedSectionVars false

namespace Walky

open FloatOps Spec XNum

variable {K : Type} [Field K] [LinearOrder K] [IsStrictOrderedRing K]

/-- Every prefix of `q` longer than `k` agrees with `Q` as far as both go, or has passed the test at a
time when the best known cost was at most `f`. -/
def Through {σ : Type} (c : Nat → Nat → K) (test : PruneTest σ (XNum K)) (J : σ → Prop) (f : K)
    (Q : List Nat) (k : Nat) (q : List Nat) : Prop :=
  ∀ p, p <+: q → k < p.length → 2 ≤ p.length → (p <+: Q ∨ Q <+: p) ∨
    ∃ a b a', J a ∧ Proper b ∧ FloatOps.le b (fin f) = true ∧
      test a p (fin (pathCost c p)) b = .ok (true, a')

theorem range_split {n i : Nat} {done rest : List Nat} (h : List.range n = done ++ i :: rest) :
    done = List.range i := by
  have hlen : done.length < n := by
    have := congrArg List.length h
    simp at this
    omega
  have hi : i = done.length := by
    have := congrArg (fun l => l[done.length]?) h
    simp only [List.getElem?_append_right (le_refl _), Nat.sub_self, List.getElem?_cons_zero] at this
    rw [List.getElem?_range hlen] at this
    exact (Option.some.inj this).symm
  have := congrArg (List.take done.length) h
  rw [List.take_left, List.take_range, Nat.min_eq_left hlen.le] at this
  rw [hi, this]

theorem prefix_range {p : List Nat} {L : Nat} (h : p <+: List.range L) : p = List.range p.length := by
  have h2 := h.length_le
  rw [List.length_range] at h2
  have := List.prefix_iff_eq_take.mp h
  rw [List.take_range, Nat.min_eq_left h2] at this
  exact this

/-- If the search below `Q = [0, …, L - 1]`, started without a solution, finds one of cost at most
`f`, then everything that is found outside of `Q` has been entered with a best cost of at most `f`. -/
theorem dfs_via {σ : Type} (m : Mat (XNum K)) (c : Nat → Nat → K) (hm : Rep m c)
    (test : PruneTest σ (XNum K)) (J : σ → Prop) (htest : TestOk m.dim test J)
    (hdim : 0 < m.dim) (L : Nat) (hL : L ≤ m.dim) (f : K)
    (hinf : ∀ p, p <+: List.range L → 2 ≤ p.length → ∀ a, J a →
      ∃ a', test a p (fin (pathCost c p)) XNum.inf = .ok (true, a'))
    (hQ : ∀ s r, J s.2 → s.1.1 = XNum.inf →
      dfs m test (m.dim + 1 - L) (List.range L) (fin (pathCost c (List.range L))) s = .ok r →
      FloatOps.le r.1.1 (fin f) = true) :
    ∀ (fuel : Nat) (pre : List Nat) (s : Solution (XNum K) × σ), ValidPre m.dim pre →
      fuel + pre.length = m.dim + 1 → J s.2 → Proper s.1.1 →
      (FloatOps.le s.1.1 (fin f) = true ∨ s.1.1 = XNum.inf ∧ pre <+: List.range L) →
      ∃ r, dfs m test fuel pre (fin (pathCost c pre)) s = .ok r ∧ J r.2 ∧
        Better c m.dim pre s.1 r.1 ∧ FloatOps.le r.1.1 (fin f) = true ∧
        (r.1 = s.1 ∨ Through c test J f (List.range L) pre.length r.1.2) := by
  intro fuel
  induction fuel with
  | zero =>
    intro pre s hv hf
    have := hv.length_le
    omega
  | succ fuel ih =>
    intro pre s hv hf hJ hs hmode
    obtain ⟨r, hr, hrJ, hrB, -, -⟩ :=
      dfs_exact m c hm test J htest hdim (fuel + 1) pre s hv (by omega) hJ hs
    refine ⟨r, hr, hrJ, hrB, ?_⟩
    by_cases hpQ : s.1.1 = XNum.inf ∧ pre = List.range L
    · obtain ⟨h1, rfl⟩ := hpQ
      rw [List.length_range] at hf
      have hfu : m.dim + 1 - L = fuel + 1 := by omega
      refine ⟨hQ s r hJ h1 (by rw [hfu]; exact hr), ?_⟩
      rcases hrB with h | ⟨-, h2, -, -⟩
      · exact Or.inl h
      · right
        intro p hp hk _
        exact Or.inl (Or.inr (List.prefix_of_prefix_length_le h2 hp hk.le))
    -- a proper prefix of `Q`, or a good solution is known
    have hmode : FloatOps.le s.1.1 (fin f) = true ∨
        s.1.1 = XNum.inf ∧ pre = List.range pre.length ∧ pre.length < L := by
      rcases hmode with h | ⟨h, h'⟩
      · exact Or.inl h
      · refine Or.inr ⟨h, prefix_range h', ?_⟩
        have h2 := h'.length_le
        rw [List.length_range] at h2
        rcases Nat.lt_or_ge pre.length L with h3 | h3
        · exact h3
        · exact absurd ⟨h, by have := prefix_range h'; rwa [show pre.length = L by omega] at this⟩ hpQ
    by_cases hlen : pre.length = m.dim
    · have hlow : FloatOps.le s.1.1 (fin f) = true := by
        rcases hmode with h | ⟨_, _, h⟩
        · exact h
        · omega
      refine ⟨le_trans' (hrB.le hs) hlow, ?_⟩
      rcases hrB with h | ⟨h1, -, -, -⟩
      · exact Or.inl h
      · right
        intro p hp hk
        have := hp.length_le
        rw [h1.length] at this
        omega
    have hlt : pre.length < m.dim := lt_of_le_of_ne hv.length_le hlen
    unfold dfs at hr
    simp only [hlen, if_false] at hr
    have key := foldlM_ok (fun (st : XNum K × Solution (XNum K) × σ) i => do
      let (cur, s) := st
      if pre.contains i then return (cur, s)
      let pre' := pre ++ [i]
      if pre'.length = 1 then do
        let s ← dfs m test fuel pre' cur s
        return (cur, s)
      else do
        let a ← idx pre' (pre'.length - 2)
        let b ← idx pre' (pre'.length - 2 + 1)
        let w ← m.entry a b
        let cur := cur +ᶠ w
        let (go, aux) ← test s.2 pre' cur s.1.1
        let s ← if go then dfs m test fuel pre' cur (s.1, aux) else pure (s.1, aux)
        return (cur -ᶠ w, s))
      (fun done st => st.1 = fin (pathCost c pre) ∧ J st.2.2 ∧ Better c m.dim pre s.1 st.2.1 ∧
        (FloatOps.le st.2.1.1 (fin f) = true ∨
          st.2.1.1 = XNum.inf ∧ pre = List.range pre.length ∧ pre.length < L ∧
            ∀ i ∈ done, i ∈ pre) ∧
        (st.2.1 = s.1 ∨ Through c test J f (List.range L) pre.length st.2.1.2))
      (List.range m.dim) (fin (pathCost c pre), s)
      ⟨rfl, hJ, Or.inl rfl, hmode.imp id (fun ⟨a, b, d⟩ => ⟨a, b, d, by simp⟩), Or.inl rfl⟩ ?_
    · obtain ⟨b, hb, -, -, -, h4, h5⟩ := key
      rw [hb] at hr
      cases hr
      refine ⟨?_, h5⟩
      rcases h4 with h4 | ⟨_, h6, _, h7⟩
      · exact h4
      · have := h7 pre.length (by simpa using hlt)
        rw [h6] at this
        simp at this
    · rintro done i rest ⟨cur, t⟩ hl ⟨h1, h2, h3, h4, h5⟩
      simp only at h1 h2 h3 h4 h5
      subst h1
      have hi : i < m.dim := by
        have : i ∈ List.range m.dim := by rw [hl]; simp
        simpa using this
      by_cases hc : pre.contains i = true
      · have hc' : i ∈ pre := by simpa using hc
        refine ⟨(fin (pathCost c pre), t), by simp [hc'], rfl, h2, h3, ?_, h5⟩
        rcases h4 with h4 | ⟨a, b, d, e⟩
        · exact Or.inl h4
        · refine Or.inr ⟨a, b, d, fun j hj => ?_⟩
          rcases List.mem_append.mp hj with hj | hj
          · exact e j hj
          · simp at hj; subst hj; exact hc'
      · have hc' : i ∉ pre := by simpa using hc
        have hv' := hv.snoc hi hc'
        have hpr : Proper t.1.1 := h3.proper hs
        have hpp : pre <+: pre ++ [i] := List.prefix_append _ _
        -- on the way to `Q` the next city is the next city of `Q`
        have hnext : ∀ (b : pre = List.range pre.length) (d : pre.length < L)
            (e : ∀ j ∈ done, j ∈ pre), pre ++ [i] <+: List.range L := by
          intro b d e
          rw [range_split hl] at e
          have hi' : i = pre.length := by
            have g1 : ¬ i < pre.length := by
              intro h
              apply hc'
              rw [b]
              simpa using h
            have g2 : ¬ pre.length < i := by
              intro h
              have := e pre.length (by simpa using h)
              rw [b] at this
              simp at this
            omega
          have : pre ++ [i] = List.range (pre.length + 1) := by
            rw [List.range_succ, ← b, hi']
          rw [this]
          refine List.prefix_iff_eq_take.mpr ?_
          rw [List.length_range, List.take_range, Nat.min_eq_left d]
        have hmode' : ∀ a' : σ, (FloatOps.le (t.1, a').1.1 (fin f) = true ∨
            (t.1, a').1.1 = XNum.inf ∧ pre ++ [i] <+: List.range L) := by
          intro a'
          rcases h4 with h4 | ⟨a, b, d, e⟩
          · exact Or.inl h4
          · exact Or.inr ⟨a, hnext b d e⟩
        have finish : ∀ (r : Solution (XNum K) × σ), J r.2 → Better c m.dim (pre ++ [i]) t.1 r.1 →
            FloatOps.le r.1.1 (fin f) = true →
            (r.1 = t.1 ∨ Through c test J f (List.range L) (pre ++ [i]).length r.1.2) →
            (2 ≤ (pre ++ [i]).length → pre ++ [i] <+: List.range L ∨ ∃ a b a', J a ∧ Proper b ∧
              FloatOps.le b (fin f) = true ∧
              test a (pre ++ [i]) (fin (pathCost c (pre ++ [i]))) b = .ok (true, a')) →
            (fin (pathCost c pre) = fin (pathCost c pre) ∧ J r.2 ∧ Better c m.dim pre s.1 r.1 ∧
              (FloatOps.le r.1.1 (fin f) = true ∨
                r.1.1 = XNum.inf ∧ pre = List.range pre.length ∧ pre.length < L ∧
                  ∀ j ∈ done ++ [i], j ∈ pre) ∧
              (r.1 = s.1 ∨ Through c test J f (List.range L) pre.length r.1.2)) := by
          intro r r1 r2 r3 r4 r5
          refine ⟨rfl, r1, h3.trans (Better.trans (Or.inl rfl) r2 hpp) (List.prefix_refl _), Or.inl r3, ?_⟩
          rcases r4 with r4 | r4
          · rw [r4]; exact h5
          rcases r2 with r2 | ⟨-, r2, -, -⟩
          · rw [r2]; exact h5
          right
          intro p hp hk h2p
          rcases Nat.lt_or_ge (pre ++ [i]).length p.length with h | h
          · exact r4 p hp h h2p
          · have hpl : p.length = (pre ++ [i]).length := by simp at h ⊢; omega
            have : p = pre ++ [i] := by
              have a := List.prefix_of_prefix_length_le hp r2 (by omega)
              exact a.eq_of_length hpl
            rw [this] at h2p ⊢
            exact (r5 h2p).imp Or.inl id
        have hcont : (pre.contains i) = false := by simpa using hc'
        simp only [hcont, Bool.false_eq_true, if_false]
        by_cases h1 : (pre ++ [i]).length = 1
        · simp only [h1, if_true]
          have hnil : pre = [] := by
            apply List.length_eq_zero_iff.mp
            simpa using h1
          have hpc : pathCost c pre = pathCost c (pre ++ [i]) := by simp [hnil]
          obtain ⟨r, hr, r1, r2, r3, r4⟩ := ih (pre ++ [i]) t hv' (by simp; omega) h2 hpr (hmode' t.2)
          rw [← hpc] at hr
          exact ⟨(fin (pathCost c pre), r), by simp [hr], finish r r1 r2 r3 r4 (fun h => by omega)⟩
        · simp only [h1, if_false]
          have hne : pre ≠ [] := by rintro rfl; simp at h1
          have hpos : 0 < pre.length := List.length_pos_of_ne_nil hne
          have i1 : idx (pre ++ [i]) ((pre ++ [i]).length - 2) = .ok (pre.getLast hne) := by
            apply idx_ok
            rw [List.getLast_eq_getElem]
            simp only [List.length_append, List.length_cons, List.length_nil]
            rw [List.getElem?_append_left (by omega)]
            rw [show pre.length + (0 + 1) - 2 = pre.length - 1 by omega]
            exact List.getElem?_eq_getElem _
          have i2 : idx (pre ++ [i]) ((pre ++ [i]).length - 2 + 1) = .ok i := by
            apply idx_ok
            simp only [List.length_append, List.length_cons, List.length_nil]
            rw [show pre.length + (0 + 1) - 2 + 1 = pre.length by omega]
            simp
          have hlastm := List.getLast_mem hne
          have i3 : m.entry (pre.getLast hne) i = .ok (fin (c (pre.getLast hne) i)) := by
            rw [entry_ok (hv.2 _ hlastm) hi, hm.off _ _ (hv.2 _ hlastm) hi]
            rintro rfl
            exact hc' hlastm
          have hpc : pathCost c pre + c (pre.getLast hne) i = pathCost c (pre ++ [i]) := by
            conv_rhs => rw [← List.dropLast_append_getLast hne]
            rw [List.append_assoc, List.cons_append, List.nil_append, pathCost_snoc,
              List.dropLast_append_getLast]
          have hadd : FloatOps.add (fin (pathCost c pre)) (fin (c (pre.getLast hne) i)) =
              fin (pathCost c (pre ++ [i])) := by rw [XNum.add_fin, hpc]
          simp only [i1, i2, i3, rm_bind_ok, hadd]
          have hlen2 : 2 ≤ (pre ++ [i]).length := by simp; omega
          obtain ⟨go, a', ht, hJ'⟩ :=
            htest t.2 (pre ++ [i]) (pathCost c (pre ++ [i])) t.1.1 h2 hv' hlen2 hpr
          have hback : FloatOps.sub (fin (pathCost c (pre ++ [i])))
              (fin (c (pre.getLast hne) i)) = fin (pathCost c pre) := by
            rw [XNum.sub_fin, ← hpc]; congr 1; ring
          simp only [ht, rm_bind_ok]
          cases go with
          | false =>
            refine ⟨(fin (pathCost c pre), (t.1, a')), by simp [hback], rfl, hJ', h3, ?_, h5⟩
            rcases h4 with h4 | ⟨a, b, d, e⟩
            · exact Or.inl h4
            · obtain ⟨a'', ha''⟩ := hinf (pre ++ [i]) (hnext b d e) hlen2 t.2 h2
              rw [a] at ht
              rw [ht] at ha''
              simp at ha''
          | true =>
            obtain ⟨r, hr, r1, r2, r3, r4⟩ := ih (pre ++ [i]) (t.1, a') hv' (by simp; omega)
              hJ' hpr (hmode' a')
            refine ⟨(fin (pathCost c pre), r), by simp [hr, hback], finish r r1 r2 r3 r4 fun _ => ?_⟩
            rcases h4 with h4 | ⟨a, b, d, e⟩
            · exact Or.inr ⟨t.2, t.1.1, a', h2, hpr, h4, ht⟩
            · exact Or.inl (hnext b d e)

/-- the same for the whole search -/
theorem solveDfs_through {σ : Type} {m : Mat (XNum K)} {c : Nat → Nat → K} (hm : Rep m c)
    {test : PruneTest σ (XNum K)} {J : σ → Prop} (ht : TestOk m.dim test J) (hdim : 0 < m.dim)
    {aux : σ} (hJ : J aux) (L : Nat) (hL : L ≤ m.dim) (f : K)
    (hinf : ∀ p, p <+: List.range L → 2 ≤ p.length → ∀ a, J a →
      ∃ a', test a p (fin (pathCost c p)) XNum.inf = .ok (true, a'))
    (hQ : ∀ s r, J s.2 → s.1.1 = XNum.inf →
      dfs m test (m.dim + 1 - L) (List.range L) (fin (pathCost c (List.range L))) s = .ok r →
      FloatOps.le r.1.1 (fin f) = true) :
    ∃ p, solveDfs m test aux = .ok (fin (tourCost c p), p) ∧ IsTour m.dim p ∧ tourCost c p ≤ f ∧
      Through c test J f (List.range L) 0 p := by
  obtain ⟨r, h1, -, h3, h4, h5⟩ := dfs_via m c hm test J ht hdim L hL f hinf hQ (m.dim + 1) []
    ((XNum.inf, []), aux) (validPre_nil _) (by simp) hJ proper_inf (Or.inr ⟨rfl, List.nil_prefix⟩)
  rcases h3 with h | ⟨a, -, d, -⟩
  · rw [h] at h4; simp at h4
  · refine ⟨r.1.2, ?_, a, by rw [d] at h4; simpa using h4, ?_⟩
    · unfold solveDfs
      have : (zero : XNum K) = fin (pathCost c []) := rfl
      rw [this, inf_def, h1, ← d]
      rfl
    · rcases h5 with h | h
      · have := a.length
        rw [h] at this
        simp at this
        omega
      · exact h

end Walky
