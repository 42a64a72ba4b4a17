import Verif.Lemmas.Solve

/-! # Helper lemmas: the depth-first search in an arbitrary arithmetic, simulations -/

set_option linter.unusedSectionVars false

namespace Walky

open FloatOps Spec

section shape
variable {α : Type} [FloatOps α]

/-- Law-free main lemma. `Q` is an invariant of (prefix, running cost), `R` what is known about an
accepted leaf. -/
theorem dfs_shape {σ : Type} (m : Mat α) (test : PruneTest σ α) (J : σ → Prop)
    (Q : List Nat → α → Prop) (R : α → List Nat → Prop)
    (htest : ∀ a p x b, J a → ValidPre m.dim p → 2 ≤ p.length →
      ∃ go a', test a p x b = .ok (go, a') ∧ J a')
    (hQ1 : ∀ i x, i < m.dim → Q [] x → Q [i] x)
    (hQ2 : ∀ p a i x, ValidPre m.dim (p ++ [a, i]) → Q (p ++ [a]) x →
      Q (p ++ [a, i]) (x +ᶠ m.get a i) ∧ Q (p ++ [a]) ((x +ᶠ m.get a i) -ᶠ m.get a i))
    (hR : ∀ p x a b best, IsTour m.dim p → p.getLast? = some a → p.head? = some b → Q p x →
      (x +ᶠ m.get a b) <ᶠ best → R (x +ᶠ m.get a b) p)
    (hdim : 0 < m.dim) :
    ∀ (fuel : Nat) (pre : List Nat) (cost : α) (s : Solution α × σ), ValidPre m.dim pre →
      m.dim + 1 ≤ fuel + pre.length → J s.2 → Q pre cost →
      ∃ r, dfs m test fuel pre cost s = .ok r ∧ J r.2 ∧
        (r.1 = s.1 ∨ (IsTour m.dim r.1.2 ∧ R r.1.1 r.1.2)) := by
  intro fuel
  induction fuel with
  | zero =>
    intro pre cost s hv hf
    have := hv.length_le
    omega
  | succ fuel ih =>
    intro pre cost s hv hf hJ hQ
    unfold dfs
    by_cases hlen : pre.length = m.dim
    · have hne : pre ≠ [] := by rintro rfl; simp at hlen; omega
      have hT : IsTour m.dim pre := isTour_of_nodup hv.1 hv.2 hlen
      have hl : pre.getLast? = some (pre.getLast hne) := List.getLast?_eq_getLast_of_ne_nil hne
      have hh : pre.head? = some (pre.head hne) := List.head?_eq_some_head hne
      have he := entry_ok (m := m) (hv.2 _ (List.getLast_mem hne)) (hv.2 _ (List.head_mem hne))
      simp only [hlen, if_true, hl, hh, unwrapO, rm_bind_ok, he, rm_pure]
      split
      · rename_i hlt
        exact ⟨_, rfl, hJ, Or.inr ⟨hT, hR _ _ _ _ _ hT hl hh hQ hlt⟩⟩
      · exact ⟨s, rfl, hJ, Or.inl rfl⟩
    · simp only [hlen, if_false]
      have key := foldlM_ok (fun (st : α × Solution α × σ) i => do
        let (cur, s) := st
        if pre.contains i then return (cur, s)
        let pre' := pre ++ [i]
        if pre'.length = 1 then do
          let s ← dfs m test fuel pre' cur s
          return (cur, s)
        else do
          let a ← idx pre' (pre'.length - 2)
          let b ← idx pre' (pre'.length - 2 + 1)
          let w ← m.entry a b
          let cur := cur +ᶠ w
          let (go, aux) ← test s.2 pre' cur s.1.1
          let s ← if go then dfs m test fuel pre' cur (s.1, aux) else pure (s.1, aux)
          return (cur -ᶠ w, s))
        (fun _ st => J st.2.2 ∧ Q pre st.1 ∧
          (st.2.1 = s.1 ∨ (IsTour m.dim st.2.1.2 ∧ R st.2.1.1 st.2.1.2)))
        (List.range m.dim) (cost, s) ⟨hJ, hQ, Or.inl rfl⟩ ?_
      · obtain ⟨b, hb, h1, _, h3⟩ := key
        exact ⟨b.2, by rw [hb]; rfl, h1, h3⟩
      · rintro done i rest ⟨cur, t⟩ hl ⟨h1, h2, h3⟩
        have hi : i < m.dim := by
          have : i ∈ List.range m.dim := by rw [hl]; simp
          simpa using this
        by_cases hc : pre.contains i = true
        · have hc' : i ∈ pre := by simpa using hc
          exact ⟨(cur, t), by simp [hc'], h1, h2, h3⟩
        · have hc' : i ∉ pre := by simpa using hc
          have hv' := hv.snoc hi hc'
          have hcont : (pre.contains i) = false := by simpa using hc'
          simp only [hcont, Bool.false_eq_true, if_false]
          have comb : ∀ r : Solution α × σ, (r.1 = t.1 ∨ (IsTour m.dim r.1.2 ∧ R r.1.1 r.1.2)) →
              (r.1 = s.1 ∨ (IsTour m.dim r.1.2 ∧ R r.1.1 r.1.2)) := by
            intro r hr
            rcases hr with hr | hr
            · rw [hr]; exact h3
            · exact Or.inr hr
          by_cases hone : (pre ++ [i]).length = 1
          · simp only [hone, if_true]
            have hnil : pre = [] := by
              apply List.length_eq_zero_iff.mp
              simpa using hone
            obtain ⟨r, hr, r1, r2⟩ := ih (pre ++ [i]) cur t hv' (by simp; omega) h1 (by
              subst hnil; exact hQ1 i cur hi h2)
            exact ⟨(cur, r), by simp [hr], r1, h2, comb r r2⟩
          · simp only [hone, if_false]
            have hne : pre ≠ [] := by rintro rfl; simp at hone
            have hpos : 0 < pre.length := List.length_pos_of_ne_nil hne
            have i1 : idx (pre ++ [i]) ((pre ++ [i]).length - 2) = .ok (pre.getLast hne) := by
              apply idx_ok
              rw [List.getLast_eq_getElem]
              simp only [List.length_append, List.length_cons, List.length_nil]
              rw [List.getElem?_append_left (by omega)]
              rw [show pre.length + (0 + 1) - 2 = pre.length - 1 by omega]
              exact List.getElem?_eq_getElem _
            have i2 : idx (pre ++ [i]) ((pre ++ [i]).length - 2 + 1) = .ok i := by
              apply idx_ok
              simp only [List.length_append, List.length_cons, List.length_nil]
              rw [show pre.length + (0 + 1) - 2 + 1 = pre.length by omega]
              simp
            have hlastm := List.getLast_mem hne
            have i3 := entry_ok (m := m) (hv.2 _ hlastm) hi
            have hsplit : pre = pre.dropLast ++ [pre.getLast hne] :=
              (List.dropLast_append_getLast hne).symm
            have hsplit' : pre ++ [i] = pre.dropLast ++ [pre.getLast hne, i] := by
              conv_lhs => rw [hsplit]
              simp
            obtain ⟨q1, q2⟩ := hQ2 pre.dropLast (pre.getLast hne) i cur (hsplit' ▸ hv')
              (by rw [← hsplit]; exact h2)
            rw [← hsplit'] at q1
            rw [← hsplit] at q2
            simp only [i1, i2, i3, rm_bind_ok]
            have hlen2 : 2 ≤ (pre ++ [i]).length := by simp; omega
            obtain ⟨go, a', ht, hJ'⟩ := htest t.2 (pre ++ [i])
              (cur +ᶠ m.get (pre.getLast hne) i) t.1.1 h1 hv' hlen2
            simp only [ht, rm_bind_ok]
            cases go with
            | false =>
              exact ⟨(cur +ᶠ m.get (pre.getLast hne) i -ᶠ m.get (pre.getLast hne) i, (t.1, a')),
                by simp only [Bool.false_eq_true, if_false, rm_pure, rm_bind_ok], hJ', q2, h3⟩
            | true =>
              obtain ⟨r, hr, r1, r2⟩ := ih (pre ++ [i]) (cur +ᶠ m.get (pre.getLast hne) i)
                (t.1, a') hv' (by simp; omega) hJ' q1
              refine ⟨(cur +ᶠ m.get (pre.getLast hne) i -ᶠ m.get (pre.getLast hne) i, r), ?_, r1, q2,
                comb r r2⟩
              simp only [if_true, hr, rm_bind_ok, rm_pure]

end shape

/-! ## Simulation -/

/-- both computations succeed with related results, or both panic in the same way -/
def RelRes {A B : Type} (R : A → B → Prop) : RM A → RM B → Prop
  | .ok a, .ok b => R a b
  | .error e, .error e' => e = e'
  | _, _ => False

theorem RelRes.bind {A B A' B' : Type} {R : A → B → Prop} {S : A' → B' → Prop} {x : RM A} {y : RM B}
    {f : A → RM A'} {g : B → RM B'} (h : RelRes R x y) (hfg : ∀ a b, R a b → RelRes S (f a) (g b)) :
    RelRes S (x >>= f) (y >>= g) := by
  cases x with
  | ok a =>
    cases y with
    | ok b => exact hfg a b h
    | error e => exact absurd h (by simp [RelRes])
  | error e =>
    cases y with
    | ok b => exact absurd h (by simp [RelRes])
    | error e' => exact h

theorem RelRes.refl {A : Type} (x : RM A) : RelRes (fun a b => a = b) x x := by
  cases x <;> simp [RelRes]

theorem RelRes.foldlM {ι A B : Type} {R : A → B → Prop} {f : A → ι → RM A} {g : B → ι → RM B}
    (l : List ι) (hfg : ∀ i ∈ l, ∀ a b, R a b → RelRes R (f a i) (g b i)) :
    ∀ a b, R a b → RelRes R (l.foldlM f a) (l.foldlM g b) := by
  induction l with
  | nil => intro a b h; exact h
  | cons i l ih =>
    intro a b h
    rw [List.foldlM_cons, List.foldlM_cons]
    exact (hfg i (by simp) a b h).bind (fun a' b' h' =>
      ih (fun j hj => hfg j (by simp [hj])) a' b' h')

/-- the searches with two tests that agree in related states agree -/
theorem dfs_sim {α σ τ : Type} [FloatOps α] (m : Mat α) (t1 : PruneTest σ α) (t2 : PruneTest τ α)
    (S : σ → τ → Prop)
    (htest : ∀ a b p x y, S a b → ValidPre m.dim p → 2 ≤ p.length →
      RelRes (fun r1 r2 => r1.1 = r2.1 ∧ S r1.2 r2.2) (t1 a p x y) (t2 b p x y)) :
    ∀ (fuel : Nat) (pre : List Nat) (cost : α) (s : Solution α) (a : σ) (b : τ),
      ValidPre m.dim pre → S a b →
      RelRes (fun r1 r2 => r1.1 = r2.1 ∧ S r1.2 r2.2) (dfs m t1 fuel pre cost (s, a))
        (dfs m t2 fuel pre cost (s, b)) := by
  intro fuel
  induction fuel with
  | zero => intro pre cost s a b _ _; simp [dfs, RelRes]
  | succ fuel ih =>
    intro pre cost s a b hv hS
    unfold dfs
    split
    · refine (RelRes.refl _).bind ?_
      rintro l _ rfl
      refine (RelRes.refl _).bind ?_
      rintro f _ rfl
      refine (RelRes.refl _).bind ?_
      rintro w _ rfl
      simp only
      split
      · exact ⟨rfl, hS⟩
      · exact ⟨rfl, hS⟩
    · refine RelRes.bind (R := fun r1 r2 => r1.1 = r2.1 ∧ r1.2.1 = r2.2.1 ∧ S r1.2.2 r2.2.2) ?_ ?_
      · refine RelRes.foldlM _ ?_ _ _ ⟨rfl, rfl, hS⟩
        rintro i hi ⟨cur, t, a⟩ ⟨cur', t', b⟩ ⟨h1, h2, h3⟩
        simp only at h1 h2 h3
        subst h1 h2
        simp only
        by_cases hc : pre.contains i = true
        · rw [if_pos hc, if_pos hc]; exact ⟨rfl, rfl, h3⟩
        · rw [if_neg hc, if_neg hc]
          have hc' : i ∉ pre := by simpa using hc
          have hi' : i < m.dim := by simpa using hi
          have hv' := hv.snoc hi' hc'
          by_cases hone : (pre ++ [i]).length = 1
          · rw [if_pos hone, if_pos hone]
            refine (ih (pre ++ [i]) cur t a b hv' h3).bind ?_
            rintro r1 r2 ⟨e1, e2⟩
            exact ⟨rfl, e1, e2⟩
          · rw [if_neg hone, if_neg hone]
            refine (RelRes.refl _).bind ?_
            rintro x _ rfl
            refine (RelRes.refl _).bind ?_
            rintro y _ rfl
            refine (RelRes.refl _).bind ?_
            rintro w _ rfl
            refine (htest a b (pre ++ [i]) _ t.1 h3 hv' (by simp at hone ⊢; cases pre <;> simp_all)).bind ?_
            rintro ⟨go, a'⟩ ⟨go', b'⟩ ⟨e1, e2⟩
            simp only at e1 e2
            subst e1
            simp only
            cases go with
            | true =>
              simp only [if_true]
              refine (ih (pre ++ [i]) _ t a' b' hv' e2).bind ?_
              rintro r1 r2 ⟨e1, e2⟩
              exact ⟨rfl, e1, e2⟩
            | false => exact ⟨rfl, rfl, e2⟩
      · rintro r1 r2 ⟨_, e2, e3⟩
        exact ⟨e2, e3⟩

end Walky
