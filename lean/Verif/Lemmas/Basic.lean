import Verif.Model.Base
import Verif.Spec

/-! # Helper lemmas: the panic monad and lists -/

set_option linter.unusedSectionVars false

namespace Walky

@[simp] theorem rm_bind_ok {α β : Type} (a : α) (f : α → RM β) :
    ((Except.ok a : RM α) >>= f) = f a := rfl

@[simp] theorem rm_bind_err {α β : Type} (e : Panic) (f : α → RM β) :
    ((Except.error e : RM α) >>= f) = .error e := rfl

@[simp] theorem rm_pure {α : Type} (a : α) : (pure a : RM α) = .ok a := rfl

theorem idx_ok {α : Type} {l : List α} {i : Nat} {a : α} (h : l[i]? = some a) :
    idx l i = .ok a := by simp [idx, h]

theorem idx_lt {α : Type} {l : List α} {i : Nat} (h : i < l.length) :
    idx l i = .ok l[i] := idx_ok (List.getElem?_eq_getElem h)

theorem entry_ok {α : Type} {m : Mat α} {i j : Nat} (hi : i < m.dim) (hj : j < m.dim) :
    m.entry i j = .ok (m.get i j) := by simp [Mat.entry, hi, hj]

/-- Invariant rule for loops in the panic monad. -/
theorem foldlM_ok {ι β : Type} (f : β → ι → RM β) (Inv : List ι → β → Prop) (l : List ι) (b : β)
    (h0 : Inv [] b)
    (hstep : ∀ done i rest b, l = done ++ i :: rest → Inv done b →
      ∃ b', f b i = .ok b' ∧ Inv (done ++ [i]) b') :
    ∃ b', l.foldlM f b = .ok b' ∧ Inv l b' := by
  suffices H : ∀ (rest done : List ι) (b : β), l = done ++ rest → Inv done b →
      ∃ b', rest.foldlM f b = .ok b' ∧ Inv l b' from H l [] b rfl h0
  intro rest
  induction rest with
  | nil =>
    intro done b hl hI
    refine ⟨b, rfl, ?_⟩
    simpa [hl] using hI
  | cons i rest ih =>
    intro done b hl hI
    obtain ⟨b', hb', hI'⟩ := hstep done i rest b hl hI
    obtain ⟨b'', hb'', hI''⟩ := ih (done ++ [i]) b' (by simp [hl]) hI'
    refine ⟨b'', ?_, hI''⟩
    simp [List.foldlM_cons, hb', hb'']

/-- Invariant rule for pure loops. -/
theorem foldl_inv {ι β : Type} (f : β → ι → β) (Inv : List ι → β → Prop) (l : List ι) (b : β)
    (h0 : Inv [] b)
    (hstep : ∀ done i rest b, l = done ++ i :: rest → Inv done b → Inv (done ++ [i]) (f b i)) :
    Inv l (l.foldl f b) := by
  suffices H : ∀ (rest done : List ι) (b : β), l = done ++ rest → Inv done b →
      Inv l (rest.foldl f b) from H l [] b rfl h0
  intro rest
  induction rest with
  | nil => intro done b hl hI; simpa [hl] using hI
  | cons i rest ih =>
    intro done b hl hI
    exact ih (done ++ [i]) _ (by simp [hl]) (hstep done i rest b hl hI)

end Walky
