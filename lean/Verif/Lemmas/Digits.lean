import Verif.Model.Digits
import Verif.Lemmas.Basic
import Mathlib.Data.Nat.Digits.Defs
import Mathlib.Tactic.Ring
import Mathlib.Tactic.Linarith

/-! # Helper lemmas: digits -/

namespace Walky

/-- the number with the given digits, most significant first -/
def digitsVal (b : Nat) (ds : List Nat) : Nat := Nat.ofDigits b ds.reverse

/-- digits below the base -/
def ValidDigits (b : Nat) (ds : List Nat) : Prop := ∀ d ∈ ds, d < b

theorem ofDigits_lt {b : Nat} : ∀ {l : List Nat}, (∀ d ∈ l, d < b) → Nat.ofDigits b l < b ^ l.length
  | [], _ => by simp
  | d :: l, h => by
    have h1 := ofDigits_lt (l := l) (fun x hx => h x (by simp [hx]))
    have h2 := h d (by simp)
    rw [Nat.ofDigits_cons, List.length_cons, pow_succ]
    have : b * Nat.ofDigits b l + b ≤ b ^ l.length * b := by
      calc b * Nat.ofDigits b l + b = (Nat.ofDigits b l + 1) * b := by ring
        _ ≤ _ := Nat.mul_le_mul_right _ h1
    omega

theorem ofDigits_inj' {b : Nat} : ∀ {l l' : List Nat}, l.length = l'.length → (∀ d ∈ l, d < b) →
    (∀ d ∈ l', d < b) → Nat.ofDigits b l = Nat.ofDigits b l' → l = l'
  | [], [], _, _, _, _ => rfl
  | [], _ :: _, h, _, _, _ => by simp at h
  | _ :: _, [], h, _, _, _ => by simp at h
  | d :: l, d' :: l', h, h1, h2, he => by
    have a1 := h1 d (by simp)
    have a2 := h2 d' (by simp)
    rw [Nat.ofDigits_cons, Nat.ofDigits_cons] at he
    have e1 := congrArg (· % b) he
    simp only [Nat.add_mul_mod_self_left, Nat.mod_eq_of_lt a1, Nat.mod_eq_of_lt a2] at e1
    subst e1
    have e2 : Nat.ofDigits b l = Nat.ofDigits b l' := by
      have : b * Nat.ofDigits b l = b * Nat.ofDigits b l' := by omega
      exact Nat.eq_of_mul_eq_mul_left (by omega) this
    rw [ofDigits_inj' (by simpa using h) (fun x hx => h1 x (by simp [hx]))
      (fun x hx => h2 x (by simp [hx])) e2]

theorem digitsVal_lt {b : Nat} {ds : List Nat} (h : ValidDigits b ds) :
    digitsVal b ds < b ^ ds.length := by
  have := ofDigits_lt (l := ds.reverse) (fun d hd => h d (by simpa using hd))
  simpa [digitsVal] using this

theorem digitsVal_inj {b : Nat} {l l' : List Nat} (hl : l.length = l'.length)
    (h : ValidDigits b l) (h' : ValidDigits b l') (he : digitsVal b l = digitsVal b l') : l = l' := by
  have := ofDigits_inj' (l := l.reverse) (l' := l'.reverse) (by simpa using hl)
    (fun d hd => h d (by simpa using hd)) (fun d hd => h' d (by simpa using hd)) he
  simpa using this

theorem convertLoop_ok {b : Nat} (hb : 0 < b) : ∀ (k r : Nat) (acc : List Nat),
    ∃ l, convertLoop b k r acc = .ok (acc ++ l) ∧ l.length = k ∧ (∀ d ∈ l, d < b) ∧
      Nat.ofDigits b l = r % b ^ k
  | 0, r, acc => ⟨[], by simp [convertLoop], rfl, by simp, by simp [Nat.mod_one]⟩
  | k + 1, r, acc => by
    obtain ⟨l, h1, h2, h3, h4⟩ := convertLoop_ok hb k (r / b) (acc ++ [r % b])
    refine ⟨r % b :: l, ?_, by simp [h2], ?_, ?_⟩
    · unfold convertLoop
      rw [if_neg (by omega), h1]
      simp
    · intro d hd
      rcases List.mem_cons.mp hd with h | h
      · rw [h]; exact Nat.mod_lt _ hb
      · exact h3 d h
    · rw [Nat.ofDigits_cons, h4, pow_succ', Nat.mod_mul]

theorem convert_ok {b : Nat} (hb : 0 < b) (v k : Nat) :
    ∃ ds, convertToBAryDigits v b k = .ok ds ∧ ds.length = k ∧ ValidDigits b ds ∧
      digitsVal b ds = v % b ^ k := by
  obtain ⟨l, h1, h2, h3, h4⟩ := convertLoop_ok hb k v []
  refine ⟨l.reverse, ?_, by simpa using h2, fun d hd => h3 d (by simpa using hd), by
    simpa [digitsVal] using h4⟩
  unfold convertToBAryDigits
  rw [h1]
  simp

theorem incRev_ok {b : Nat} : ∀ (ds : List Nat), (∀ d ∈ ds, d < b) →
    ∃ l f, incRev b 1 ds = .ok (l, f) ∧ l.length = ds.length ∧ (∀ d ∈ l, d < b) ∧
      ((f = true ∧ Nat.ofDigits b l = Nat.ofDigits b ds + 1) ∨
       (f = false ∧ Nat.ofDigits b ds + 1 = b ^ ds.length))
  | [], _ => ⟨[], false, rfl, rfl, by simp, by simp⟩
  | d :: ds, h => by
    have hd := h d (by simp)
    have hds : ∀ x ∈ ds, x < b := fun x hx => h x (by simp [hx])
    unfold incRev
    rw [if_neg (by omega)]
    by_cases hc : d + 1 < b
    · refine ⟨(d + 1) :: ds, true, ?_, rfl, ?_, Or.inl ⟨rfl, ?_⟩⟩
      · simp only
        rw [if_pos (Nat.div_eq_of_lt hc), Nat.mod_eq_of_lt hc]
      · intro x hx
        rcases List.mem_cons.mp hx with h | h
        · omega
        · exact hds x h
      · rw [Nat.ofDigits_cons, Nat.ofDigits_cons]
        omega
    · have hb : d + 1 = b := by omega
      obtain ⟨l, f, h1, h2, h3, h4⟩ := incRev_ok ds hds
      refine ⟨0 :: l, f, ?_, by simp [h2], ?_, ?_⟩
      · simp only
        rw [hb, Nat.div_self (by omega), if_neg (by omega), h1, Nat.mod_self]
        rfl
      · intro x hx
        rcases List.mem_cons.mp hx with h | h
        · omega
        · exact h3 x h
      · rcases h4 with ⟨e1, e2⟩ | ⟨e1, e2⟩
        · left
          refine ⟨e1, ?_⟩
          rw [Nat.ofDigits_cons, Nat.ofDigits_cons, e2]
          rw [Nat.mul_add]
          omega
        · right
          refine ⟨e1, ?_⟩
          rw [Nat.ofDigits_cons, List.length_cons, pow_succ, ← e2]
          rw [Nat.add_mul, Nat.mul_comm]
          omega

theorem getNextValue_ok {b : Nat} {ds : List Nat} (h : ValidDigits b ds) :
    ∃ l, l.length = ds.length ∧ ValidDigits b l ∧
      ((digitsVal b ds + 1 < b ^ ds.length ∧ getNextValue ds b = .ok (l, some l) ∧
          digitsVal b l = digitsVal b ds + 1) ∨
       (digitsVal b ds + 1 = b ^ ds.length ∧ getNextValue ds b = .ok (l, none))) := by
  obtain ⟨l, f, h1, h2, h3, h4⟩ := incRev_ok ds.reverse (fun d hd => h d (by simpa using hd))
  have hv : ValidDigits b l.reverse := fun d hd => h3 d (by simpa using hd)
  refine ⟨l.reverse, by simpa using h2, hv, ?_⟩
  unfold getNextValue
  rw [h1]
  simp only [rm_bind_ok, rm_pure]
  rcases h4 with ⟨rfl, e⟩ | ⟨rfl, e⟩
  · left
    have e' : digitsVal b l.reverse = digitsVal b ds + 1 := by simpa [digitsVal] using e
    refine ⟨?_, by simp, e'⟩
    rw [← e']
    have := digitsVal_lt hv
    simpa [h2] using this
  · right
    exact ⟨by simpa [digitsVal] using e, by simp⟩

end Walky
