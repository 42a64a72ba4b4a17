import Verif.Num

/-! # Helper lemmas: order on `XNum` -/

set_option linter.unusedSectionVars false

namespace Walky.XNum

variable {K : Type} [Field K] [LinearOrder K]

open FloatOps

/-- finite or `+∞` -/
def Proper (x : XNum K) : Prop := x = inf ∨ ∃ a, x = fin a

@[simp] theorem proper_inf : Proper (inf : XNum K) := Or.inl rfl
@[simp] theorem proper_fin (a : K) : Proper (fin a) := Or.inr ⟨a, rfl⟩

theorem le_trans' {x y z : XNum K} (h1 : FloatOps.le x y = true) (h2 : FloatOps.le y z = true) :
    FloatOps.le x z = true := by
  cases x <;> cases y <;> cases z <;> simp_all [FloatOps.le, XNum.le]
  exact h1.trans h2

theorem le_of_lt' {x y : XNum K} (h : FloatOps.lt x y = true) : FloatOps.le x y = true := by
  cases x <;> cases y <;> simp_all [FloatOps.le, XNum.le, FloatOps.lt, XNum.lt]
  exact h.le

theorem lt_of_lt_of_le' {x y z : XNum K} (h1 : FloatOps.lt x y = true)
    (h2 : FloatOps.le y z = true) : FloatOps.lt x z = true := by
  cases x <;> cases y <;> cases z <;> simp_all [FloatOps.le, XNum.le, FloatOps.lt, XNum.lt]
  exact h1.trans_le h2

theorem lt_trans' {x y z : XNum K} (h1 : FloatOps.lt x y = true)
    (h2 : FloatOps.lt y z = true) : FloatOps.lt x z = true :=
  lt_of_lt_of_le' h1 (le_of_lt' h2)

theorem Proper.le_refl {x : XNum K} (h : Proper x) : FloatOps.le x x = true := by
  rcases h with rfl | ⟨a, rfl⟩ <;> simp

theorem Proper.le_inf {x : XNum K} (h : Proper x) : FloatOps.le x inf = true := by
  rcases h with rfl | ⟨a, rfl⟩ <;> simp

theorem Proper.not_lt {x y : XNum K} (hx : Proper x) (hy : Proper y)
    (h : FloatOps.lt x y = false) : FloatOps.le y x = true := by
  rcases hx with rfl | ⟨a, rfl⟩ <;> rcases hy with rfl | ⟨b, rfl⟩ <;> simp_all

theorem Proper.not_le {x y : XNum K} (hx : Proper x) (hy : Proper y)
    (h : FloatOps.le x y = false) : FloatOps.lt y x = true := by
  rcases hx with rfl | ⟨a, rfl⟩ <;> rcases hy with rfl | ⟨b, rfl⟩ <;> simp_all

theorem le_antisymm' {x y : XNum K} (h1 : FloatOps.le x y = true) (h2 : FloatOps.le y x = true) :
    x = y := by
  cases x <;> cases y <;> simp_all [FloatOps.le, XNum.le]
  exact _root_.le_antisymm h1 h2

end Walky.XNum
