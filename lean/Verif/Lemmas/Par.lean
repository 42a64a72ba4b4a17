import Verif.Lemmas.PrimPure

/-! # Helper lemmas: parallel reductions -/

set_option linter.unusedSectionVars false

namespace Walky

open FloatOps

theorem combineO_assoc {β : Type} {f : β → β → β} (hf : ∀ a b c, f (f a b) c = f a (f b c))
    (x y z : Option β) : combineO f (combineO f x y) z = combineO f x (combineO f y z) := by
  cases x <;> cases y <;> cases z <;> simp [combineO, hf]

@[simp] theorem combineO_none_right {β : Type} (f : β → β → β) (x : Option β) :
    combineO f x none = x := by cases x <;> rfl

/-- sequential `reduce` -/
def reduceL {β : Type} (f : β → β → β) : List β → Option β
  | [] => none
  | x :: t => some (t.foldl f x)

theorem reduceL_cons {β : Type} {f : β → β → β} (hf : ∀ a b c, f (f a b) c = f a (f b c))
    (x : β) (t : List β) : reduceL f (x :: t) = combineO f (some x) (reduceL f t) := by
  cases t with
  | nil => rfl
  | cons y t =>
    simp only [reduceL, combineO, List.foldl_cons, Option.some.injEq]
    induction t generalizing y with
    | nil => rfl
    | cons z t ih => rw [List.foldl_cons, List.foldl_cons, hf, ih]

theorem reduceL_append {β : Type} {f : β → β → β} (hf : ∀ a b c, f (f a b) c = f a (f b c))
    (l r : List β) : reduceL f (l ++ r) = combineO f (reduceL f l) (reduceL f r) := by
  induction l with
  | nil => rfl
  | cons x t ih => rw [List.cons_append, reduceL_cons hf, reduceL_cons hf, ih, combineO_assoc hf]

/-- the shape of the reduction is irrelevant -/
theorem RTree.reduce_eq {β : Type} {f : β → β → β} (hf : ∀ a b c, f (f a b) c = f a (f b c))
    (t : RTree β) : t.reduce f = reduceL f t.flatten := by
  induction t with
  | empty => rfl
  | leaf x => rfl
  | node l r ihl ihr => simp only [RTree.reduce, RTree.flatten, ihl, ihr, reduceL_append hf]

/-- a strict weak order -/
structure StrictWeak {β : Type} (lt : β → β → Bool) : Prop where
  trans : ∀ a b c, lt a b = true → lt b c = true → lt a c = true
  negtrans : ∀ a b c, lt a b = false → lt b c = false → lt a c = false

theorem StrictWeak.assoc {β : Type} {lt : β → β → Bool} (h : StrictWeak lt) (a b c : β) :
    (fun a b => if lt b a then b else a) ((fun a b => if lt b a then b else a) a b) c =
    (fun a b => if lt b a then b else a) a ((fun a b => if lt b a then b else a) b c) := by
  simp only
  cases h1 : lt b a <;> cases h2 : lt c b <;> simp only [Bool.false_eq_true, if_true, if_false, h1, h2]
  · rw [h.negtrans c b a h2 h1]; rfl
  · rw [h.trans c b a h2 h1]; rfl

theorem RTree.minBy_eq {β : Type} {lt : β → β → Bool} (h : StrictWeak lt) (t : RTree β) :
    t.minBy lt = minByFirst lt t.flatten := by
  unfold RTree.minBy
  rw [RTree.reduce_eq h.assoc]
  cases t.flatten <;> rfl

variable {α : Type} [FloatOps α]

/-- with a consistent order the multi-threaded operations are the sequential ones -/
theorem parOps_eq (ho : StrictWeak (olt : α → α → Bool))
    (shape : Nat → List (Nat × Edge α) → RTree (Nat × Edge α)) (order : Nat → Nat → List Nat)
    (hshape : ∀ it l, (shape it l).flatten = l)
    (horder : ∀ it n, (order it n).Perm (List.range n)) :
    parOps shape order = (vecOps : MinCostOps (Dist α) α) := by
  unfold parOps vecOps
  congr 1
  · funext it d
    have hc : StrictWeak (Dist.candLt : Nat × Edge α → Nat × Edge α → Bool) :=
      ⟨fun a b c => ho.trans a.2.cost b.2.cost c.2.cost,
        fun a b c => ho.negtrans a.2.cost b.2.cost c.2.cost⟩
    rw [RTree.minBy_eq hc, hshape]
    rfl
  · funext it d v row n
    rw [Dist.updateInOrder_perm (horder it n) ((horder it n).nodup_iff.mpr List.nodup_range)]

theorem strictWeak_olt {K : Type} [Field K] [LinearOrder K] :
    StrictWeak (olt : XNum K → XNum K → Bool) := by
  constructor
  · intro a b c
    cases a <;> cases b <;> cases c <;>
      simp [olt, isNaN, FloatOps.lt, FloatOps.eq, XNum.lt, XNum.beq]
    exact fun h1 h2 => h1.trans h2
  · intro a b c
    cases a <;> cases b <;> cases c <;>
      simp [olt, isNaN, FloatOps.lt, FloatOps.eq, XNum.lt, XNum.beq]
    exact fun h1 h2 => h2.trans h1

end Walky
