import Verif.Model.Program

/-! # What a process has printed, and the outcome of its run -/

namespace Walky

variable {α : Type}

/-- the outcome of a process: what it has printed is only known if it succeeds -/
def Out.result (o : Out α) : RM (List (Line α)) := (fun _ => o.lines) <$> o.exit

theorem Out.print_result (r : RM (List (Line α))) : (Out.print id r).result = r := by
  cases r <;> rfl

theorem withBound_none [FloatOps α] (env : Env α) (g : Graph α) (p : Parallelism) (r : RM (List (Line α))) :
    withBound env g p none r = r := by
  cases r <;> rfl

theorem withBound_eq [FloatOps α] (env : Env α) (g : Graph α) (p : Parallelism) (lb : Option LowerBoundAlgorithm)
    (r : RM (List (Line α))) :
    withBound env g p lb r = ((Out.print id r).andThen (boundAfter env g p lb)).result := by
  cases r with
  | error e => rfl
  | ok l =>
    cases lb with
    | none => simp [withBound, Out.print, Out.andThen, boundAfter, Out.result]
    | some a =>
      have h : ∀ r' : RM (List (Line α)), (do let l' ← r'; return l ++ l') =
          ((Out.print id (.ok l)).andThen (Out.print id r')).result := by
        intro r'
        cases r' <;> rfl
      exact h _

theorem approxRun_iff [FloatOps α] {env : Env α} {g : Graph α} {a : ApproxAlgorithm} {p : Parallelism}
    {lb : Option LowerBoundAlgorithm} {out : RM (List (Line α))} :
    ApproxRun env g a p lb out ↔ ∃ r, ApproxRun env g a p none r ∧
      out = ((Out.print id r).andThen (boundAfter env g p lb)).result := by
  unfold ApproxRun
  cases hm : (do naFromGraph (← parseChecked g) : RM (Mat α)) with
  | error e =>
    simp only
    constructor
    · rintro rfl; exact ⟨_, rfl, rfl⟩
    · rintro ⟨r, rfl, rfl⟩; rfl
  | ok m =>
    simp only [← withBound_eq]
    cases a with
    | christofides =>
      constructor
      · rintro ⟨res, h, rfl⟩
        exact ⟨_, ⟨res, h, rfl⟩, by rw [withBound_none]⟩
      · rintro ⟨r, ⟨res, h, rfl⟩, rfl⟩
        exact ⟨res, h, by rw [withBound_none]⟩
    | nearestNeighbour =>
      constructor
      · rintro ⟨res, h, rfl⟩
        exact ⟨_, ⟨res, h, rfl⟩, by rw [withBound_none]⟩
      · rintro ⟨r, ⟨res, h, rfl⟩, rfl⟩
        exact ⟨res, h, by rw [withBound_none]⟩

/-- `Prints` refines `Runs`. -/
theorem runs_iff_prints [FloatOps α] {env : Env α} {g : Graph α} {c : Command} {out : RM (List (Line α))} :
    Runs env g c out ↔ ∃ o, Prints env g c o ∧ out = o.result := by
  unfold Runs Prints
  cases c with
  | exact a p =>
    constructor
    · intro h; exact ⟨_, ⟨out, h, rfl⟩, (Out.print_result out).symm⟩
    · rintro ⟨_, ⟨r, h, rfl⟩, rfl⟩; rwa [Out.print_result]
  | approx a p lb =>
    simp only
    rw [approxRun_iff]
    constructor
    · rintro ⟨r, h, e⟩; exact ⟨_, ⟨r, h, rfl⟩, e⟩
    · rintro ⟨_, ⟨r, h, rfl⟩, e⟩; exact ⟨r, h, e⟩
  | lowerBound a p => simp [Out.print_result]

theorem prints_out [FloatOps α] {fmt : α → List Char} {env : Env α} {g : Graph α} {c : Command}
    {stdout : List Char} {exit : Exit}
    (h : ∃ o, Prints env g c o ∧ stdout = o.lines.flatMap (lineText fmt) ∧ exit = o.end) :
    ∃ out, Runs env g c out ∧ match out with
      | .ok lines => stdout = lines.flatMap (lineText fmt) ∧ exit = .success
      | .error e => exit = .panic e := by
  obtain ⟨o, h, rfl, rfl⟩ := h
  refine ⟨_, runs_iff_prints.mpr ⟨o, h, rfl⟩, ?_⟩
  obtain ⟨l, x⟩ := o
  cases x <;> simp [Out.result, Out.end, Functor.map, Except.map]

theorem prints_exists [FloatOps α] {fmt : α → List Char} {env : Env α} {g : Graph α} {c : Command}
    (h : ∃ out, Runs env g c out) :
    ∃ stdout exit, ∃ o : Out α, Prints env g c o ∧ stdout = o.lines.flatMap (lineText fmt) ∧ exit = o.end := by
  obtain ⟨out, h⟩ := h
  obtain ⟨o, h, -⟩ := runs_iff_prints.mp h
  exact ⟨_, _, o, h, rfl, rfl⟩

/-- Only the bound after an approximation is computed after something has been printed. -/
theorem prints_print [FloatOps α] {env : Env α} {g : Graph α} {c : Command} {o : Out α} (h : Prints env g c o)
    (hc : ∀ a p b, c ≠ .approx a p (some b)) : o = Out.print id o.result := by
  cases c with
  | exact a p =>
    obtain ⟨r, -, rfl⟩ := h
    rw [Out.print_result]
  | lowerBound a p =>
    obtain rfl : o = _ := h
    rw [Out.print_result]
  | approx a p lb =>
    cases lb with
    | some b => exact absurd rfl (hc a p b)
    | none =>
      obtain ⟨r, -, rfl⟩ := h
      cases r with
      | error e => rfl
      | ok l => simp [Out.print, Out.andThen, boundAfter, Out.result]

/-- a successful run -/
theorem prints_ok [FloatOps α] {env : Env α} {g : Graph α} {c : Command} {lines : List (Line α)} :
    Prints env g c ⟨lines, .ok ()⟩ ↔ Runs env g c (.ok lines) := by
  rw [runs_iff_prints]
  constructor
  · intro h; exact ⟨_, h, rfl⟩
  · rintro ⟨⟨l, x⟩, h, e⟩
    cases x with
    | error e' => cases e
    | ok u => cases e; exact h

end Walky
