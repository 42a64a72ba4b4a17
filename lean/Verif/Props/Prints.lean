import Verif.Props.Benchmark

/-! # Property C125: what a run that does not succeed has printed -/

namespace Walky.Props

open FloatOps XNum Spec

variable {α : Type}

/-- **C125, lines** Any arithmetic and any graph. A run that panics has printed nothing, with one exception: an
approximation with a lower bound, when the approximation succeeds and the bound panics. Then exactly the lines of
the approximation have been printed. A run that succeeds has printed all its lines. -/
theorem C125_lines [FloatOps α] {env : Env α} {g : Graph α} {cmd : Command} {o : Out α}
    (h : Prints env g cmd o) :
    (o.exit = .ok () → Runs env g cmd (.ok o.lines)) ∧
    ∀ e, o.exit = .error e → Runs env g cmd (.error e) ∧
      (o.lines = [] ∨ ∃ a p b, cmd = .approx a p (some b) ∧ Runs env g (.approx a p none) (.ok o.lines) ∧
        Runs env g (.lowerBound b p) (.error e)) := by
  have hr : Runs env g cmd o.result := runs_iff_prints.mpr ⟨o, h, rfl⟩
  obtain ⟨l, x⟩ := o
  constructor
  · intro hx
    obtain rfl : x = .ok () := hx
    exact hr
  · intro e hx
    obtain rfl : x = .error e := hx
    refine ⟨hr, ?_⟩
    by_cases hc : ∀ a p b, cmd ≠ .approx a p (some b)
    · left
      have := prints_print h hc
      exact (Out.mk.inj this).1
    · push Not at hc
      obtain ⟨a, p, b, rfl⟩ := hc
      obtain ⟨r, h1, h2⟩ := h
      cases r with
      | error e' =>
        left
        exact (Out.mk.inj h2).1
      | ok l' =>
        right
        simp only [boundAfter] at h2
        cases hb : lowerBoundRun env g b p with
        | ok k =>
          rw [hb] at h2
          cases (Out.mk.inj h2).2
        | error e' =>
          rw [hb] at h2
          obtain ⟨k1, k2⟩ := Out.mk.inj h2
          have k1 : l = l' := k1.trans (List.append_nil l')
          subst k1
          cases k2
          exact ⟨a, p, b, rfl, h1, hb.symm⟩

/-- **C125, every outcome** Every outcome of a command comes with a text: a run that may succeed with some lines
may print them, and a run that may panic may print something and panic. -/
theorem C125_outcomes [FloatOps α] {env : Env α} {g : Graph α} {cmd : Command} :
    (∀ lines, Runs env g cmd (.ok lines) → Prints env g cmd ⟨lines, .ok ()⟩) ∧
    ∀ e, Runs env g cmd (.error e) → ∃ lines, Prints env g cmd ⟨lines, .error e⟩ := by
  refine ⟨fun lines h => prints_ok.mpr h, fun e h => ?_⟩
  obtain ⟨⟨l, x⟩, h1, h2⟩ := runs_iff_prints.mp h
  cases x with
  | ok u => cases h2
  | error e' => cases h2; exact ⟨l, h1⟩

/-- **C125, program** The whole program, any arguments that do not ask for help, any file within the model of the
parser. A run that ends with an error code or a panic has printed nothing; the only exception is
`walky approx --lower-bound`, when it panics: it may have printed exactly what a successful run of `walky approx`
without this option prints for this file, and then `walky lower-bound` panics on this file, without output. -/
theorem C125_program [FloatOps α] {readF : List Char → Option α} {fmt : α → List Char} {env : Env α}
    {files : List Char → Option (List Char)} {args : List (List Char)} (hh : ¬HelpRequest args)
    (hm : ∀ cmd path s, CommandLine args cmd path → files path = some s → parseFromXml readF s ≠ .unmodelled)
    {stdout : List Char} {exit : Exit} (h : ProgramRuns readF fmt env files args stdout exit)
    (hx : exit ≠ .success) :
    stdout = [] ∨ ∃ a p b path e, CommandLine args (.approx a p (some b)) path ∧ exit = .panic e ∧
      (∀ args', ¬HelpRequest args' → CommandLine args' (.approx a p none) path →
        ProgramRuns readF fmt env files args' stdout .success) ∧
      ∀ args', ¬HelpRequest args' → CommandLine args' (.lowerBound b p) path →
        ProgramRuns readF fmt env files args' [] (.panic e) := by
  have h := h (asksHelp_iff.mpr hh)
  cases hp : parseArgs args with
  | none => rw [hp] at h; exact Or.inl h.1
  | some r =>
    obtain ⟨cmd, path⟩ := r
    rw [hp] at h
    have hcl := parseArgs_iff.mp hp
    simp only [FileRuns] at h
    cases hf : files path with
    | none => rw [hf] at h; exact Or.inl h.1
    | some s =>
      rw [hf] at h
      simp only at h
      cases hi : parseFromXml readF s with
      | err => rw [hi] at h; exact Or.inl h.1
      | panic e => rw [hi] at h; exact Or.inl h.1
      | unmodelled => exact absurd hi (hm cmd path s hcl hf)
      | ok i =>
        rw [hi] at h
        obtain ⟨⟨l, x⟩, h1, rfl, rfl⟩ := h
        cases x with
        | ok u => exact absurd rfl hx
        | error e =>
          obtain ⟨-, h2 | ⟨a, p, b, rfl, h2, h3⟩⟩ := (C125_lines h1).2 e rfl
          · left
            have h2 : l = [] := h2
            rw [h2]; rfl
          · right
            refine ⟨a, p, b, path, e, hcl, rfl, fun args' hh' hcl' _ => ?_, fun args' hh' hcl' _ => ?_⟩
            · rw [parseArgs_iff.mpr hcl']
              simp only [FileRuns, hf, hi]
              exact ⟨_, C125_outcomes.1 _ h2, rfl, rfl⟩
            · rw [parseArgs_iff.mpr hcl']
              simp only [FileRuns, hf, hi]
              have h3 : .error e = lowerBoundRun env i.graph b p := h3
              refine ⟨⟨[], .error e⟩, ?_, rfl, rfl⟩
              show _ = Out.print id (lowerBoundRun env i.graph b p)
              rw [← h3]; rfl

variable {K : Type} [Field K] [LinearOrder K] [IsStrictOrderedRing K] {R : Rounding K}

/-- **C125, when it happens** An accepted instance with at least two cities, a rounding that keeps signs. If a run
has printed something and panics, the bound was the 1-tree bound, and some cost is negative or minus infinity (or an edge from a city to itself is not a
number). -/
theorem C125_when (hR : R.Signed) {g : Graph (XNum K)} (hacc : @doConditionsHold _ R.ops g = .ok true)
    (hn : 2 ≤ g.length) {env : Env (XNum K)} (henv : env.Ok) {cmd : Command} {o : Out (XNum K)}
    (h : @Prints _ R.ops env g cmd o) {e : Panic} (he : o.exit = .error e) (hl : o.lines ≠ []) :
    ∃ a p, cmd = .approx a p (some .oneTree) ∧
      ∃ es ∈ g, ∃ f ∈ es, f.cost = .nan ∨ f.cost = .ninf ∨ ∃ v, f.cost = .fin v ∧ v < 0 := by
  obtain ⟨-, h1 | ⟨a, p, b, rfl, -, h2⟩⟩ := (@C125_lines _ R.ops _ _ _ _ h).2 e he
  · exact absurd h1 hl
  by_cases hb : b = .oneTree
  · subst hb
    refine ⟨a, p, rfl, ?_⟩
    by_contra hno
    push Not at hno
    have hpos : ∀ es ∈ g, ∀ f ∈ es, f.cost = .inf ∨ ∃ v, f.cost = .fin v ∧ 0 ≤ v := by
      intro es hes f hf
      obtain ⟨n1, n2, n3⟩ := hno es hes f hf
      cases hc : f.cost with
      | nan => exact absurd hc n1
      | ninf => exact absurd hc n2
      | inf => exact Or.inl rfl
      | fin v => exact Or.inr ⟨v, rfl, n3 v hc⟩
    obtain ⟨x, h3, -⟩ := C100_one_tree_partial hR hacc hn hpos henv p _ h2
    cases h3
  · obtain ⟨x, h3⟩ := C100_mst hacc henv p hb _ h2
    cases h3

/-- **C125, measurements** With the feature `benchmarking`, a run that panics has printed nothing, or the lines of a
successful approximation and the time that it took. -/
theorem C125_timed {α : Type} [FloatOps α] {env : Env α} {t : Nat → α} {g : Graph α} {cmd : Command} {o : BOut α}
    (h : BenchPrints env t g cmd o) {e : Panic} (he : o.exit = .error e) :
    o.lines = [] ∨ ∃ a p b lines, cmd = .approx a p (some b) ∧ Runs env g (.approx a p none) (.ok lines) ∧
      o.lines = lines.map .result ++ [.elapsed (t 0)] := by
  have hpr : ∀ (x : α) (r : RM (List (Line α))), ((Out.print id r).timed x).exit = .error e →
      ((Out.print id r).timed x).lines = [] := by
    intro x r hr
    cases r with
    | error e' => rfl
    | ok l => cases hr
  cases cmd with
  | exact a p =>
    obtain ⟨r, -, rfl⟩ := h
    exact Or.inl (hpr _ _ he)
  | lowerBound a p =>
    obtain rfl : o = _ := h
    exact Or.inl (hpr _ _ he)
  | approx a p lb =>
    obtain ⟨r, h1, rfl⟩ := h
    cases r with
    | error e' => exact Or.inl rfl
    | ok l =>
      cases lb with
      | none => cases he
      | some b =>
        right
        refine ⟨a, p, b, l, rfl, h1, ?_⟩
        have hb : (benchBound env t g p (some b)).lines = [] := hpr _ _ he
        show timed (t 0) l ++ _ = _
        rw [hb, List.append_nil]
        rfl

/-- **C125, collected** `run_often.py` does not notice the panic: it collects the time of such a run like that of a
successful one. -/
theorem C125_collected {readPy : List Char → Option (XNum ℚ)} (hp : PyFloat readPy) {fmt : XNum ℚ → List Char}
    (hf : Display fmt) {env : Env (XNum ℚ)} (henv : env.Ok) {t : Nat → XNum ℚ} (ht : ∀ k, DoubleVal (t k))
    {g : Graph (XNum ℚ)} {cmd : Command} {o : BOut (XNum ℚ)} (h : @BenchPrints _ binary64.ops env t g cmd o)
    {e : Panic} (he : o.exit = .error e) :
    collect readPy "elapsed seconds:".toList [benchText fmt o.lines] = .ok (if o.lines.isEmpty then [] else [t 0]) := by
  have key : ∀ l : List (Line (XNum ℚ)), (∀ x ∈ l, ∀ y, x.number = some y → DoubleVal y) →
      collect readPy "elapsed seconds:".toList [benchText fmt (l.map .result ++ [.elapsed (t 0)])] = .ok [t 0] := by
    intro l hl
    have h2 : ∀ b ∈ l.map BLine.result ++ [.elapsed (t 0)], ∀ x, b.number = some x → DoubleVal x := by
      intro b hb x hx
      rcases List.mem_append.mp hb with hb | hb
      · obtain ⟨y, hy, rfl⟩ := List.mem_map.mp hb
        exact hl y hy x hx
      · obtain rfl := List.mem_singleton.mp hb
        obtain rfl := Option.some.inj hx
        exact ht 0
    have := collect_eq (readPy := readPy) (start := "elapsed seconds:".toList) (runs := [()])
      (v := fun _ => some (t 0)) (text := fun _ => benchText fmt (l.map .result ++ [.elapsed (t 0)])) ?_
    · exact this
    · intro _ _
      obtain ⟨s, hs⟩ : ∃ s, "elapsed seconds:".toList = 'e' :: s := ⟨_, rfl⟩
      rw [split_bench hf h2, hs, firstField_eq (picks_time hp hf (by rw [← hs]; decide +kernel))]
      · rw [← timesOf_eq]
        unfold timesOf
        rw [List.filterMap_append, List.filterMap_eq_nil_iff.mpr]
        · rfl
        · intro b hb
          obtain ⟨l, -, rfl⟩ := List.mem_map.mp hb
          rfl
      · intro b hb x hx
        refine h2 b hb x ?_
        cases b with
        | result l => cases hx
        | elapsed t => exact hx
  rcases @C125_timed _ binary64.ops _ _ _ _ _ h e he with h1 | ⟨a, p, b, l, rfl, h1, h2⟩
  · rw [h1]; rfl
  · rw [h2, key l (@runs_closed _ binary64.ops _ double_closed env henv.oneTreeShape henv.nnShape g _ _ h1)]
    simp

/-! ## It happens -/

/-- a very large double: twice this number is too large -/
def huge : XNum ℚ := .fin ((2 ^ 1023 : Nat) : ℚ)

/-- four cities; one cost is minus infinity, all others are very large -/
def fourHuge : Graph (XNum ℚ) :=
  [[⟨1, .ninf⟩, ⟨2, huge⟩, ⟨3, huge⟩], [⟨0, .ninf⟩, ⟨2, huge⟩, ⟨3, huge⟩],
   [⟨0, huge⟩, ⟨1, huge⟩, ⟨3, huge⟩], [⟨0, huge⟩, ⟨1, huge⟩, ⟨2, huge⟩]]

theorem fourHuge_nn : ((do @naFromGraph _ binary64.ops (← @parseChecked _ binary64.ops fourHuge)) >>=
    @nearestNeighbourSeq _ binary64.ops (List.range 4)) = .ok (.ninf, [0, 1, 2, 3]) := by decide +kernel

theorem fourHuge_bound : ((do @naFromGraph _ binary64.ops (← @parseChecked _ binary64.ops fourHuge)) >>=
    @oneTreeLbSeq _ binary64.ops) = .error .unwrap := by decide +kernel

/-- **C125, it happens** In double precision, `walky approx nearest-neighbour --lower-bound one-tree` prints the
length and the tour for this instance, which is accepted, and panics. -/
theorem C125_happens : @doConditionsHold _ binary64.ops fourHuge = .ok true ∧
    @Prints _ binary64.ops env1 fourHuge (.approx .nearestNeighbour .singleThreaded (some .oneTree))
      ⟨[.nnWeight .ninf, .nnTour [0, 1, 2, 3]], .error .unwrap⟩ := by
  have hacc : @doConditionsHold _ binary64.ops fourHuge = .ok true := by decide +kernel
  refine ⟨hacc, ?_⟩
  obtain ⟨m, hm, hdim⟩ := @instance_total _ binary64.ops fourHuge hacc
  have hn := fourHuge_nn
  have hb := fourHuge_bound
  rw [hm] at hn hb
  rw [rm_bind_ok] at hn hb
  refine ⟨.ok [.nnWeight .ninf, .nnTour [0, 1, 2, 3]], ?_, ?_⟩
  · unfold ApproxRun
    rw [hm]
    refine ⟨.ok (.ninf, [0, 1, 2, 3]), ?_, rfl⟩
    show _ = @nearestNeighbourSeq _ binary64.ops (List.range m.dim) m
    rw [hdim]
    exact hn.symm
  · have : @lowerBoundRun _ binary64.ops env1 fourHuge .oneTree .singleThreaded = .error .unwrap := by
      unfold lowerBoundRun
      cases hp : @parseChecked _ binary64.ops fourHuge with
      | error e => rw [hp] at hm; cases hm
      | ok g =>
        rw [hp, rm_bind_ok] at hm
        rw [rm_bind_ok, hm, rm_bind_ok, hb]
        rfl
    simp only [boundAfter, this]
    rfl

end Walky.Props
