import Verif.Model.SimpleGen
import Verif.Props.Python

/-! # Property C129: `simple_gen.py`, and walky on what it prints -/

namespace Walky.Props

open FloatOps XNum Spec

/-- Contract of Python's `int` on strings of digits -/
def PyInt (int : List Char → Option Int) : Prop := ∀ n : Nat, int (showUsize n) = some (n : Int)

/-- a text that begins with a document is read like the document -/
theorem parse_append {α : Type} [FloatOps α] {readF : List Char → Option α} {x : Xml} {s : List Char}
    (h : Document x s) (r : List Char) : parseFromXml readF (s ++ r) = parseFromXml readF s := by
  unfold parseFromXml
  rw [readXml_document h, readXml_document (h.append r)]

theorem digits16_quoteFree {fmt : XNum ℚ → List Char} (hf : Digits16 fmt) {q : ℚ} (hq : IsDouble q) :
    QuoteFree (fmt (.fin q)) := by
  obtain ⟨n, e1, e2, -⟩ := hf q hq
  rw [e1]
  constructor
  · intro h
    rcases e2.mem h with h | h <;> revert h <;> decide
  · intro h
    rcases e2.mem h with h | h <;> revert h <;> decide

/-- **C129, output** Any arithmetic. Called with `xml` in any spelling of upper and lower case and the size `n` in
decimal digits, `simple_gen.py` prints the text of the matrix of the drawn points and a line feed, and exits with 0, if
the solver that it calls returns. This text is the file `n.xml` that `benchmark_gen.py` writes for these points. -/
theorem C129_output {α : Type} [FloatOps α] {int : List Char → Option Int} (hint : PyInt int)
    {draw : Nat → List (α × α)} {n : Nat} (hdraw : (draw n).length = n) {solves : List (List α) → Bool}
    {norm : α × α → α} {fmt : α → List Char} {rust : List (List α) → List Char} {script kind : List Char}
    (hk : kind.map Char.toLower = ['x', 'm', 'l']) (hs : solves (createMatrix norm (draw n)) = true) :
    ∃ text, simpleGen int draw solves norm fmt rust [script, kind, showUsize n] = (text ++ ['\n'], 0) ∧
      ∀ l ≤ n, (n, text) ∈ benchmarkFiles norm fmt (draw n) l := by
  refine ⟨pyXml fmt (createMatrix norm (draw n)), ?_, fun l hl => ?_⟩
  · simp only [simpleGen, hint n]
    show (if solves (createMatrix norm (draw n)) = true then _ else _) = _
    rw [if_pos hs, if_pos (show kind.map Char.toLower = "xml".toList from hk)]
    rfl
  · rw [benchmarkFiles_eq]
    refine List.mem_map.mpr ⟨n, ?_, ?_⟩
    · rw [hdraw]; simp
    · rw [List.take_of_length_le (by rw [hdraw])]

/-- **C129, errors** Any arithmetic, arguments and points. If `simple_gen.py` does not exit with 0, it has printed
nothing or one line that explains its usage, and the exit code is 1; walky ends with an error code, without a
panic and without output, if it is given a file with what has been printed. -/
theorem C129_errors {α : Type} [FloatOps α] {int : List Char → Option Int} {draw : Nat → List (α × α)}
    {solves : List (List α) → Bool} {norm : α × α → α} {fmt : α → List Char} {rust : List (List α) → List Char}
    {argv : List (List Char)} {out : List Char} {code : Nat}
    (h : simpleGen int draw solves norm fmt rust argv = (out, code)) (hc : code ≠ 0) :
    code = 1 ∧ (out = [] ∨ ∃ line, '\n' ∉ line ∧ "Use argv[1]==rust for rust format, xml for xml!".toList <+: line ∧
      out = line ++ ['\n']) ∧
    ∀ (readF : List Char → Option α) (show' : α → List Char) (env : Env α)
      (files : List Char → Option (List Char)) args cmd path, files path = some out → ¬HelpRequest args →
      CommandLine args cmd path → ∀ stdout exit,
        ProgramRuns readF show' env files args stdout exit ↔ stdout = [] ∧ exit = .failure := by
  have key : code = 1 ∧ (out = [] ∨ out = println simpleGenKind ∨ out = println simpleGenUsage) := by
    unfold simpleGen at h
    split at h
    · split at h
      · simp only at h
        split at h
        · split at h
          · cases h; exact absurd rfl hc
          · split at h
            · cases h; exact absurd rfl hc
            · cases h; exact ⟨rfl, Or.inr (Or.inl rfl)⟩
        · cases h; exact ⟨rfl, Or.inl rfl⟩
      · cases h; exact ⟨rfl, Or.inl rfl⟩
    · cases h; exact ⟨rfl, Or.inr (Or.inr rfl)⟩
  obtain ⟨rfl, ho⟩ := key
  refine ⟨rfl, ?_, ?_⟩
  · rcases ho with ho | ho | ho
    · exact Or.inl ho
    · exact Or.inr ⟨simpleGenKind, by decide +kernel, by decide +kernel, ho⟩
    · exact Or.inr ⟨simpleGenUsage, by decide +kernel, by decide +kernel, ho⟩
  · intro readF show' env files args cmd path hfile hh hcl stdout exit
    have hr : readXml out = .error .deError := by
      rcases ho with rfl | rfl | rfl
      · rfl
      · rfl
      · rfl
    have hp : parseFromXml readF out = .err := by
      unfold parseFromXml
      rw [hr]; rfl
    unfold ProgramRuns
    rw [parseArgs_iff.mpr hcl]
    simp only [FileRuns, hfile, hp]
    exact ⟨fun h => h (asksHelp_iff.mpr hh), fun h _ => h⟩

/-- **C129, read** Double precision. The points are what `np.random.rand` can draw. The output of `simple_gen.py`
is saved to a file: the line feed at the end does not matter, so walky does on it exactly what it does on the file of
`benchmark_gen.py` (see C101): all outcomes are the same, with and without MPI. -/
theorem C129_read {norm : XNum ℚ × XNum ℚ → XNum ℚ} (hnorm : NumpyNorm norm) {pfmt : XNum ℚ → List Char}
    (hp : Digits16 pfmt) {int : List Char → Option Int} (hint : PyInt int)
    (ks : List (Nat × Nat)) (hk : ∀ k ∈ ks, k.1 < 2 ^ 53 ∧ k.2 < 2 ^ 53) (hsize : ks.length ≤ 2 ^ 64)
    {draw : Nat → List (XNum ℚ × XNum ℚ)} (hdraw : draw ks.length = finPoints (pyPoints ks))
    {solves : List (List (XNum ℚ)) → Bool}
    (hs : solves (@createMatrix _ binary64.ops norm (finPoints (pyPoints ks))) = true)
    {rust : List (List (XNum ℚ)) → List Char} {script kind : List Char}
    (hkind : kind.map Char.toLower = ['x', 'm', 'l']) :
    ∃ out file, @simpleGen _ binary64.ops int draw solves norm pfmt rust [script, kind, showUsize ks.length] = (out, 0) ∧
      (ks.length, file) ∈ @benchmarkFiles _ binary64.ops norm pfmt (finPoints (pyPoints ks)) ks.length ∧
      @parseFromXml _ binary64.ops readF64 out = @parseFromXml _ binary64.ops readF64 file ∧
      (2 ≤ ks.length → ∃ i, @parseFromXml _ binary64.ops readF64 out = .ok i ∧ i.graph.length = ks.length ∧
        @CompleteUndirected _ binary64.ops i.graph ∧
        ∀ (a : Nat) es, i.graph[a]? = some es → ∀ e ∈ es, ∃ x : ℚ, e.cost = .fin x ∧
          |(x : ℝ) - pointsDist (pyPoints ks) a e.dst| ≤ 18 * (2 : ℝ) ^ (-53 : ℤ) * pointsDist (pyPoints ks) a e.dst) ∧
      ∀ (fmt : XNum ℚ → List Char) (files files' : List Char → Option (List Char)) path,
        files path = some out → files' path = some file → (∀ p, p ≠ path → files p = files' p) → ∀ args,
        (∀ (env : Env (XNum ℚ)) stdout exit, @ProgramRuns _ binary64.ops readF64 fmt env files args stdout exit ↔
          @ProgramRuns _ binary64.ops readF64 fmt env files' args stdout exit) ∧
        ∀ (env : MpiEnv (XNum ℚ)) envs outs, @JobRuns _ binary64.ops readF64 fmt env envs files args outs ↔
          @JobRuns _ binary64.ops readF64 fmt env envs files' args outs := by
  have hlen : (finPoints (pyPoints ks)).length = ks.length := by simp [finPoints, pyPoints]
  set file := pyXml pfmt (@createMatrix _ binary64.ops norm (finPoints (pyPoints ks))) with hfile
  obtain ⟨g1, g2⟩ := python_good hnorm hp hk hsize
  have hparse : @parseFromXml _ binary64.ops readF64 (file ++ ['\n']) = @parseFromXml _ binary64.ops readF64 file := by
    rcases Nat.lt_or_ge ks.length 2 with h | h
    · have hq : ∀ row ∈ @createMatrix _ binary64.ops norm (finPoints (pyPoints ks)), ∀ x ∈ row, QuoteFree (pfmt x) := by
        rw [@createMatrix_eq _ binary64.ops, hlen]
        intro row hrow x hx
        obtain ⟨i, hi, rfl⟩ := List.mem_map.mp hrow
        obtain ⟨j, hj, rfl⟩ := List.mem_map.mp hx
        rw [List.mem_range] at hi hj
        obtain rfl : i = 0 := by omega
        obtain rfl : j = 0 := by omega
        have hz : @pyEntry _ binary64.ops norm (finPoints (pyPoints ks)) 0 0 = .fin 0 := by
          unfold pyEntry
          cases (finPoints (pyPoints ks))[0]? <;> rfl
        show QuoteFree (pfmt (@pyEntry _ binary64.ops norm (finPoints (pyPoints ks)) 0 0))
        rw [hz]
        exact digits16_quoteFree hp isDouble_zero
      exact @parse_append _ binary64.ops _ _ _ (.root (layout_pyXml hq)) _
    · obtain ⟨i, hi, -⟩ := g2 h
      rw [hi]
      exact (@C91_truncated _ binary64.ops _ _ _ hi).2 _
  refine ⟨file ++ ['\n'], file, ?_, ?_, hparse, fun h => ?_, ?_⟩
  · have hs' : solves (@createMatrix _ binary64.ops norm (draw ks.length)) = true := by rw [hdraw]; exact hs
    have : @simpleGen _ binary64.ops int draw solves norm pfmt rust [script, kind, showUsize ks.length] =
        (pyXml pfmt (@createMatrix _ binary64.ops norm (draw ks.length)) ++ ['\n'], 0) := by
      simp only [simpleGen, hint ks.length]
      show (if solves (@createMatrix _ binary64.ops norm (draw ks.length)) = true then _ else _) = _
      rw [if_pos hs', if_pos (show kind.map Char.toLower = "xml".toList from hkind)]
      rfl
    rw [this, hdraw]
  · rw [@benchmarkFiles_eq _ binary64.ops, hlen]
    refine List.mem_map.mpr ⟨ks.length, by simp, ?_⟩
    rw [List.take_of_length_le (by rw [hlen])]
  · obtain ⟨i, h1, h2, h3⟩ := g2 h
    refine ⟨i, hparse.trans h1, h2, @complete_of_accepted _ binary64.ops _ h3.acc h3.loop, fun a es ha e he => ?_⟩
    obtain ⟨x, k1, -, -, -, k2⟩ := h3.cost a es ha e he
    exact ⟨x, k1, k2⟩
  · intro fmt files files' path h1 h2 h3 args
    have hf : ∀ (env : Env (XNum ℚ)) p cmd stdout exit,
        @FileRuns _ binary64.ops readF64 fmt env (files p) cmd stdout exit ↔
        @FileRuns _ binary64.ops readF64 fmt env (files' p) cmd stdout exit := by
      intro env p cmd stdout exit
      by_cases hpath : p = path
      · subst hpath
        rw [h1, h2]
        simp only [FileRuns, hparse]
      · rw [h3 p hpath]
    have hm : ∀ (env : MpiEnv (XNum ℚ)) p cmd outs,
        @MpiFileRuns _ binary64.ops readF64 fmt env (files p) cmd outs ↔
        @MpiFileRuns _ binary64.ops readF64 fmt env (files' p) cmd outs := by
      intro env p cmd outs
      by_cases hpath : p = path
      · subst hpath
        rw [h1, h2]
        simp only [MpiFileRuns, hparse]
      · rw [h3 p hpath]
    constructor
    · intro env stdout exit
      unfold ProgramRuns
      cases parseArgs args with
      | none => exact Iff.rfl
      | some r => simp only [hf]
    · intro env envs outs
      unfold JobRuns
      cases parseArgsMpi args with
      | none => exact Iff.rfl
      | some r =>
        simp only
        cases r.1.split with
        | inl c => simp only [hf]
        | inr c => simp only [hm]

/-- `C129_read` applies to three points, `XmL` and any norm and format that fulfill the contracts -/
example {norm : XNum ℚ × XNum ℚ → XNum ℚ} (hnorm : NumpyNorm norm) {pfmt : XNum ℚ → List Char} (hp : Digits16 pfmt)
    {int : List Char → Option Int} (hint : PyInt int) :
    ∃ out i, @simpleGen _ binary64.ops int
        (fun _ => finPoints (pyPoints [(0, 0), (2 ^ 52, 0), (0, 2 ^ 51)])) (fun _ => true) norm pfmt (fun _ => [])
        ["simple_gen.py".toList, "XmL".toList, ['3']] = (out, 0) ∧
      @parseFromXml _ binary64.ops readF64 out = .ok i ∧ i.graph.length = 3 := by
  obtain ⟨out, -, h1, -, -, h2, -⟩ := C129_read hnorm hp hint [(0, 0), (2 ^ 52, 0), (0, 2 ^ 51)] (by decide)
    (by decide) (draw := fun _ => finPoints (pyPoints [(0, 0), (2 ^ 52, 0), (0, 2 ^ 51)])) rfl (solves := fun _ => true)
    rfl (rust := fun _ => []) (script := "simple_gen.py".toList) (kind := "XmL".toList) (by decide +kernel)
  obtain ⟨i, h3, h4, -⟩ := h2 (by decide)
  exact ⟨out, i, h1, h3, h4⟩

/-- the contracts can be fulfilled -/
example : (∃ norm, NumpyNorm norm) ∧ (∃ fmt, Digits16 fmt) ∧
    PyInt fun s => some (digitsValue s : Int) :=
  ⟨⟨_, numpyNorm_pointDist⟩, ⟨_, digits16_exact⟩, fun n => by simp only [digitsValue_showUsize]⟩

end Walky.Props
