import Verif.Props.RobustCli
import Verif.Props.Program
import Verif.Lemmas.Parser

/-!
# C122: running walky twice on the same file

What can change from one run to the next is chosen by the random numbers, the scheduler and the splits of rayon. The
hash function and the heap are the same in every run: `FxHasher` has no seed, and the heap of the priority queue
sifts in a fixed way. The arithmetic rounds in an arbitrary way, and the costs may be any numbers.
-/

namespace Walky.Props

open FloatOps Spec

section lists

/-- two mapped lists of which one permutes the other: both panic, or the results permute each other -/
theorem mapM_perm {β γ : Type} {f : β → RM γ} {l l' : List β} (h : l.Perm l') :
    ((∃ e, l.mapM f = .error e) ∧ ∃ e, l'.mapM f = .error e) ∨
    ∃ r r', l.mapM f = .ok r ∧ l'.mapM f = .ok r' ∧ r.Perm r' := by
  by_cases hall : ∀ x ∈ l, ∃ y, f x = .ok y
  · right
    have main : ∀ t : List β, (∀ x ∈ t, ∃ y, f x = .ok y) → t.mapM f =
        .ok (t.filterMap fun x => match f x with | .ok y => some y | .error _ => none) := by
      intro t ht
      induction t with
      | nil => rfl
      | cons a t ih =>
        obtain ⟨y, hy⟩ := ht a (by simp)
        rw [List.mapM_cons, ih fun x hx => ht x (by simp [hx])]
        simp [hy]
    exact ⟨_, _, main l hall, main l' fun x hx => hall x (h.mem_iff.mpr hx), h.filterMap _⟩
  · left
    push Not at hall
    obtain ⟨x, hx, hy⟩ := hall
    cases hf : f x with
    | ok y => exact absurd hf (hy y)
    | error e => exact ⟨mapM_err hx hf, mapM_err (h.mem_iff.mp hx) hf⟩

/-- nothing in the list is smaller than the element that `min_by_key` selects -/
theorem minByFirst_not_lt {β : Type} {lt : β → β → Bool} (hlt : StrictWeak lt) (hirr : ∀ a, lt a a = false)
    {l : List β} {x : β} (h : minByFirst lt l = some x) : ∀ y ∈ l, lt y x = false := by
  cases l with
  | nil => simp [minByFirst] at h
  | cons a t =>
    simp only [minByFirst, Option.some.injEq] at h
    have main : ∀ (t : List β) (a x : β), t.foldl (fun a b => if lt b a then b else a) a = x →
        lt a x = false ∧ ∀ y ∈ t, lt y x = false := by
      intro t
      induction t with
      | nil => rintro a x rfl; exact ⟨hirr a, by simp⟩
      | cons b t ih =>
        intro a x hx
        rw [List.foldl_cons] at hx
        obtain ⟨h1, h2⟩ := ih _ _ hx
        by_cases hb : lt b a = true
        · rw [if_pos hb] at h1
          refine ⟨hlt.negtrans a b x ?_ h1, fun y hy => ?_⟩
          · by_contra hc
            have := hlt.trans a b a (by simpa using hc) hb
            rw [hirr] at this
            cases this
          · rcases List.mem_cons.mp hy with rfl | hy
            · exact h1
            · exact h2 y hy
        · rw [if_neg hb] at h1
          refine ⟨h1, fun y hy => ?_⟩
          rcases List.mem_cons.mp hy with rfl | hy
          · exact hlt.negtrans _ _ _ (by simpa using hb) h1
          · exact h2 y hy
    obtain ⟨h1, h2⟩ := main t a x h
    intro y hy
    rcases List.mem_cons.mp hy with rfl | hy
    · exact h1
    · exact h2 y hy

end lists

open XNum

variable {K : Type} [Field K] [LinearOrder K] [IsStrictOrderedRing K] {R : Rounding K}

omit [IsStrictOrderedRing K] in
/-- the order of `OrderedFloat` has no two different numbers on the same level -/
theorem olt_antisymm {x y : XNum K} (h1 : @FloatOps.olt _ R.ops x y = false)
    (h2 : @FloatOps.olt _ R.ops y x = false) : x = y := by
  change @FloatOps.olt _ (exactOps K) x y = false at h1
  change @FloatOps.olt _ (exactOps K) y x = false at h2
  cases x <;> cases y <;> simp_all [olt, isNaN, FloatOps.lt, FloatOps.eq, XNum.lt, XNum.beq]
  exact le_antisymm h2 h1

/-- the commands whose output is fixed by the file -/
def Reproducible : Command → Prop
  | .exact _ .singleThreaded => True
  | .lowerBound _ _ => True
  | _ => False

omit [IsStrictOrderedRing K] in
/-- **C122, bounds.** The two modes of `walky lower-bound` do the same on every instance, in every rounding and for
all schedules: the same number or the same panic. -/
theorem C122_bounds {env env' : Env (XNum K)} (henv : env.Ok) (henv' : env'.Ok) (hpeek : env.peek = env'.peek)
    (g : Graph (XNum K)) (a : LowerBoundAlgorithm) (p p' : Parallelism) :
    @lowerBoundRun _ R.ops env g a p = @lowerBoundRun _ R.ops env' g a p' := by
  have ho : StrictWeak (@FloatOps.olt _ R.ops) := strictWeak_olt
  have key : ∀ {e : Env (XNum K)}, e.Ok → ∀ q : Parallelism,
      @lowerBoundRun _ R.ops e g a q = @lowerBoundRun _ R.ops e g a .singleThreaded := by
    intro e he q
    cases q with
    | singleThreaded => rfl
    | multiThreaded =>
      unfold lowerBoundRun
      cases a with
      | oneTree => simp only [@C35_par_eq_seq _ R.ops ho _ he.oneTreeShape]
      | mst => simp only [@C30_par_eq_seq _ R.ops ho _ _ he.sched.shape he.sched.update]
      | mstQueue => rfl
  rw [key henv p, key henv' p']
  unfold lowerBoundRun
  rw [hpeek]

omit [IsStrictOrderedRing K] in
/-- **C122, output.** A single-threaded exact solver, and a lower bound with any number of threads: two runs on the
same instance have the same outcome – the same lines, or the same panic. -/
theorem C122_same_output {env env' : Env (XNum K)} (henv : env.Ok) (henv' : env'.Ok)
    (hhash : env.hash = env'.hash) (hpeek : env.peek = env'.peek) {cmd : Command} (hcmd : Reproducible cmd)
    {g : Graph (XNum K)} {out out' : RM (List (Line (XNum K)))} (h : @Runs _ R.ops env g cmd out)
    (h' : @Runs _ R.ops env' g cmd out') : out = out' := by
  cases cmd with
  | exact a p =>
    cases p with
    | multiThreaded => cases hcmd
    | singleThreaded =>
      simp only [Runs, ExactRun, hhash] at h h'
      cases hm : (do @naFromGraph _ R.ops (← @parseChecked _ R.ops g)) with
      | error e =>
        rw [hm] at h h'
        rw [h, h']
      | ok m =>
        rw [hm] at h h'
        rw [h, h']
  | approx a p lb => cases hcmd
  | lowerBound a p =>
    simp only [Runs] at h h'
    rw [h, h', C122_bounds henv henv' hpeek g a p p]

omit [IsStrictOrderedRing K] in
/-- **C122, text.** The same for the text that is printed: the same arguments and the same files give the same exit
status and the same text. -/
theorem C122_same_text (readF : List Char → Option (XNum K)) (fmt : XNum K → List Char)
    {env env' : Env (XNum K)} (henv : env.Ok) (henv' : env'.Ok)
    (hhash : env.hash = env'.hash) (hpeek : env.peek = env'.peek)
    {files : List Char → Option (List Char)} {args : List (List Char)} (hhelp : asksHelp args = false)
    (hcmd : ∀ cmd path, parseArgs args = some (cmd, path) → Reproducible cmd ∧
      ∀ text, files path = some text → @parseFromXml _ R.ops readF text ≠ .unmodelled)
    {o o' : List Char} {x x' : Exit} (h : @ProgramRuns _ R.ops readF fmt env files args o x)
    (h' : @ProgramRuns _ R.ops readF fmt env' files args o' x') : x = x' ∧ o = o' := by
  have h1 := h hhelp
  have h2 := h' hhelp
  cases hp : parseArgs args with
  | none =>
    rw [hp] at h1 h2
    exact ⟨h1.2.trans h2.2.symm, h1.1.trans h2.1.symm⟩
  | some cp =>
    obtain ⟨cmd, path⟩ := cp
    rw [hp] at h1 h2
    obtain ⟨hc, hmod⟩ := hcmd cmd path hp
    simp only [FileRuns] at h1 h2
    cases hf : files path with
    | none =>
      rw [hf] at h1 h2
      exact ⟨h1.2.trans h2.2.symm, h1.1.trans h2.1.symm⟩
    | some text =>
      rw [hf] at h1 h2
      simp only at h1 h2
      cases hx : @parseFromXml _ R.ops readF text with
      | err =>
        rw [hx] at h1 h2
        exact ⟨h1.2.trans h2.2.symm, h1.1.trans h2.1.symm⟩
      | panic e =>
        rw [hx] at h1 h2
        exact ⟨h1.2.trans h2.2.symm, h1.1.trans h2.1.symm⟩
      | unmodelled => exact absurd hx (hmod text hf)
      | ok i =>
        rw [hx] at h1 h2
        obtain ⟨q, a1, rfl, rfl⟩ := h1
        obtain ⟨q', b1, rfl, rfl⟩ := h2
        have hb : ∀ a p b, cmd ≠ .approx a p (some b) := by
          rintro a p b rfl
          exact hc
        have e := C122_same_output (R := R) henv henv' hhash hpeek hc
          ((@runs_iff_prints _ R.ops _ _ _ _).mpr ⟨q, a1, rfl⟩) ((@runs_iff_prints _ R.ops _ _ _ _).mpr ⟨q', b1, rfl⟩)
        rw [@prints_print _ R.ops _ _ _ _ a1 hb, @prints_print _ R.ops _ _ _ _ b1 hb, e]
        exact ⟨rfl, rfl⟩

omit [IsStrictOrderedRing K] in
/-- two shuffles of the start cities: both solvers panic, or they find tours of the same length -/
theorem nn_same (m : Mat (XNum K)) {xs ys : List Nat} (hlen : xs.length ≤ m.dim)
    (hx : xs.Perm ys) :
    ((∃ e, @nearestNeighbourSeq _ R.ops xs m = .error e) ∧ ∃ e, @nearestNeighbourSeq _ R.ops ys m = .error e) ∨
    ∃ r r', @nearestNeighbourSeq _ R.ops xs m = .ok r ∧ @nearestNeighbourSeq _ R.ops ys m = .ok r' ∧
      r.1 = r'.1 := by
  have ho : StrictWeak (@FloatOps.olt _ R.ops) := strictWeak_olt
  have hirr : ∀ x : XNum K, @FloatOps.olt _ R.ops x x = false := fun x => by
    show @FloatOps.olt _ (exactOps K) x x = false
    cases x <;> simp [olt, isNaN, FloatOps.lt, FloatOps.eq, XNum.lt, XNum.beq]
  unfold nearestNeighbourSeq nNNSeq
  by_cases h0 : m.dim = 0
  · left
    simp [h0]
  simp only [h0, if_false, lt_irrefl, nRandomNumbers]
  rw [List.take_of_length_le hlen, List.take_of_length_le (hx.length_eq ▸ hlen)]
  rcases @mapM_perm _ _ (@singleNN _ R.ops m) _ _ hx with ⟨⟨e, h1⟩, e', h2⟩ | ⟨r, r', h1, h2, h3⟩
  · left
    rw [h1, h2]
    exact ⟨⟨e, rfl⟩, e', rfl⟩
  · rw [h1, h2]
    simp only [rm_bind_ok]
    cases r with
    | nil =>
      left
      rw [List.nil_perm.mp h3]
      exact ⟨⟨_, rfl⟩, _, rfl⟩
    | cons a t =>
      right
      obtain ⟨s, hs⟩ := minByFirst_isSome (lt := @solLt _ R.ops) (l := a :: t) (by simp)
      obtain ⟨s', hs'⟩ := minByFirst_isSome (lt := @solLt _ R.ops) (l := r')
        (fun h => by rw [h] at h3; exact absurd (List.perm_nil.mp h3) (by simp))
      have hw := @strictWeak_solLt _ R.ops ho
      have k1 := minByFirst_not_lt hw (fun x => hirr x.1) hs s' (h3.mem_iff.mpr (minByFirst_mem hs'))
      have k2 := minByFirst_not_lt hw (fun x => hirr x.1) hs' s (h3.mem_iff.mp (minByFirst_mem hs))
      refine ⟨s, s', by rw [hs]; rfl, by rw [hs']; rfl, olt_antisymm (R := R) k2 k1⟩

omit [IsStrictOrderedRing K] in
/-- **C122, nearest neighbour.** Two runs of `walky approx nearest-neighbour` on the same instance – in any of the two
modes, with any shuffles, splits and schedules: both panic, or both print the same length, then a tour (not always the
same), and then the same line for the bound, if one was asked for. -/
theorem C122_nearest_neighbour {env env' : Env (XNum K)} (henv : env.Ok) (henv' : env'.Ok)
    (hpeek : env.peek = env'.peek) {g : Graph (XNum K)} (p p' : Parallelism) (lb : Option LowerBoundAlgorithm)
    {out out' : RM (List (Line (XNum K)))} (h : @Runs _ R.ops env g (.approx .nearestNeighbour p lb) out)
    (h' : @Runs _ R.ops env' g (.approx .nearestNeighbour p' lb) out') :
    ((∃ e, out = .error e) ∧ ∃ e, out' = .error e) ∨
    ∃ w q q' l, out = .ok ([.nnWeight w, .nnTour q] ++ l) ∧ out' = .ok ([.nnWeight w, .nnTour q'] ++ l) := by
  have ho : StrictWeak (@FloatOps.olt _ R.ops) := strictWeak_olt
  simp only [Runs, ApproxRun] at h h'
  cases hm : (do @naFromGraph _ R.ops (← @parseChecked _ R.ops g)) with
  | error e =>
    rw [hm] at h h'
    exact Or.inl ⟨⟨e, h⟩, e, h'⟩
  | ok m =>
    rw [hm] at h h'
    simp only at h h'
    obtain ⟨res, h1, rfl⟩ := h
    obtain ⟨res', h2, rfl⟩ := h'
    have e1 : res = @nearestNeighbourSeq _ R.ops (env.starts m.dim) m := by
      cases p with
      | singleThreaded => exact h1
      | multiThreaded => exact h1.trans (@C39_nearest_neighbour_par _ R.ops ho _ henv.nnShape _ _)
    have e2 : res' = @nearestNeighbourSeq _ R.ops (env'.starts m.dim) m := by
      cases p' with
      | singleThreaded => exact h2
      | multiThreaded => exact h2.trans (@C39_nearest_neighbour_par _ R.ops ho _ henv'.nnShape _ _)
    have hx := (henv.starts m.dim).trans (henv'.starts m.dim).symm
    have hb : ∀ a, @lowerBoundRun _ R.ops env g a p = @lowerBoundRun _ R.ops env' g a p' := fun a =>
      C122_bounds henv henv' hpeek g a p p'
    rw [e1, e2]
    rcases nn_same (R := R) m (by rw [(henv.starts m.dim).length_eq]; simp) hx with
      ⟨⟨e, k1⟩, e', k2⟩ | ⟨r, r', k1, k2, k3⟩
    · left
      rw [k1, k2]
      exact ⟨⟨e, rfl⟩, e', rfl⟩
    · rw [k1, k2]
      unfold withBound
      cases lb with
      | none => exact Or.inr ⟨r.1, r.2, r'.2, [], rfl, by rw [k3]; rfl⟩
      | some a =>
        simp only [hb a]
        cases @lowerBoundRun _ R.ops env' g a p' with
        | error e => exact Or.inl ⟨⟨e, rfl⟩, e, rfl⟩
        | ok l => exact Or.inr ⟨r.1, r.2, r'.2, l, rfl, by rw [k3]; rfl⟩

/-- **C122, threads.** Two runs of `walky exact -p multi-threaded` on machines with the same number of CPUs, on any
accepted instance with at least one city, whatever the scheduler does: the same cost is printed. -/
theorem C122_threads {env env' : Env (XNum K)} (henv : env.Ok) (hcpus : env.cpus = env'.cpus)
    {g : Graph (XNum K)} (hacc : @doConditionsHold _ R.ops g = .ok true) (hn : 1 ≤ g.length)
    (a a' : ExactAlgorithm) {out out' : RM (List (Line (XNum K)))}
    (h : @Runs _ R.ops env g (.exact a .multiThreaded) out)
    (h' : @Runs _ R.ops env' g (.exact a' .multiThreaded) out') :
    ∃ x q q', out = .ok [.bestCost x, .bestPermutation q] ∧ out' = .ok [.bestCost x, .bestPermutation q'] := by
  obtain ⟨m, hm, hdim⟩ := @instance_total _ R.ops g hacc
  simp only [Runs, ExactRun, hm] at h h'
  obtain ⟨r, h1, rfl⟩ := h
  obtain ⟨r', h2, rfl⟩ := h'
  rw [← hcpus] at h2
  suffices hs : r.1 = r'.1 from ⟨r.1, r.2, r'.2, rfl, by rw [hs]⟩
  by_cases hd : m.dim ≤ env.cpus
  · unfold ThreadedResult at h1 h2
    rw [if_pos hd] at h1 h2
    rw [h1] at h2
    cases h2
    rfl
  have hS : SearchOk m.dim (@searchPrefix _ R.ops m) := by
    intro pre hv
    obtain ⟨s, k1, k2⟩ := @searchPrefix_total _ R.ops m (fun p hp => @mstBound_total _ R.ops m rfl p hp) pre
      (by omega) hv
    refine ⟨s, k1, ?_⟩
    rcases k2 with rfl | ⟨-, y, hy⟩
    · intro hc; cases hc
    · intro hc
      rw [hc] at hy
      cases y <;> cases hy
  have key : ∀ {s s' : Solution (XNum K)}, @ThreadedResult _ R.ops m 3 env.cpus s →
      @ThreadedResult _ R.ops m 3 env.cpus s' → @FloatOps.le _ (exactOps K) s.1 s'.1 = true := by
    intro s s' hs hs'
    obtain ⟨c1, c2⟩ := threaded_factsG (sameCmp_ops R) hS henv.cpus (not_le.mp hd) hs
    obtain ⟨d1, -⟩ := threaded_factsG (sameCmp_ops R) hS henv.cpus (not_le.mp hd) hs'
    rcases d1 with rfl | ⟨i, hi, pre, hw, hr⟩
    · have hne : s.1 ≠ .nan := by
        rcases c1 with rfl | ⟨i, hi, pre, hw, hr⟩
        · intro hc; cases hc
        · obtain ⟨s2, k1, k2⟩ := hS pre hw.validPre
          rw [hr] at k1
          cases k1
          exact k2
      cases hsx : s.1 with
      | nan => exact absurd hsx hne
      | inf => rfl
      | ninf => rfl
      | fin v => rfl
    · exact c2 i hi pre hw s' hr
  exact le_antisymm' (key h1 h2) (key h2 h1)

/-! ## What does change -/

/-- three cities, all distances are 1 -/
def ones3 : Graph (XNum ℚ) := tri (.fin 1) (.fin 1) (.fin 1)

/-- the environment of the examples with another shuffle of the start cities -/
def envBack : Env (XNum ℚ) := { env1 with starts := fun n => (List.range n).reverse }

theorem envBack_ok : envBack.Ok :=
  ⟨env1_ok.cpus, fun _ => List.reverse_perm _, env1_ok.nnShape, env1_ok.oneTreeShape, env1_ok.peek, env1_ok.rng,
    env1_ok.sched⟩

/-- **C122, tours of nearest neighbour.** Three cities with the same distance everywhere: two shuffles, two tours. -/
theorem C122_nn_tour_changes : doConditionsHold ones3 = .ok true ∧ env1.peek = envBack.peek ∧ env1.Ok ∧ envBack.Ok ∧
    Runs env1 ones3 (.approx .nearestNeighbour .singleThreaded none)
      (.ok [.nnWeight (.fin 3), .nnTour [0, 1, 2]]) ∧
    Runs envBack ones3 (.approx .nearestNeighbour .singleThreaded none)
      (.ok [.nnWeight (.fin 3), .nnTour [2, 0, 1]]) := by
  have h1 : ((do naFromGraph (← parseChecked ones3)) >>= fun m => nearestNeighbourSeq (env1.starts m.dim) m) =
      .ok (.fin 3, [0, 1, 2]) := by decide +kernel
  have h2 : ((do naFromGraph (← parseChecked ones3)) >>= fun m => nearestNeighbourSeq (envBack.starts m.dim) m) =
      .ok (.fin 3, [2, 0, 1]) := by decide +kernel
  refine ⟨by decide +kernel, rfl, env1_ok, envBack_ok, ?_, ?_⟩
  all_goals
    simp only [Runs, ApproxRun]
    cases hm : (do naFromGraph (← parseChecked ones3)) with
    | error e => rw [hm] at h1; cases h1
    | ok m =>
      rw [hm, rm_bind_ok] at h1 h2
      first
        | exact ⟨_, h1.symm, rfl⟩
        | exact ⟨_, h2.symm, rfl⟩

/-- the cities of `badC` -/
def badGraph : Graph (XNum ℚ) :=
  (List.range 4).map fun i => ((List.range 4).erase i).map fun j => ⟨j, .fin (badC i j)⟩

/-- the environment of the examples with another shuffle of the vertices that are matched -/
def envTurn : Env (XNum ℚ) := { env1 with rng := { vertices := fun l => l.rotate 1, edges := fun _ l => l } }

theorem envTurn_ok : envTurn.Ok :=
  ⟨env1_ok.cpus, env1_ok.starts, env1_ok.nnShape, env1_ok.oneTreeShape, env1_ok.peek,
    ⟨fun l => List.rotate_perm l 1, fun _ l => List.Perm.refl l⟩, env1_ok.sched⟩

/-- **C122, Christofides.** Two runs of `walky approx christofides` on the same four cities, with different random
numbers, print different lengths: 29 and 32. -/
theorem C122_christofides_changes : doConditionsHold badGraph = .ok true ∧ env1.Ok ∧ envTurn.Ok ∧
    Runs env1 badGraph (.approx .christofides .singleThreaded none) (.ok [.christofidesWeight (.fin 29)]) ∧
    Runs envTurn badGraph (.approx .christofides .singleThreaded none) (.ok [.christofidesWeight (.fin 32)]) := by
  have h1 : ((do naFromGraph (← parseChecked badGraph)) >>= fun m => christofidesSeq env1.dbg m env1.rng) =
      .ok (.fin 29, [0, 3, 1, 2, 0]) := by decide +kernel
  have h2 : ((do naFromGraph (← parseChecked badGraph)) >>= fun m => christofidesSeq envTurn.dbg m envTurn.rng) =
      .ok (.fin 32, [0, 1, 2, 3, 0]) := by decide +kernel
  refine ⟨by decide +kernel, env1_ok, envTurn_ok, ?_, ?_⟩
  all_goals
    simp only [Runs, ApproxRun]
    cases hm : (do naFromGraph (← parseChecked badGraph)) with
    | error e => rw [hm] at h1; cases h1
    | ok m =>
      rw [hm, rm_bind_ok] at h1 h2
      first
        | exact ⟨_, h1.symm, rfl⟩
        | exact ⟨_, h2.symm, rfl⟩

/-- the environment of the examples on a machine with `k` CPUs -/
def envCpus (k : Nat) : Env (XNum ℚ) := { env1 with cpus := k }

theorem envCpus_ok {k : Nat} (h : 1 ≤ k) : (envCpus k).Ok :=
  ⟨h, env1_ok.starts, env1_ok.nnShape, env1_ok.oneTreeShape, env1_ok.peek, env1_ok.rng, env1_ok.sched⟩

/-- **C122, CPUs.** The number of CPUs matters: for the six cities of `six`, `walky exact -p multi-threaded` always
prints 61 on a machine with at least six CPUs, and always at most 60 on a machine with one CPU. -/
theorem C122_cpus_change (a : ExactAlgorithm) :
    (∀ k, 6 ≤ k → ∀ out, Runs (envCpus k) six (.exact a .multiThreaded) out ↔
      out = .ok [.bestCost (.fin 61), .bestPermutation [0, 1, 2, 3, 4, 5]]) ∧
    (∃ out, Runs (envCpus 1) six (.exact a .multiThreaded) out) ∧
    ∀ out, Runs (envCpus 1) six (.exact a .multiThreaded) out →
      ∃ x q, out = .ok [.bestCost x, .bestPermutation q] ∧ (x ≤ᶠ .fin 60) = true := by
  have hacc : doConditionsHold six = .ok true := by decide +kernel
  obtain ⟨m, hm, hdim⟩ := instance_total hacc
  have hd : m.dim = 6 := hdim
  have h1 : ((do naFromGraph (← parseChecked six)) >>= fifthImprovedSolver) =
      .ok (.fin 61, [0, 1, 2, 3, 4, 5]) := by decide +kernel
  have h2 : ((do naFromGraph (← parseChecked six)) >>= fun m => searchPrefix m [2, 0, 3]) =
      .ok (.fin 60, [2, 0, 3, 1, 4, 5]) := by decide +kernel
  rw [hm, rm_bind_ok] at h1 h2
  have hS : SearchOk m.dim (searchPrefix m) := by
    intro pre hv
    obtain ⟨s, k1, k2⟩ := searchPrefix_total m (fun p hp => mstBound_total m rfl hp) (by omega) hv
    refine ⟨s, k1, ?_⟩
    rcases k2 with rfl | ⟨-, y, hy⟩
    · intro hc; cases hc
    · intro hc
      rw [hc] at hy
      cases y <;> cases hy
  refine ⟨fun k hk out => ?_, ?_, ?_⟩
  · simp only [Runs, ExactRun, hm]
    unfold ThreadedResult
    have hk' : m.dim ≤ (envCpus k).cpus := by rw [hd]; exact hk
    simp only [if_pos hk']
    constructor
    · rintro ⟨r, hr, rfl⟩
      rw [h1] at hr
      cases hr
      rfl
    · rintro rfl
      exact ⟨_, h1, rfl⟩
  · obtain ⟨s0, L, k1, -, ⟨n, s, k2, k3⟩, -⟩ := C100_threads m rfl (nT := 1) le_rfl (by omega)
    simp only [Runs, ExactRun, hm]
    refine ⟨_, s.best, ?_, rfl⟩
    unfold ThreadedResult
    rw [if_neg (by rw [hd]; decide)]
    exact ⟨s0, n, s, k1, k2, k3, rfl⟩
  · intro out hout
    simp only [Runs, ExactRun, hm] at hout
    obtain ⟨r, hr, rfl⟩ := hout
    refine ⟨r.1, r.2, rfl, ?_⟩
    have hw : Work m.dim 3 (loV m.dim 1 0) (hiV m.dim 1 0) [2, 0, 3] := by
      rw [hd]
      exact ⟨rfl, by simp [ValidDigits], by decide, by decide, by decide⟩
    exact (threaded_factsG (sameCmp_exact) hS le_rfl (by omega) hr).2 0 (by decide) _ hw _ h2

/-- run the threads in the given order; a thread that has finished is skipped -/
def follow {α : Type} [FloatOps α] (m : Mat α) : List Nat → TSys α → RM (TSys α)
  | [], s => .ok s
  | i :: l, s =>
    match s.threads[i]? with
    | none => follow m l s
    | some t =>
      if t.done then follow m l s
      else do
        let (t', b) ← threadStep m t s.best
        follow m l { threads := s.threads.set i t', best := b }

theorem follow_steps {α : Type} [FloatOps α] {m : Mat α} {l : List Nat} {s0 s s' : TSys α} {n : Nat}
    (hs : Steps (TSys.step m) n s0 s) (h : follow m l s = .ok s') : ∃ n', Steps (TSys.step m) n' s0 s' := by
  induction l generalizing s n with
  | nil =>
    cases h
    exact ⟨n, hs⟩
  | cons i l ih =>
    unfold follow at h
    cases ht : s.threads[i]? with
    | none =>
      rw [ht] at h
      exact ih hs h
    | some t =>
      rw [ht] at h
      simp only at h
      by_cases hd : t.done = true
      · rw [if_pos hd] at h
        exact ih hs h
      · rw [if_neg hd] at h
        cases hstep : threadStep m t s.best with
        | error e => rw [hstep] at h; cases h
        | ok r =>
          obtain ⟨t', b⟩ := r
          rw [hstep, rm_bind_ok] at h
          exact ih (.tail hs ⟨i, t, t', b, ht, by simpa using hd, hstep, rfl⟩) h

/-- **C122, tours of the threads.** Three cities with the same distance everywhere, two CPUs: the scheduler decides
which tour `walky exact -p multi-threaded` prints. -/
theorem C122_threads_tour_changes (a : ExactAlgorithm) :
    Runs (envCpus 2) ones3 (.exact a .multiThreaded) (.ok [.bestCost (.fin 3), .bestPermutation [0, 1, 2]]) ∧
    Runs (envCpus 2) ones3 (.exact a .multiThreaded) (.ok [.bestCost (.fin 3), .bestPermutation [1, 2, 0]]) := by
  have hacc : doConditionsHold ones3 = .ok true := by decide +kernel
  obtain ⟨m, hm, hdim⟩ := instance_total hacc
  have key : ∀ (l : List Nat) (r : Solution (XNum ℚ)),
      ((do naFromGraph (← parseChecked ones3)) >>= fun m => initThreads m 3 2 >>= fun s => follow m l s >>= fun s =>
        .ok (s.threads.all (·.done), s.best)) = .ok (true, r) → ThreadedResult m 3 2 r := by
    intro l r h
    rw [hm, rm_bind_ok] at h
    unfold ThreadedResult
    rw [if_neg (by rw [hdim]; decide)]
    cases hi : initThreads m 3 2 with
    | error e => rw [hi] at h; cases h
    | ok s0 =>
      rw [hi, rm_bind_ok] at h
      cases hf : follow m l s0 with
      | error e => rw [hf] at h; cases h
      | ok s =>
        rw [hf, rm_bind_ok] at h
        injection h with h
        injection h with h1 h2
        obtain ⟨n, hn⟩ := follow_steps (.refl s0) hf
        exact ⟨s0, n, s, rfl, hn, fun t ht => List.all_eq_true.mp h1 t ht, h2.symm⟩
  simp only [Runs, ExactRun, hm]
  exact ⟨⟨_, key (List.replicate 40 0 ++ List.replicate 40 1) (.fin 3, [0, 1, 2]) (by decide +kernel), rfl⟩,
    ⟨_, key (List.replicate 40 1 ++ List.replicate 40 0) (.fin 3, [1, 2, 0]) (by decide +kernel), rfl⟩⟩

/-- the hypotheses of C122: two different environments with the same heap and hash function, and an instance -/
example : env1.Ok ∧ envBack.Ok ∧ envTurn.Ok ∧ (envCpus 2).Ok ∧ env1.hash = envBack.hash ∧ env1.peek = envTurn.peek ∧
    env1.starts 3 ≠ envBack.starts 3 ∧ env1.rng.vertices [0, 1, 2, 3] ≠ envTurn.rng.vertices [0, 1, 2, 3] ∧
    doConditionsHold ones3 = .ok true ∧ Reproducible (.lowerBound .oneTree .multiThreaded) ∧
    Reproducible (.exact .v6 .singleThreaded) ∧ ¬ Reproducible (.exact .v6 .multiThreaded) := by
  refine ⟨env1_ok, envBack_ok, envTurn_ok, envCpus_ok (by decide), rfl, rfl, by decide, by decide, by decide +kernel,
    trivial, trivial, id⟩

end Walky.Props
