import Verif.TestProgs
import Verif.FileIO

/-!
# The benchmark programs `fmm_efficiency.cpp` and `accuracy_seq_speedup.cpp`

The readings of the clock (`omp_get_wtime()`) are a sequence of reals, of which every iteration uses the next ones. What a tree and the direct sums do is a
parameter `work`: for the kind of the tree (true for the balanced one), the sources and the number of threads it says how the computations end. A program
that ends because of an exception leaves the files that have been closed; the model of such a run is the error only.
-/

namespace FMM.TestProgs
open FMM

/-- `v[i]` for a `std::vector<double>`. -/
def atR (v : List ℝ) (i : ℕ) : Outcome ℝ := match v[i]? with
  | some a => .ok a
  | none => .error .ub

/-! ## Files -/

/-- A file of `logEfficiencesToFile`: the first line and the rows of numbers. -/
structure LogFile where
  head : String
  rows : List (List ℝ)

/-- A directory: the contents of the files in it. -/
abbrev LogDir := String → Option LogFile

/-- `std::ofstream::open`, writing, `close()`: an existing file is truncated; if the directory does not exist the stream is in an error state and
nothing is written. -/
def LogDir.write (exist : Bool) (fs : LogDir) (name : String) (f : LogFile) : LogDir :=
  if exist then fun n => if n = name then some f else fs n else fs

/-- The name `Eff_<gr|cl>_d<d>_N<N_exp>_<us|ns>_<bt|at>` (fmm_efficiency.cpp:275-277, accuracy_seq_speedup.cpp:246-248, 258-260). -/
def logName (grav : Bool) (d nExp : ℕ) (uniformSources uniformTree : Bool) : String :=
  "Eff_" ++ (if grav then "gr" else "cl") ++ "_d" ++ toString d ++ "_N" ++ toString nExp ++ "_" ++ (if uniformSources then "us" else "ns") ++ "_"
    ++ (if uniformTree then "bt" else "at")

/-! ## `fmm_efficiency.cpp` -/

/-- The eight vectors of `par_fmm_efficiencies` (fmm_efficiency.cpp:162-164). -/
structure Timings where
  (nprocs tree pot frc total dirPot dirFrc totalDir : List ℝ)

/-- The timings `t1, …, t6` of one iteration and the `push_back`s (fmm_efficiency.cpp:175-204). -/
noncomputable def Timings.push (T : Timings) (clock : ℕ → ℝ) (c i : ℕ) : Timings :=
  let t1 := clock c
  let t2 := clock (c + 1)
  let t3 := clock (c + 2)
  let t4 := clock (c + 3)
  let t5 := clock (c + 4)
  let t6 := clock (c + 5)
  ⟨T.nprocs ++ [(i : ℝ)], T.tree ++ [t2 - t1], T.pot ++ [t3 - t2], T.frc ++ [t4 - t3], T.total ++ [t4 - t1], T.dirPot ++ [t5 - t4], T.dirFrc ++ [t6 - t5],
    T.totalDir ++ [t6 - t4]⟩

/-- The loop of `par_fmm_efficiencies` (fmm_efficiency.cpp:170-209). -/
noncomputable def effLoop (clock : ℕ → ℝ) (work : ℕ → Outcome Unit) (maxProcs incr : ℕ) : ℕ → ℕ → Timings → ℕ → Outcome (Timings × ℕ)
  | 0, _, _, _ => .error .fuel
  | fuel + 1, i, T, c =>
    if i ≤ maxProcs then do
      work i
      let T := T.push clock c i
      let i := if i = 1 then i - 1 else i
      effLoop clock work maxProcs incr fuel (i + incr) T (c + 6)
    else .ok (T, c)

/-- One line of the file (fmm_efficiency.cpp:228-235). -/
noncomputable def logRow (T : Timings) (i : ℕ) : Outcome (List ℝ) := do
  let a ← atR T.nprocs i
  let b ← atR T.tree i
  let c ← atR T.pot i
  let d ← atR T.frc i
  let e ← atR T.total i
  let f ← atR T.dirPot i
  let g ← atR T.dirFrc i
  let h ← atR T.totalDir i
  .ok [a, b, c, d, e, f, g, h]

/-- `logEfficiencesToFile` (fmm_efficiency.cpp:216-237): as many rows as there are entries of `tree_timings`. -/
noncomputable def logRows (T : Timings) : Outcome (List (List ℝ)) :=
  loopM T.tree.length (fun i (acc : List (List ℝ)) => do
    let r ← logRow T i
    .ok (acc ++ [r])) []

/-- The sources of a run (fmm_efficiency.cpp:149-157, accuracy_seq_speedup.cpp:149-157). -/
noncomputable def benchSources {d : ℕ} (R : ℕ → ℝ) (grav : Bool) (centers : List (Vec d)) (N : ℤ) (uniformSources : Bool) (c : ℕ) : List (Source d) × ℕ :=
  if uniformSources then genUniform R grav 0 10 N c else genNonUniform R grav centers 10 N c

/-- The state of the programs: files, number of readings of the clock, number of random numbers. -/
structure BenchState where
  files : LogDir
  ticks : ℕ
  rands : ℕ

/-- `head` (fmm_efficiency.cpp:273-274). -/
def effHead : String := "nprocs\tTree\tPot. (FMM)\tForce (FMM)\tTotal (FMM)\tPot. (direct)\tForce (direct)\tTotal (direct)\n"

/-- One pass of the loops of `main` (fmm_efficiency.cpp:271-281). -/
noncomputable def effCase {d : ℕ} (R clock : ℕ → ℝ) (work : Bool → List (Source d) → ℕ → Outcome Unit) (exist grav : Bool) (centers : List (Vec d))
    (nExp : ℕ) (N : ℤ) (maxProcs incr fuel : ℕ) (uniformSources uniformTree : Bool) (s : BenchState) : Outcome BenchState :=
  if !uniformSources && uniformTree then .ok s else do
    let S := benchSources R grav centers N uniformSources s.rands
    let r ← effLoop clock (work uniformTree S.1) maxProcs incr fuel 1 ⟨[], [], [], [], [], [], [], []⟩ s.ticks
    let rows ← logRows r.1
    .ok ⟨s.files.write exist (logName grav d nExp uniformSources uniformTree) ⟨effHead, rows⟩, r.2, S.2⟩

/-- `main` (fmm_efficiency.cpp:249-288). -/
noncomputable def effMain {d : ℕ} (R clock : ℕ → ℝ) (work : Bool → List (Source d) → ℕ → Outcome Unit) (exist grav : Bool) (centers : List (Vec d))
    (nExp : ℕ) (N : ℤ) (maxProcs incr fuel : ℕ) (files : LogDir) : Outcome BenchState :=
  [true, false].foldlM (fun s us => [true, false].foldlM (fun s ut => effCase R clock work exist grav centers nExp N maxProcs incr fuel us ut s) s)
    ⟨files, 0, 0⟩

/-! ## `accuracy_seq_speedup.cpp` -/

/-- The five vectors (accuracy_seq_speedup.cpp:162-163). -/
structure Timings5 where
  (nprocs tree pot frc total : List ℝ)

/-- accuracy_seq_speedup.cpp:173-198. -/
noncomputable def Timings5.push (T : Timings5) (clock : ℕ → ℝ) (c i : ℕ) : Timings5 :=
  let t1 := clock c
  let t2 := clock (c + 1)
  let t3 := clock (c + 2)
  let t4 := clock (c + 3)
  ⟨T.nprocs ++ [(i : ℝ)], T.tree ++ [t2 - t1], T.pot ++ [t3 - t2], T.frc ++ [t4 - t3], T.total ++ [t4 - t1]⟩

/-- The loop of `par_fmm_efficiencies` (accuracy_seq_speedup.cpp:169-202). -/
noncomputable def seqLoop (clock : ℕ → ℝ) (work : ℕ → Outcome Unit) (maxProcs incr : ℕ) : ℕ → ℕ → Timings5 → ℕ → Outcome (Timings5 × ℕ)
  | 0, _, _, _ => .error .fuel
  | fuel + 1, i, T, c =>
    if i ≤ maxProcs then do
      work i
      seqLoop clock work maxProcs incr fuel (i + incr) (T.push clock c i) (c + 4)
    else .ok (T, c)

/-- One line of the file (accuracy_seq_speedup.cpp:217-221). -/
noncomputable def logRow5 (T : Timings5) (i : ℕ) : Outcome (List ℝ) := do
  let a ← atR T.nprocs i
  let b ← atR T.tree i
  let c ← atR T.pot i
  let d ← atR T.frc i
  let e ← atR T.total i
  .ok [a, b, c, d, e]

/-- `logEfficiencesToFile` (accuracy_seq_speedup.cpp:206-223). -/
noncomputable def logRows5 (T : Timings5) : Outcome (List (List ℝ)) :=
  loopM T.tree.length (fun i (acc : List (List ℝ)) => do
    let r ← logRow5 T i
    .ok (acc ++ [r])) []

/-- `head` (accuracy_seq_speedup.cpp:245, 257). -/
def seqHead : String := "nprocs\ttreebuild.\tpotential\tforce\ttotal\n"

/-- The file of `sourceLocationsToFile` (fmm_general.hpp:101-117), one row of coordinates for every source. -/
noncomputable def locsFile {d : ℕ} (S : List (Source d)) : LogFile := ⟨"", S.map fun s => List.ofFn s.pos⟩

/-- One of the two halves of `main` (accuracy_seq_speedup.cpp:146-204, 242-252, 254-264). -/
noncomputable def seqCase {d : ℕ} (R clock : ℕ → ℝ) (work : Bool → List (Source d) → ℕ → Outcome Unit) (exist grav : Bool) (centers : List (Vec d))
    (nExp : ℕ) (N : ℤ) (maxProcs incr fuel : ℕ) (uniformSources uniformTree : Bool) (s : BenchState) : Outcome BenchState := do
  let S := benchSources R grav centers N uniformSources s.rands
  let files := s.files.write exist "source_locs.dat" (locsFile S.1)
  let r ← seqLoop clock (work uniformTree S.1) maxProcs incr fuel 1 ⟨[], [], [], [], []⟩ s.ticks
  let rows ← logRows5 r.1
  .ok ⟨files.write exist (logName grav d nExp uniformSources uniformTree) ⟨seqHead, rows⟩, r.2, S.2⟩

/-- `main` (accuracy_seq_speedup.cpp:232-268): `uniform_sources` and `uniform_tree` are `true` both times. -/
noncomputable def seqMain {d : ℕ} (R clock : ℕ → ℝ) (work : Bool → List (Source d) → ℕ → Outcome Unit) (exist grav : Bool) (centers : List (Vec d))
    (nExp : ℕ) (N : ℤ) (maxProcs incr fuel : ℕ) (files : LogDir) : Outcome BenchState := do
  let s ← seqCase R clock work exist grav centers nExp N maxProcs incr fuel true true ⟨files, 0, 0⟩
  seqCase R clock work exist grav centers nExp N maxProcs incr fuel true true s

end FMM.TestProgs
