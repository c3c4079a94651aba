import Verif.FileIO
import Verif.Fmm2D

/-!
# The program `examples/integrator.cpp`

The ODE solver of GSL (`gsl_odeiv2_driver` with the stepper `gsl_odeiv2_step_rk4`) is modelled from its documentation and source:
the classical Runge-Kutta formula, applied once with the whole step to estimate the error and twice with half the step for the
result. The step sizes and the decisions of its controller are an oracle (`Ctl`), over which everything is quantified. The
evaluations of the right-hand side are numbered; `env` gives for each of them the schedule of the parallel loops, the table
of binomial coefficients and the prior contents of the array for the result.
-/

namespace FMM.Integrator
open FMM

/-- The circumstances of one evaluation of the right-hand side. -/
structure Env where
  fuel : ℕ
  sch : ℕ → List Path → List Path
  t : BinomialTable
  order : List ℕ
  out : ℕ → ℝ

/-- The right-hand side of the system (integrator.cpp:139-144): `derivative_func<2>` with the parameters of `main`
(integrator.cpp:117-120). The array `f` has as many elements as `y`. -/
noncomputable def deriv (env : ℕ → Env) (charges masses : Arr ℝ) (k : ℕ) (y : Arr ℝ) : Outcome (Arr ℝ) :=
  Glue.derivativeFunc kit2 (force2 (1 / 1000000)) (env k).fuel (env k).sch (env k).t (env k).order charges masses charges.size 90
    (1 / 1000) y ⟨y.size, (env k).out⟩

/-- `y[i] += c * k[i]` for all `i`. -/
noncomputable def axpy (y : Arr ℝ) (c : ℝ) (k : Arr ℝ) : Arr ℝ := ⟨y.size, fun i => y.val i + c * k.val i⟩

/-- One step of the classical Runge-Kutta method (`rk4_step` of GSL); `k1`: the derivative at `y`, `n`: the number of the next
evaluation. Three evaluations. -/
noncomputable def rk4Step (f : ℕ → Arr ℝ → Outcome (Arr ℝ)) (n : ℕ) (h : ℝ) (y k1 : Arr ℝ) : Outcome (Arr ℝ) := do
  let k2 ← f n (axpy y (h / 2) k1)
  let k3 ← f (n + 1) (axpy y (h / 2) k2)
  let k4 ← f (n + 2) (axpy y h k3)
  .ok (axpy (axpy (axpy (axpy y (h / 6) k1) (h / 3) k2) (h / 3) k3) (h / 6) k4)

/-- `gsl_odeiv2_step_rk4` applied to `y` (`rk4_apply` of GSL): the state after two half steps and the derivative there. The full
step serves to estimate the error. Eleven evaluations. -/
noncomputable def rk4Apply (f : ℕ → Arr ℝ → Outcome (Arr ℝ)) (n : ℕ) (h : ℝ) (y k1 : Arr ℝ) : Outcome (Arr ℝ × Arr ℝ) := do
  let _ ← rk4Step f n h y k1
  let y1 ← rk4Step f (n + 3) (h / 2) y k1
  let k ← f (n + 6) y1
  let y2 ← rk4Step f (n + 7) (h / 2) y1 k
  let k' ← f (n + 10) y2
  .ok (y2, k')

/-- The state of the solver: the number of evaluations so far, the state `y` and the derivative there. -/
structure Solver where
  n : ℕ
  y : Arr ℝ
  k : Arr ℝ

/-- A trial step of size `c.1`, accepted (`c.2`) or not; in the latter case `y` is restored (`gsl_odeiv2_evolve_apply`). -/
noncomputable def trial (f : ℕ → Arr ℝ → Outcome (Arr ℝ)) (s : Solver) (c : ℝ × Bool) : Outcome Solver := do
  let (y, k) ← rk4Apply f s.n c.1 s.y s.k
  .ok (if c.2 then ⟨s.n + 11, y, k⟩ else ⟨s.n + 11, s.y, s.k⟩)

/-- What the step size controller decides during one call of `gsl_odeiv2_driver_apply`: the trial steps, and whether the call
returns `GSL_SUCCESS`. -/
structure Ctl where
  trials : List (ℝ × Bool)
  success : Bool

/-- The loop of `main` over the saves `i, …, i + m - 1` (integrator.cpp:149-165): the lines of the trajectory file, each a time
and the state. -/
noncomputable def saves (f : ℕ → Arr ℝ → Outcome (Arr ℝ)) (ctl : ℕ → Ctl) : ℕ → ℕ → Solver → Outcome (List (ℝ × List ℝ))
  | 0, _, _ => .ok []
  | m + 1, i, s => do
    let s ← (ctl i).trials.foldlM (trial f) s
    if (ctl i).success then do
      let rest ← saves f ctl m (i + 1) s
      .ok ((i * 10 / 100, s.y.toList) :: rest)
    else .ok []

/-- The integration (integrator.cpp:144-165) of the state `y`. A system of dimension 0 is an error of
`gsl_odeiv2_driver_alloc_y_new`. -/
noncomputable def integrate (f : ℕ → Arr ℝ → Outcome (Arr ℝ)) (ctl : ℕ → Ctl) (y : Arr ℝ) : Outcome (List (ℝ × List ℝ)) :=
  if y.size = 0 then .error .gslAbort
  else do
    let k ← f 0 y
    saves f ctl 100 1 ⟨1, y, k⟩

/-- `main` (integrator.cpp:88-173): what is written to `logs/trajectory.dat`. `fs`, `fv`, `fm`: the three input files, if they
exist; `logs`: whether the output file could be opened, which the program does not check. -/
noncomputable def main (junk : ℕ → ℝ) (env : ℕ → Env) (ctl : ℕ → Ctl) (fs fv fm : Option (List FileIO.Line)) (logs : Bool) :
    Outcome (List (ℝ × List ℝ)) :=
  match fs, fv, fm with
  | some fs, some fv, some fm => do
    let (positions, charges, masses) ← FileIO.setup junk fs fv fm
    let recs ← integrate (deriv env charges masses) ctl positions
    .ok (if logs then recs else [])
  | _, _, _ => .error .runtimeError

end FMM.Integrator
