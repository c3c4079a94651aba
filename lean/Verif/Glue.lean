import Verif.FmmTrees
import Verif.LoopLemmas

/-!
# The callers of the library: `examples/integrator.cpp` and `mathematica/MathematicaFMM.cpp`

C arrays and tensors are `Arr`: an access outside the allocation is undefined behaviour. Array elements that were never written
hold the value `junk`, over which everything is quantified.
-/

namespace FMM.Glue
variable {d : ℕ}

/-- `v[j]` of a `Vector_` (vector.hpp:20-21): unchecked access to a `std::array`. -/
def vget (v : Vec d) (j : ℕ) : Outcome ℝ := if h : j < d then .ok (v ⟨j, h⟩) else .error .ub

/-- `v[j] = a` of a `Vector_` (vector.hpp:20). -/
def vset (v : Vec d) (j : ℕ) (a : ℝ) : Outcome (Vec d) :=
  if h : j < d then .ok (Function.update v ⟨j, h⟩ a) else .error .ub

/-- The elements of a vector. -/
def _root_.FMM.Arr.toList {α : Type*} (a : Arr α) : List α := (List.range a.size).map a.val

/-- `Vec v; for j: v[j] = data[idx j]` (integrator.cpp:20-23, MathematicaFMM.cpp:52-55). -/
def readVec (data : Arr ℝ) (idx : ℕ → Outcome ℕ) : Outcome (Vec d) :=
  loopM d (fun j v => do
    let k ← idx j
    let a ← data.rd k
    vset v j a) (Vec.fill 0)

/-- `for j: data[idx j] = v[j]` (integrator.cpp:35-37, MathematicaFMM.cpp:67-69). -/
def writeVec (data : Arr ℝ) (idx : ℕ → Outcome ℕ) (v : Vec d) : Outcome (Arr ℝ) :=
  loopM d (fun j data => do
    let a ← vget v j
    let k ← idx j
    data.wr k a) data

/-! ## integrator.cpp -/

/-- `arrayToSources` (integrator.cpp:15-26). Indices are `std::size_t`. -/
def arrayToSources (sources : Arr (Source d)) (positions charges : Arr ℝ) : Outcome (Arr (Source d)) :=
  loopM sources.size (fun i sources => do
    let v ← readVec positions fun j => .ok (i * d + j)
    let q ← charges.rd i
    sources.wr i ⟨v, q⟩) sources

/-- `sourcesToArray` (integrator.cpp:30-43). -/
def sourcesToArray (sources : List (Source d)) (positions charges : Arr ℝ) : Outcome (Arr ℝ × Arr ℝ) :=
  loopM sources.length (fun i (st : Arr ℝ × Arr ℝ) => do
    let s ← vecGet sources i
    let positions ← writeVec st.1 (fun j => .ok (i * d + j)) s.pos
    let charges ← st.2.wr i s.q
    .ok (positions, charges)) (positions, charges)

/-- `a / b` for doubles: a zero divisor gives inf or nan. -/
noncomputable def fdiv (a b : ℝ) : Outcome ℝ := if b = 0 then .error .nonFinite else .ok (a / b)

/-- The double loop of `derivative_func` (integrator.cpp:76-81). -/
noncomputable def derivLoop (N : ℕ) (y : Arr ℝ) (masses : Arr ℝ) (forces : Arr (Vec d)) (f : Arr ℝ) : Outcome (Arr ℝ) :=
  loopM N (fun i f => loopM d (fun j f => do
    let v ← y.rd (N * d + i * d + j)
    let f ← f.wr (i * d + j) v
    let F ← forces.rd i
    let a ← vget F j
    let m ← masses.rd i
    let a ← fdiv a m
    f.wr (N * d + i * d + j) a) f) f

/-- `derivative_func` (integrator.cpp:57-86) with the parameters of `deriv_params` (45-55); the tree is gravitational (default
template argument), `order`: the execution order of the parallel loop over the particles. -/
noncomputable def derivativeFunc (K : Kit d) (O : Obs K (Vec d)) (fuel : ℕ) (sch : ℕ → List Path → List Path) (t : K.T)
    (order : List ℕ) (charges masses : Arr ℝ) (N itemsPerLeaf : ℕ) (eps : ℝ) (y f : Arr ℝ) : Outcome (Arr ℝ) := do
  let sources ← arrayToSources ⟨N, fun _ => ⟨Vec.fill 0, 0⟩⟩ y charges
  let T ← adaptiveFmm K fuel sch t sources.toList itemsPerLeaf eps
  let forces ← particleLoop (fun q v => Vec.scale v q) (adaptiveEval O fuel true T sources.toList) sources.toList order
  derivLoop N y masses forces f

/-! ## MathematicaFMM.cpp -/

/-- The value of an `int` expression with mathematical value `k ≥ 0`: overflow is undefined. -/
def intIdx (k : ℕ) : Outcome ℕ := if k < 2 ^ 31 then .ok k else .error .ub

/-- The parallel loop that fills `sources` (MathematicaFMM.cpp:50-58, 106-114, 161-169, 213-221,
275-283, 348-356), its iterations executed in the order `order`. -/
def unpackSources (n : ℕ) (positions charges : Arr ℝ) (order : List ℕ) : Outcome (List (Source d)) := do
  let a ← order.foldlM (fun (src : Arr (Source d)) i => do
    let v ← readVec positions fun j => intIdx (d * i + j)
    let q ← charges.rd i
    src.wr i ⟨v, q⟩) ⟨n, fun _ => ⟨Vec.fill 0, 0⟩⟩
  .ok a.toList

/-- The parallel loop that fills `eval_points` (MathematicaFMM.cpp:285-292, 358-365). -/
def unpackPoints (n : ℕ) (points : Arr ℝ) (order : List ℕ) : Outcome (List (Vec d)) := do
  let a ← order.foldlM (fun (pts : Arr (Vec d)) i => do
    let v ← readVec points fun j => intIdx (d * i + j)
    pts.wr i v) ⟨n, fun _ => Vec.fill 0⟩
  .ok a.toList

/-- The parallel loop that writes vectors to the result tensor (MathematicaFMM.cpp:65-70, 174-179). -/
def packVecs (out : Arr ℝ) (forces : Arr (Vec d)) (order : List ℕ) : Outcome (Arr ℝ) :=
  order.foldlM (fun (out : Arr ℝ) i => do
    let F ← forces.rd i
    writeVec out (fun j => intIdx (d * i + j)) F) out

/-- The parallel loop that writes numbers to the result tensor (MathematicaFMM.cpp:122-125, 226-229). -/
def packReals (out : Arr ℝ) (vals : Arr ℝ) (order : List ℕ) : Outcome (Arr ℝ) :=
  order.foldlM (fun (out : Arr ℝ) i => do
    let a ← vals.rd i
    out.wr i a) out

/-- Execution orders of the parallel loops of one call. -/
structure Orders where
  unpack : List ℕ
  points : List ℕ
  particles : List ℕ
  pack : List ℕ

/-- `FMMParticleForces` (MathematicaFMM.cpp:19-74); `DIM = d`, `FIELD_TYPE = grav`. -/
noncomputable def fmmParticleForces (K : Kit d) (O : Obs K (Vec d)) (fuel : ℕ) (sch : ℕ → List Path → List Path) (t : K.T)
    (grav : Bool) (ord : Orders) (junk : ℕ → ℝ) (positions charges : Arr ℝ) (itemsPerLeaf : ℕ) (eps : ℝ) :
    Outcome (Arr ℝ) := do
  let n := positions.size / d
  let sources ← unpackSources n positions charges ord.unpack
  let T ← adaptiveFmm K fuel sch t sources itemsPerLeaf eps
  let forces ← particleLoop (fun q v => Vec.scale v q) (adaptiveEval O fuel grav T sources) sources ord.particles
  packVecs ⟨n * d, junk⟩ forces ord.pack

/-! ## mathematica.cpp -/

/-- The loop that fills `sources` (mathematica.cpp:40-47). -/
def pushSources (n : ℕ) (positions charges : Arr ℝ) : Outcome (List (Source d)) :=
  loopM n (fun i sources => do
    let v ← readVec positions fun j => intIdx (d * i + j)
    let q ← charges.rd i
    .ok (sources ++ [⟨v, q⟩])) []

/-- `FMM2D_Forces` (mathematica.cpp:8-60): gravitational (default template argument), no smoothing; `order`: the execution order of
the parallel loop over the particles. -/
noncomputable def fmm2dForces (K : Kit 2) (O : Obs K (Vec 2)) (fuel : ℕ) (sch : ℕ → List Path → List Path) (t : K.T)
    (order : List ℕ) (junk : ℕ → ℝ) (positions charges : Arr ℝ) (itemsPerLeaf : ℕ) (eps : ℝ) : Outcome (Arr ℝ) := do
  let n := positions.size / 2
  let sources ← pushSources n positions charges
  let T ← adaptiveFmm K fuel sch t sources itemsPerLeaf eps
  let forces ← particleLoop (fun q v => Vec.scale v q) (adaptiveEval O fuel true T sources) sources order
  packVecs ⟨n * 2, junk⟩ forces (List.range n)

/-! ## MathematicaFMM.cpp, continued -/

/-- `FMMParticlePotentialEnergies` (MathematicaFMM.cpp:76-129). -/
noncomputable def fmmParticleEnergies (K : Kit d) (O : Obs K ℝ) (fuel : ℕ) (sch : ℕ → List Path → List Path) (t : K.T)
    (grav : Bool) (ord : Orders) (junk : ℕ → ℝ) (positions charges : Arr ℝ) (itemsPerLeaf : ℕ) (eps : ℝ) :
    Outcome (Arr ℝ) := do
  let n := positions.size / d
  let sources ← unpackSources n positions charges ord.unpack
  let T ← adaptiveFmm K fuel sch t sources itemsPerLeaf eps
  let vals ← particleLoop (fun q v => q * v) (adaptiveEval O fuel grav T sources) sources ord.particles
  packReals ⟨n, junk⟩ vals ord.pack

/-- `DirectParticleForces` (MathematicaFMM.cpp:132-183), as the set of possible results: `fields::particleForces` is
`ForceResult`. -/
def DirectParticleForces (grav : Bool) (ord : Orders) (junk : ℕ → ℝ) (positions charges : Arr ℝ) (feps : ℝ)
    (out : Arr ℝ) : Prop :=
  ∃ (sources : List (Source d)) (res : ℕ × Fin d → ℝ),
    unpackSources (positions.size / d) positions charges ord.unpack = .ok sources ∧ ForceResult grav sources feps res ∧
    packVecs ⟨positions.size / d * d, junk⟩ (⟨sources.length, fun i k => res (i, k)⟩ : Arr (Vec d)) ord.pack = .ok out

/-- `DirectParticlePotentialEnergies` (MathematicaFMM.cpp:185-233), as the set of possible results. Its loops are
sequential (213, 226: the pragmas are commented out). -/
def DirectParticleEnergies (d : ℕ) (grav : Bool) (junk : ℕ → ℝ) (positions charges : Arr ℝ) (out : Arr ℝ) : Prop :=
  ∃ (sources : List (Source d)) (res : ℕ → ℝ),
    unpackSources (positions.size / d) positions charges (List.range (positions.size / d)) = .ok sources ∧
    EnergyResult grav sources res ∧
    packReals ⟨positions.size / d, junk⟩ ⟨sources.length, res⟩ (List.range (positions.size / d)) = .ok out

/-- The parallel loop `out_data[i] = eval(eval_points[i])` (MathematicaFMM.cpp:303-306, 367-371). -/
def evalPoints (out : Arr ℝ) (pts : List (Vec d)) (eval : Vec d → Outcome ℝ) (order : List ℕ) : Outcome (Arr ℝ) :=
  order.foldlM (fun (out : Arr ℝ) i => do
    let x ← vecGet pts i
    let v ← eval x
    out.wr i v) out

/-- `FMMEvaluatePotentials` (MathematicaFMM.cpp:236-310) without the optional `toFile`. -/
noncomputable def fmmEvaluatePotentials (K : Kit d) (O : Obs K ℝ) (fuel : ℕ) (sch : ℕ → List Path → List Path) (t : K.T)
    (grav : Bool) (ord : Orders) (junk : ℕ → ℝ) (positions charges : Arr ℝ) (itemsPerLeaf : ℕ) (eps : ℝ)
    (points : Arr ℝ) : Outcome (Arr ℝ) := do
  let sources ← unpackSources (positions.size / d) positions charges ord.unpack
  let pts ← unpackPoints (points.size / d) points ord.points
  let T ← adaptiveFmm K fuel sch t sources itemsPerLeaf eps
  evalPoints ⟨points.size / d, junk⟩ pts (adaptiveEval O fuel grav T sources) ord.pack

/-- `DirectEvaluatePotentials` (MathematicaFMM.cpp:313-376). The implicit barrier at the end of each `omp for` separates the loops. -/
noncomputable def directEvaluatePotentials (d : ℕ) (grav : Bool) (ord : Orders) (junk : ℕ → ℝ) (positions charges points : Arr ℝ) :
    Outcome (Arr ℝ) := do
  let sources ← unpackSources (d := d) (positions.size / d) positions charges ord.unpack
  let pts ← unpackPoints (points.size / d) points ord.points
  evalPoints ⟨points.size / d, junk⟩ pts (potentialSum grav true sources) ord.pack

end FMM.Glue
