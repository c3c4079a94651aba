import Verif.Glue
import Verif.Fmm2D
import Verif.Fmm3D

/-!
# `mathematica/MathematicaFMM.wl`: the Wolfram Language package, and `mathematica/fmm_mathematica_test.m`

A `LibraryFunction` evaluates only if it gets as many arguments as its declaration lists, each convertible to the declared type;
otherwise the call stays unevaluated (`none`). The converted arguments reach the C function as an array of unions (`MArgument`):
reading a member other than the one that was stored, or beyond the array, is undefined behaviour.
-/

namespace FMM.Wolfram

open FMM.Glue

/-- Types in the declarations (MathematicaFMM.wl:41-55): `{Real,1}`, `Integer`, `Real`, `"Boolean"`. -/
inductive MTy | tensor | integer | real | boolean
  deriving DecidableEq, Repr

/-- Values of the Wolfram Language that matter: machine or exact numbers, lists of numbers, truth values, anything else. -/
inductive WVal
  | int (z : ℤ)
  | real (x : ℝ)
  | vec (l : List ℝ)
  | bool (b : Bool)
  | other

/-- `MArgument` (WolframLibrary.h): a union of pointers, with the member that was stored. -/
inductive MArg
  | tensor (a : Arr ℝ)
  | integer (z : ℤ)
  | real (x : ℝ)
  | boolean (b : Bool)

/-- A rank one tensor of reals. -/
def tensorOf (l : List ℝ) : Arr ℝ := ⟨l.length, fun i => l.getD i 0⟩

/-- Conversion of an argument: exact integers convert to `Real`, but reals do not convert to `Integer`; `mint` has 64 bits. -/
def convert : MTy → WVal → Option MArg
  | .tensor, .vec l => some (.tensor (tensorOf l))
  | .integer, .int z => if -2 ^ 63 ≤ z ∧ z < 2 ^ 63 then some (.integer z) else none
  | .real, .real x => some (.real x)
  | .real, .int z => some (.real z)
  | .boolean, .bool b => some (.boolean b)
  | _, _ => none

/-- Conversion of all arguments. -/
def marshal : List MTy → List WVal → Option (List MArg)
  | [], [] => some []
  | t :: ts, v :: vs => do
    let a ← convert t v
    let as ← marshal ts vs
    some (a :: as)
  | _, _ => none

/-- The two compiled libraries (MathematicaFMM.wl:15-25); the Coulomb variants are commented out (27-39). -/
inductive Lib | grav2 | grav3
  deriving DecidableEq, Repr

/-- The exported functions (MathematicaFMM.cpp:19, 76, 132, 185, 236, 313). -/
inductive Fn | fmmForces | fmmEnergies | fmmPotentials | directForces | directEnergies | directPotentials
  deriving DecidableEq, Repr

/-- One `LibraryFunctionLoad`. -/
structure Loaded where
  name : String
  lib : Lib
  fn : Fn
  types : List MTy

/-- MathematicaFMM.wl:41-55. -/
def package : List Loaded :=
  [⟨"FMM2DGravParticleForces", .grav2, .fmmForces, [.tensor, .tensor, .integer, .real, .real]⟩,
   ⟨"FMM2DGravParticlePotentialEnergies", .grav2, .fmmEnergies, [.tensor, .tensor, .integer, .real]⟩,
   ⟨"FMM2DGravEvaluatePotentials", .grav2, .fmmPotentials, [.tensor, .tensor, .integer, .real, .tensor, .boolean]⟩,
   ⟨"Direct2DGravParticleForces", .grav2, .directForces, [.tensor, .tensor, .real]⟩,
   ⟨"Direct2DGravParticlePotentialEnergies", .grav2, .directEnergies, [.tensor, .tensor]⟩,
   ⟨"Direct2DGravEvaluatePotentials", .grav2, .directPotentials, [.tensor, .tensor, .tensor]⟩,
   ⟨"FMM3DGravParticleForces", .grav3, .fmmForces, [.tensor, .tensor, .integer, .real, .real]⟩,
   ⟨"FMM3DGravParticlePotentialEnergies", .grav3, .fmmEnergies, [.tensor, .tensor, .integer, .real]⟩,
   ⟨"FMM3DGravEvaluatePotentials", .grav3, .fmmPotentials, [.tensor, .tensor, .integer, .real, .tensor, .boolean]⟩,
   ⟨"Direct3DGravParticleForces", .grav3, .directForces, [.tensor, .tensor, .real]⟩,
   ⟨"Direct3DGravParticlePotentialEnergies", .grav3, .directEnergies, [.tensor, .tensor]⟩,
   ⟨"Direct3DGravEvaluatePotentials", .grav3, .directPotentials, [.tensor, .tensor, .tensor]⟩]

/-! ## The C side -/

/-- `MArgument_getMTensor(Args[k])`. -/
def getTensor (args : List MArg) (k : ℕ) : Outcome (Arr ℝ) :=
  match args[k]? with
  | some (.tensor a) => .ok a
  | _ => .error .ub

/-- `MArgument_getInteger(Args[k])`. -/
def getInteger (args : List MArg) (k : ℕ) : Outcome ℤ :=
  match args[k]? with
  | some (.integer z) => .ok z
  | _ => .error .ub

/-- `MArgument_getReal(Args[k])`. -/
def getReal (args : List MArg) (k : ℕ) : Outcome ℝ :=
  match args[k]? with
  | some (.real x) => .ok x
  | _ => .error .ub

/-- `MArgument_getBoolean(Args[k])`. -/
def getBoolean (args : List MArg) (k : ℕ) : Outcome Bool :=
  match args[k]? with
  | some (.boolean b) => .ok b
  | _ => .error .ub

/-- `mint` to `std::size_t` at the constructor call (MathematicaFMM.cpp:60, adaptive_fmm_tree.hpp:38). -/
def sizeT (z : ℤ) : ℕ := (z % 2 ^ 64).toNat

/-- What an exported function computes, with the arguments it has read. -/
inductive Call
  | fmmForces (positions charges : Arr ℝ) (itemsPerLeaf : ℕ) (eps feps : ℝ)
  | fmmEnergies (positions charges : Arr ℝ) (itemsPerLeaf : ℕ) (eps : ℝ)
  | fmmPotentials (positions charges : Arr ℝ) (itemsPerLeaf : ℕ) (eps : ℝ) (points : Arr ℝ) (treeToFile : Bool)
  | directForces (positions charges : Arr ℝ) (feps : ℝ)
  | directEnergies (positions charges : Arr ℝ)
  | directPotentials (positions charges points : Arr ℝ)

/-- The reads of `Args` (MathematicaFMM.cpp:25-35, 82-91, 138-146, 191-197, 242-254, 319-330). -/
def readArgs : Fn → List MArg → Outcome Call
  | .fmmForces, args => do
    let positions ← getTensor args 0
    let charges ← getTensor args 1
    let itemsPerLeaf ← getInteger args 2
    let eps ← getReal args 3
    let feps ← getReal args 4
    .ok (.fmmForces positions charges (sizeT itemsPerLeaf) eps feps)
  | .fmmEnergies, args => do
    let positions ← getTensor args 0
    let charges ← getTensor args 1
    let itemsPerLeaf ← getInteger args 2
    let eps ← getReal args 3
    .ok (.fmmEnergies positions charges (sizeT itemsPerLeaf) eps)
  | .fmmPotentials, args => do
    let positions ← getTensor args 0
    let charges ← getTensor args 1
    let itemsPerLeaf ← getInteger args 2
    let eps ← getReal args 3
    let points ← getTensor args 4
    let treeToFile ← getBoolean args 5
    .ok (.fmmPotentials positions charges (sizeT itemsPerLeaf) eps points treeToFile)
  | .directForces, args => do
    let positions ← getTensor args 0
    let charges ← getTensor args 1
    let feps ← getReal args 2
    .ok (.directForces positions charges feps)
  | .directEnergies, args => do
    let positions ← getTensor args 0
    let charges ← getTensor args 1
    .ok (.directEnergies positions charges)
  | .directPotentials, args => do
    let positions ← getTensor args 0
    let charges ← getTensor args 1
    let points ← getTensor args 2
    .ok (.directPotentials positions charges points)

/-- Evaluation of `name[vals]`: `none` if the expression stays unevaluated. -/
def invoke (name : String) (vals : List WVal) : Option (Lib × Outcome Call) := do
  let l ← package.find? fun l => l.name == name
  let args ← marshal l.types vals
  some (l.lib, readArgs l.fn args)

/-- One execution: the state of the static tables in the two libraries, the orders of the parallel loops (without `-fopenmp`,
MathematicaFMM.wl:11, they are the sequential ones), and the initial contents of the result. -/
structure Exec where
  fuel : ℕ
  sch : ℕ → List Path → List Path
  t2 : BinomialTable
  t3 : Stat3
  ord : Orders
  junk : ℕ → ℝ

/-- The computation of an exported function for `DIM = d`, `FIELD_TYPE = True`, as a set of results; writing the tree to a file
(MathematicaFMM.cpp:298-300) does not change the result. -/
def returnsAt {d : ℕ} (X : Exec) (K : Kit d) (t : K.T) (P : Obs K ℝ) (F : ℝ → Obs K (Vec d)) : Call → Arr ℝ → Prop
  | .fmmForces pos chg n eps feps, out =>
    fmmParticleForces K (F feps) X.fuel X.sch t true X.ord X.junk pos chg n eps = .ok out
  | .fmmEnergies pos chg n eps, out => fmmParticleEnergies K P X.fuel X.sch t true X.ord X.junk pos chg n eps = .ok out
  | .fmmPotentials pos chg n eps pts _, out =>
    fmmEvaluatePotentials K P X.fuel X.sch t true X.ord X.junk pos chg n eps pts = .ok out
  | .directForces pos chg feps, out => DirectParticleForces (d := d) true X.ord X.junk pos chg feps out
  | .directEnergies pos chg, out => DirectParticleEnergies d true X.junk pos chg out
  | .directPotentials pos chg pts, out => directEvaluatePotentials d true X.ord X.junk pos chg pts = .ok out

/-- The computation in one of the libraries. -/
def returns (X : Exec) : Lib → Call → Arr ℝ → Prop
  | .grav2 => returnsAt X kit2 X.t2 pot2 force2
  | .grav3 => returnsAt X kit3 X.t3 pot3 force3

/-- `name[vals]` can evaluate to the list stored in `out`. -/
def Evaluates (X : Exec) (name : String) (vals : List WVal) (out : Arr ℝ) : Prop :=
  ∃ L c, invoke name vals = some (L, .ok c) ∧ returns X L c out

/-! ## The usage messages and the test script -/

/-- The parameters that the usage messages show (MathematicaFMM.wl:60-74). -/
def usage : List (String × List String) :=
  [("FMM2DGravParticleForces", ["positions", "charges", "items_per_leaf", "acc_eps", "force_smoothing_eps"]),
   ("FMM2DGravParticlePotentialEnergies", ["positions", "charges", "items_per_leaf", "acc_eps", "force_smoothing_eps"]),
   ("FMM2DGravEvaluatePotentials",
    ["positions", "charges", "items_per_leaf", "acc_eps", "force_smoothing_eps", "eval_points", "tree_to_file"]),
   ("Direct2DGravParticleForces", ["positions", "charges", "force_smoothing_eps"]),
   ("Direct2DGravParticlePotentialEnergies", ["positions", "charges", "force_smoothing_eps"]),
   ("Direct2DGravEvaluatePotentials", ["positions", "charges", "force_smoothing_eps", "eval_points"]),
   ("FMM3DGravParticleForces", ["positions", "masses", "items_per_leaf", "acc_eps", "force_smoothing_eps"]),
   ("FMM3DGravParticlePotentialEnergies", ["positions", "masses", "items_per_leaf", "acc_eps", "force_smoothing_eps"]),
   ("FMM3DGravEvaluatePotentials",
    ["positions", "masses", "items_per_leaf", "acc_eps", "force_smoothing_eps", "eval_points", "tree_to_file"]),
   ("Direct3DGravParticleForces", ["positions", "masses", "force_smoothing_eps"]),
   ("Direct3DGravParticlePotentialEnergies", ["positions", "masses", "force_smoothing_eps"]),
   ("Direct3DGravEvaluatePotentials", ["positions", "masses", "force_smoothing_eps", "eval_points"])]

/-- The assignments of the test script (fmm_mathematica_test.m:12-18). -/
def scriptDefs : List (String × String) :=
  [("FMMForces", "FMM2DGravParticleForces"), ("FMMPotentials", "FMM2DGravParticlePotentialEnergies"),
   ("FMMPointEvalPotentials", "FMM2DGravEvaluatePotentials"), ("DirectPotentials", "Direct2DGravParticlePotentialEnergies"),
   ("DirectForces", "Direct2DGravParticleForces"), ("DirectPointEvalPotentials", "Direct2DGravEvaluatePotentials")]

/-- A call in the script: its symbols evaluate to what they were assigned. -/
def scriptInvoke (name : String) (vals : List WVal) : Option (Lib × Outcome Call) :=
  match scriptDefs.find? fun e => e.1 == name with
  | some e => invoke e.2 vals
  | none => invoke name vals

/-- The three calls of the script (fmm_mathematica_test.m:20-24). -/
noncomputable def scriptCalls (P Q : List ℝ) : List (String × List WVal) :=
  [("FMMParticleForces", [.vec P, .vec Q, .int 20, .real (1 / 100), .int 0]),
   ("FMMParticlePotentials", [.vec P, .vec Q, .int 20, .real (1 / 100)]),
   ("DirectPotentials", [.vec P, .vec Q])]

end FMM.Wolfram
