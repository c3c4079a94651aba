import Verif.Geometry
import Verif.Fields
import Mathlib.Algebra.Order.Floor.Ring
import Mathlib.Data.Rat.Floor

/-!
# The programs in `test/`

The random numbers `(double) rand() / (RAND_MAX)` are a sequence of reals; every function returns the number of values used so far
together with its result.
-/

namespace FMM.TestProgs
open FMM

/-! ## Distributions of sources -/

/-- The position of one source: `v[j] += extent * ((double) rand() / (RAND_MAX)) - extent/2` for all `j`, starting from random number `c`
(accuracy_seq_speedup.cpp:45-48, fmm_efficiency.cpp:42-45). -/
noncomputable def randPos {d : ℕ} (R : ℕ → ℝ) (center : Vec d) (extent : ℝ) (c : ℕ) : Vec d :=
  fun j => center j + (extent * R (c + j) - extent / 2)

/-- `generateUniformDistribution` (accuracy_seq_speedup.cpp:36-56, fmm_efficiency.cpp:36-56). -/
noncomputable def genUniform {d : ℕ} (R : ℕ → ℝ) (grav : Bool) (center : Vec d) (extent : ℝ) (N : ℤ) (c : ℕ) : List (Source d) × ℕ :=
  loopN N.toNat (fun i (acc : List (Source d) × ℕ) =>
    let v := randPos R center extent acc.2
    let sign : ℝ := if i % 2 = 1 then 1 else if !grav then -1 else 1
    let q := R (acc.2 + d) * sign
    (acc.1 ++ [⟨v, q⟩], acc.2 + d + 1)) ([], c)

/-- The centres of the clusters (accuracy_seq_speedup.cpp:63-78, fmm_efficiency.cpp:63-78), `d = 2` and `d = 3`. -/
noncomputable def clusterCenters2 : List (Vec 2) := [![0, 1], ![√3 / 2, -0.5], ![-√3 / 2, -0.5]]

noncomputable def clusterCenters3 : List (Vec 3) := [![0, 1, 0], ![√3 / 2, -0.5, 0], ![-√3 / 2, -0.5, 0], ![0, 0, √3]]

/-- `generateNonUniformDistribution` (accuracy_seq_speedup.cpp:58-90, fmm_efficiency.cpp:58-90) for the given centres. -/
noncomputable def genNonUniform {d : ℕ} (R : ℕ → ℝ) (grav : Bool) (centers : List (Vec d)) (extent : ℝ) (N : ℤ) (c : ℕ) :
    List (Source d) × ℕ :=
  let shiftDist := 8 * extent
  let nPerCenter : ℤ := ⌈(N : ℝ) / centers.length⌉
  centers.foldl (fun acc center =>
    let new := genUniform R grav (Vec.scale center shiftDist) extent nPerCenter acc.2
    (acc.1 ++ new.1, new.2)) ([], c)

/-- The sources of `fmm_tree.cpp:57-76` (`uniform` false): every source in a random one of `2^d` boxes, whose centres are the directions to the
children times `extent` or `1.5 * extent`. The two kinds of `rand() % n` are the functions `coin` and `pick`. -/
noncomputable def genTree {d : ℕ} (R : ℕ → ℝ) (coin : ℕ → Bool) (pick : ℕ → Fin (2 ^ d)) (uniform : Bool) (extent : ℝ) (N : ℕ) : List (Source d) :=
  let centers : Fin (2 ^ d) → Vec d := fun i => Vec.scale (childDir d i) ((if coin i then 1 else 1.5) * extent)
  loopN N (fun i (acc : List (Source d)) =>
    let v : Vec d := fun j => extent * R ((d + 1) * i + j) - extent / 2
    let v := if uniform then v else Vec.add v (centers (pick i))
    let q := R ((d + 1) * i + d) * (if i % 2 = 1 then 1 else -1)
    acc ++ [⟨v, q⟩]) []

/-! ## Measures of the error -/

/-- `vec_max`: `*max_element(v.begin(), v.end())` (accuracy_seq_speedup.cpp:33-34); for the empty vector it dereferences `end()`. -/
noncomputable def vecMax : List ℝ → Outcome ℝ
  | [] => .error .ub
  | a :: l => .ok (l.foldl (fun m x => if m < x then x else m) a)

/-- `vec_avg` (accuracy_seq_speedup.cpp:28-31). -/
noncomputable def vecAvg (v : List ℝ) : Outcome ℝ :=
  if v.length = 0 then .error .nonFinite else .ok (v.foldl (· + ·) 0 / v.length)

/-- `std::transform` with two inputs: one element of the second range is read for every element of the first. -/
def transform2 {α β γ : Type} (f : α → β → Outcome γ) : List α → List β → Outcome (List γ)
  | [], _ => .ok []
  | _ :: _, [] => .error .ub
  | a :: as, b :: bs => do
    let c ← f a b
    let cs ← transform2 f as bs
    .ok (c :: cs)

/-- Division: by zero it leaves the finite numbers. -/
noncomputable def fdiv (a b : ℝ) : Outcome ℝ := if b = 0 then .error .nonFinite else .ok (a / b)

/-- `abs_rel_pot_error` and `abs_rel_frc_error` (accuracy_seq_speedup.cpp:93-144, fmm_efficiency.cpp:93-144): largest and mean absolute deviation, largest and mean relative
deviation. `dist a b` is `std::abs(a-b)` or `(a-b).norm()`, `size b` is `std::abs(b)` or `b.norm()`. -/
noncomputable def absRelError {α : Type} (dist : α → α → ℝ) (size : α → ℝ) (fmm ref : List α) : Outcome (ℝ × ℝ × ℝ × ℝ) := do
  let diffs ← transform2 (fun a b => .ok (dist a b)) fmm ref
  let maxAbs ← vecMax diffs
  let avgAbs ← vecAvg diffs
  let rel ← transform2 (fun a b => fdiv a (size b)) diffs ref
  let maxRel ← vecMax rel
  let avgRel ← vecAvg rel
  .ok (maxAbs, avgAbs, maxRel, avgRel)

/-! ## The loop over the numbers of threads -/

/-- `for(int i = min_procs; i <= max_procs; i += incr) { ...; if(i == 1) { --i; } }` (fmm_efficiency.cpp:166-204): the numbers of threads
used, given the current `i`; `none` if the loop is still running after `fuel` iterations. -/
def procLoop (maxProcs incr : ℕ) : ℕ → ℕ → Option (List ℕ)
  | 0, _ => none
  | fuel + 1, i =>
    if i ≤ maxProcs then
      let i' := if i = 1 then 0 else i
      (procLoop maxProcs incr fuel (i' + incr)).map (i :: ·)
    else some []

/-! ## The verdict of `expansions.cpp` -/

/-- The result of a quotient of finite numbers. -/
inductive Quot
  | nan
  | inf
  | fin (x : ℝ)

/-- `a / b` for `a ≥ 0` and finite `b`. -/
noncomputable def quot (a b : ℝ) : Quot := if b = 0 then (if a = 0 then .nan else .inf) else .fin (a / b)

/-- `abs(a - ref)/ref`, expansions.cpp:123-133. -/
noncomputable def potError (a ref : ℝ) : Quot := quot |a - ref| ref

/-- `(a - ref).norm() / ref.norm()`, expansions.cpp:135-146. -/
noncomputable def frcError {d : ℕ} (a ref : Vec d) : Quot := quot (Vec.norm (Vec.sub a ref)) (Vec.norm ref)

/-- `e >= eps`; a comparison with a NaN is false. -/
noncomputable def geq (e : Quot) (eps : ℝ) : Bool := match e with
  | .nan => false
  | .inf => true
  | .fin x => open Classical in decide (x ≥ eps)

/-- `isnan(e)`. With `-ffinite-math-only` (part of `-ffast-math`, makefile:5) it is the constant false. -/
def isnan (finiteMath : Bool) : Quot → Bool
  | .nan => !finiteMath
  | _ => false

/-- The ten errors, in the order of the source. -/
structure Errors where
  (mePot sePot leSrcPot leMePot slePot meFrc seFrc leSrcFrc leMeFrc sleFrc : Quot)

/-- `any_nan || failure`, expansions.cpp:164-188. -/
noncomputable def fails (finiteMath : Bool) (eps : ℝ) (e : Errors) : Bool :=
  let anyNan := isnan finiteMath e.mePot || isnan finiteMath e.sePot || isnan finiteMath e.leSrcPot || isnan finiteMath e.leMePot
    || isnan finiteMath e.slePot || isnan finiteMath e.meFrc || isnan finiteMath e.leSrcFrc || isnan finiteMath e.seFrc
    || isnan finiteMath e.sleFrc || isnan finiteMath e.leMeFrc
  let failure := geq e.mePot eps || geq e.sePot eps || geq e.leMePot eps || geq e.slePot eps || geq e.meFrc eps || geq e.seFrc eps
    || geq e.leMeFrc eps || geq e.sleFrc eps
  anyNan || failure

/-! ## `adjacent.cpp` -/

/-- The four boxes of `adjacent.cpp:13-20`; `e` is `std::numeric_limits<double>::epsilon()`. -/
noncomputable def adjRoot : Box 3 := ⟨Vec.fill 0, 1⟩
noncomputable def adjChild1 : Box 3 := ⟨Vec.add (Vec.fill 0) (Vec.fill 1), 1⟩
noncomputable def adjChild2 : Box 3 := ⟨Vec.sub (Vec.fill 0) (Vec.fill 1), 1⟩
noncomputable def adjChild3 (e : ℝ) : Box 3 := ⟨Vec.sub (Vec.fill 0) ![0, 1 + 5 * e, 0], 1⟩

end FMM.TestProgs
