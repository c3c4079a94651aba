import Verif.TestProgs
import Verif.PropsFmm2D

/-!
# The program `examples/minimal.cpp`

The random numbers `(double) rand() / (RAND_MAX)` are a sequence of reals.
-/

namespace FMM.Minimal
open FMM

/-- The sources: for source `i` two coordinates and a strength are drawn, in this order; the strengths alternate in sign (minimal.cpp:19-27). -/
noncomputable def sources (R : ℕ → ℝ) (N : ℕ) (extent : ℝ) : List (Source 2) :=
  (loopN N (fun i (acc : List (Source 2) × ℕ) =>
    let c := acc.2
    let v : Vec 2 := fun j => extent * R (c + j) - extent / 2
    let q := R (c + 2) * (if i % 2 = 1 then 1 else -1)
    (acc.1 ++ [⟨v, q⟩], c + 3)) ([], 0)).1

/-- `main` (minimal.cpp:5-38): the two numbers that are printed, the potential at the first source by the tree and by the direct sum. -/
noncomputable def main (fuel : ℕ) (sch : ℕ → List Path → List Path) (R : ℕ → ℝ) : Outcome (ℝ × ℝ) := do
  let N := 10000
  let itemsPerLeaf := 50
  let eps : ℝ := 10
  let extent : ℝ := 32
  let srcs := sources R N extent
  let t ← adaptiveFmm kit2 fuel sch BinomialTable.init srcs itemsPerLeaf eps
  match srcs with
  | [] => .error .ub
  | first :: _ => do
    let a ← adaptiveEval pot2 fuel true t srcs first.pos
    let b ← potentialSum true true srcs first.pos
    .ok (a, b)

end FMM.Minimal
