import Verif.TestProgs
import Verif.Fmm3D

/-!
# The program `test/fmm_tree.cpp`
-/

namespace FMM.TreeMain
open FMM FMM.TestProgs

/-- What is printed, apart from the times. -/
structure Report where
  order : ℕ
  height : ℕ
  center : Vec 3
  len : ℝ
  pot : ℝ
  potRef : ℝ
  frc : Vec 3
  frcRef : Vec 3
  meanPot : ℝ
  maxPot : ℝ
  meanFrc : ℝ
  maxFrc : ℝ

/-- `std::abs(((a-b)/b))` (fmm_tree.cpp:155). -/
noncomputable def relPot (a b : ℝ) : Outcome ℝ := do
  let c ← fdiv (a - b) b
  .ok |c|

/-- `(a-b).norm()/b.norm()` (fmm_tree.cpp:162). -/
noncomputable def relFrc (a b : Vec 3) : Outcome ℝ := fdiv (Vec.norm (Vec.sub a b)) (Vec.norm b)

/-- The part of `main` after the generation of the sources (fmm_tree.cpp:82-181): the tree is built, evaluated at the second source and at all sources, and
compared with direct sums. `refE` and `refF` are the results of `particlePotentialEnergies` and `particleForces`, `ordE` and `ordF` the orders in which the
iterations of the parallel loops of the tree are executed. -/
noncomputable def report (fuel : ℕ) (sch : ℕ → List Path → List Path) (ordE ordF : List ℕ) (refE : ℕ → ℝ) (refF : ℕ × Fin 3 → ℝ) (st : Stat3)
    (S : List (Source 3)) (itemsPerLeaf : ℕ) (eps smooth : ℝ) : Outcome Report := do
  let t ← adaptiveFmm kit3 fuel sch st S itemsPerLeaf eps
  let root ← t.heap.get []
  let s1 ← vecGet S 1
  let x := s1.pos
  let pot ← adaptiveEval pot3 fuel true t S x
  let potRef ← potentialSum true true S x
  let frc ← adaptiveEval (force3 smooth) fuel true t S x
  let frcRef ← forcefieldSum true true S x smooth
  let potentials ← particleLoop (fun q v => q * v) (adaptiveEval pot3 fuel true t S) S ordE
  let forces ← particleLoop (fun q v => Vec.scale v q) (adaptiveEval (force3 smooth) fuel true t S) S ordF
  let diffs ← transform2 relPot ((List.range potentials.size).map potentials.val) ((List.range S.length).map refE)
  let forceDiffs ← transform2 relFrc ((List.range forces.size).map forces.val) ((List.range S.length).map fun i => fun k => refF (i, k))
  let meanPot ← vecAvg diffs
  let maxPot ← vecMax diffs
  let meanFrc ← vecAvg forceDiffs
  let maxFrc ← vecMax forceDiffs
  .ok ⟨t.order, t.height, root.box.center, root.box.len, pot, potRef, frc, frcRef, meanPot, maxPot, meanFrc, maxFrc⟩

/-- The sources of the program (fmm_tree.cpp:25-30,57-76). -/
noncomputable def srcs (N : ℕ) (R : ℕ → ℝ) (coin : ℕ → Bool) (pick : ℕ → Fin (2 ^ 3)) : List (Source 3) := genTree R coin pick false 5 N

/-- `main` (fmm_tree.cpp:23-186) with `N` sources, in the program 150000; `st` are the static tables at the start of the program. -/
noncomputable def main (N : ℕ) (fuel : ℕ) (sch : ℕ → List Path → List Path) (ordE ordF : List ℕ) (refE : ℕ → ℝ) (refF : ℕ × Fin 3 → ℝ) (st : Stat3)
    (R : ℕ → ℝ) (coin : ℕ → Bool) (pick : ℕ → Fin (2 ^ 3)) : Outcome Report :=
  report fuel sch ordE ordF refE refF st (srcs N R coin pick) 2000 0.001 0

end FMM.TreeMain
