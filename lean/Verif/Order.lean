import Verif.Index
import Mathlib.Analysis.SpecialFunctions.Log.Base

/-!
# Expansion order (`AbstractFmmTree` constructor)
-/

namespace FMM

variable {d : ℕ}

/-- The sum of absolute source strengths, abstract_fmm_tree.hpp:38-40 (`std::accumulate`). -/
noncomputable def totalStrength (sources : List (Source d)) : ℝ :=
  sources.foldl (fun acc src => acc + |src.q|) 0

theorem totalStrength_eq (sources : List (Source d)) :
    totalStrength sources = (sources.map fun s => |s.q|).sum := by
  unfold totalStrength; rw [foldl_add]; simp

theorem totalStrength_nonneg (sources : List (Source d)) : 0 ≤ totalStrength sources := by
  rw [totalStrength_eq]
  exact List.sum_nonneg (by simp)

/-- `order = ceil(log(A/eps) / log(2))`, abstract_fmm_tree.hpp:42, converted to `unsigned`.  If `A/eps` is
not a positive finite number the logarithm is `-inf`, `inf` or NaN and the conversion is undefined. -/
noncomputable def expansionOrder (A eps : ℝ) : Outcome ℕ :=
  if eps = 0 ∨ A / eps ≤ 0 then .error .ub
  else toU32 ⌈Real.log (A / eps) / Real.log 2⌉

end FMM
