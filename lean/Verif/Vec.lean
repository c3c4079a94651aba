import Verif.Basic
import Mathlib.Analysis.SpecialFunctions.Complex.Arg
import Mathlib.Analysis.SpecialFunctions.Pow.Real
import Mathlib.Data.Fin.VecNotation
import Mathlib.Tactic.FieldSimp
import Mathlib.Algebra.BigOperators.Fin

/-!
# `vector.hpp`

`Vector_<d>` is modelled by `Fin d → ℝ`.  The operators are written as in the source (subtraction through
negation, negation through multiplication by `-1.`, `/=` through multiplication by `1/s`).
-/

namespace FMM

/-- `Vector_<d>` (vector.hpp:13-15): an array of `d` doubles. -/
abbrev Vec (d : ℕ) := Fin d → ℝ

namespace Vec
variable {d : ℕ}

/-- `operator+` (vector.hpp:23-29). -/
def add (a b : Vec d) : Vec d := fun i => a i + b i
/-- `operator*(double)` and `operator*(double, Vector_)` (vector.hpp:31-35, 44). -/
def scale (a : Vec d) (s : ℝ) : Vec d := fun i => a i * s
/-- unary `operator-` (vector.hpp:37). -/
def neg (a : Vec d) : Vec d := scale a (-1)
/-- binary `operator-` (vector.hpp:38). -/
def sub (a b : Vec d) : Vec d := add a (neg b)
/-- `operator/=` (vector.hpp:40). -/
noncomputable def divEq (a : Vec d) (s : ℝ) : Vec d := scale a (1 / s)
/-- `Vector_(double fill_value)`, `fill` (vector.hpp:18, 56). -/
def fill (s : ℝ) : Vec d := fun _ => s

/-- `dot` (vector.hpp:58-61): `std::inner_product` starting from `0.`. -/
def dot (a b : Vec d) : ℝ := (List.finRange d).foldl (fun acc i => acc + a i * b i) 0

/-- `std::hypot(x, y)` (library specification). -/
noncomputable def hypot (x y : ℝ) : ℝ := Real.sqrt (x ^ 2 + y ^ 2)
/-- three-argument `std::hypot` (library specification). -/
noncomputable def hypot3 (x y z : ℝ) : ℝ := Real.sqrt (x ^ 2 + y ^ 2 + z ^ 2)

/-- `norm` (vector.hpp:63-75), with the special cases for `d = 1, 2, 3`. -/
noncomputable def norm : {d : ℕ} → Vec d → ℝ
  | 1, v => |v 0|
  | 2, v => hypot (v 0) (v 1)
  | 3, v => hypot3 (v 0) (v 1) (v 2)
  | _, v => Real.sqrt (dot v v)

/-- `norm_sq` (vector.hpp:77-91). -/
def normSq : {d : ℕ} → Vec d → ℝ
  | 1, v => v 0 * v 0
  | 2, v => v 0 * v 0 + v 1 * v 1
  | 3, v => v 0 * v 0 + v 1 * v 1 + v 2 * v 2
  | _, v => dot v v

/-- `std::atan2(y, x)` (library specification): the argument of `x + iy` in `(-π, π]`. -/
noncomputable def atan2 (y x : ℝ) : ℝ := Complex.arg ⟨x, y⟩

/-- `toSpherical` for `d == 2` (vector.hpp:99-105): `(r, φ)`. -/
noncomputable def toSpherical2 (v : Vec 2) : Vec 2 := ![norm v, atan2 (v 1) (v 0)]
/-- `toSpherical` for `d == 3` (vector.hpp:106-113): `(r, θ, φ)`. -/
noncomputable def toSpherical3 (v : Vec 3) : Vec 3 :=
  ![norm v, atan2 (hypot (v 0) (v 1)) (v 2), atan2 (v 1) (v 0)]
/-- `toCartesian` for `d == 2` (vector.hpp:126-132). -/
noncomputable def toCartesian2 (v : Vec 2) : Vec 2 :=
  ![v 0 * Real.cos (v 1), v 0 * Real.sin (v 1)]
/-- `toCartesian` for `d == 3` (vector.hpp:133-145). -/
noncomputable def toCartesian3 (v : Vec 3) : Vec 3 :=
  ![v 0 * Real.sin (v 1) * Real.cos (v 2), v 0 * Real.sin (v 1) * Real.sin (v 2),
    v 0 * Real.cos (v 1)]
/-- `toCartesianBasis` (vector.hpp:158-174). -/
noncomputable def toCartesianBasis (v : Vec 3) (theta phi : ℝ) : Vec 3 :=
  ![Real.cos phi * (Real.sin theta * v 0 + Real.cos theta * v 1) - Real.sin phi * v 2,
    Real.sin phi * (Real.sin theta * v 0 + Real.cos theta * v 1) + Real.cos phi * v 2,
    Real.cos theta * v 0 - Real.sin theta * v 1]

/-! ### The operators are the vector-space operations -/

@[simp] theorem add_eq (a b : Vec d) : add a b = a + b := rfl
@[simp] theorem scale_eq (a : Vec d) (s : ℝ) : scale a s = s • a := by
  ext i; simp [scale, mul_comm]
@[simp] theorem neg_eq (a : Vec d) : neg a = -a := by simp [neg]
@[simp] theorem sub_eq (a b : Vec d) : sub a b = a - b := by simp [sub, sub_eq_add_neg]
@[simp] theorem divEq_eq (a : Vec d) (s : ℝ) : divEq a s = (s⁻¹) • a := by simp [divEq]

theorem dot_eq (a b : Vec d) : dot a b = ∑ i, a i * b i := by
  unfold dot
  rw [foldl_add, zero_add]
  simp [Fin.sum_univ_def]

theorem normSq_eq : ∀ {d : ℕ} (v : Vec d), normSq v = ∑ i, v i ^ 2
  | 0, v => by simp [normSq, dot_eq]
  | 1, v => by simp [normSq, pow_two]
  | 2, v => by simp [normSq, pow_two]
  | 3, v => by simp [normSq, pow_two, Fin.sum_univ_three]
  | (d + 4), v => by simp [normSq, dot_eq, pow_two]

theorem norm_eq : ∀ {d : ℕ} (v : Vec d), norm v = Real.sqrt (∑ i, v i ^ 2)
  | 0, v => by simp [norm, dot_eq]
  | 1, v => by simp [norm, Real.sqrt_sq_eq_abs]
  | 2, v => by simp [norm, hypot]
  | 3, v => by simp [norm, hypot3, Fin.sum_univ_three]
  | (d + 4), v => by simp [norm, dot_eq, pow_two]

theorem norm_nonneg (v : Vec d) : 0 ≤ norm v := by rw [norm_eq]; exact Real.sqrt_nonneg _

theorem norm_sq (v : Vec d) : norm v ^ 2 = ∑ i, v i ^ 2 := by
  rw [norm_eq, Real.sq_sqrt (Finset.sum_nonneg fun i _ => sq_nonneg _)]

theorem abs_le_norm (v : Vec d) (i : Fin d) : |v i| ≤ norm v := by
  rw [norm_eq]
  apply Real.abs_le_sqrt
  exact Finset.single_le_sum (f := fun i => v i ^ 2) (fun i _ => sq_nonneg _) (Finset.mem_univ i)

theorem norm_le_of_abs_le (v : Vec d) {b : ℝ} (hb : ∀ i, |v i| ≤ b) (hb0 : 0 ≤ b) :
    norm v ≤ Real.sqrt d * b := by
  rw [norm_eq, ← Real.sqrt_sq hb0, ← Real.sqrt_mul (Nat.cast_nonneg d)]
  apply Real.sqrt_le_sqrt
  calc ∑ i, v i ^ 2 ≤ ∑ _i : Fin d, b ^ 2 :=
        Finset.sum_le_sum fun i _ => by
          rw [← sq_abs]; exact pow_le_pow_left₀ (abs_nonneg _) (hb i) 2
    _ = d * b ^ 2 := by simp

theorem norm_eq_zero_iff (v : Vec d) : norm v = 0 ↔ v = 0 := by
  rw [norm_eq, Real.sqrt_eq_zero (Finset.sum_nonneg fun i _ => sq_nonneg _),
    Finset.sum_eq_zero_iff_of_nonneg fun i _ => sq_nonneg _]
  constructor
  · intro h; ext i; simpa using h i (Finset.mem_univ i)
  · rintro rfl; simp

end Vec

/-- `PointSource_<d>` (vector.hpp:182-201). -/
structure Source (d : ℕ) where
  pos : Vec d
  q : ℝ

end FMM
