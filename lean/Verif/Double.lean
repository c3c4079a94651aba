import Verif.FltIeee3

/-!
# `double` with its range of exponents: gradual underflow, overflow, infinities and NaN

`rnd64` is rounding to the nearest `double`: 53 bits above `2^-1022`, multiples of `2^-1074` below, and infinity if the rounded value is `2^1024` or more.
The sign of a zero is not kept: the divisors in these functions are lengths or sums of squares and `eps`, so a zero divisor is `+0`.
The kernels and direct sums of `fields.hpp` with these operations.
-/

namespace FMM.D64
open FMM Rounded

/-- A value of type `double`. -/
inductive Dbl where
  | fin (x : ℝ)
  | inf (negative : Bool)
  | nan

/-- Rounding to nearest even in the format binary64. -/
noncomputable def rnd64 (x : ℝ) : Dbl :=
  let y := if |x| < 2 ^ (-1022 : ℤ) then (roundEven (x / 2 ^ (-1074 : ℤ)) : ℝ) * 2 ^ (-1074 : ℤ) else rndNE x
  if |y| < 2 ^ (1024 : ℤ) then .fin y else .inf (decide (x < 0))

/-- `a + b`; the sum of infinities of opposite signs is NaN. -/
noncomputable def add : Dbl → Dbl → Dbl
  | .fin a, .fin b => rnd64 (a + b)
  | .fin _, .inf t => .inf t
  | .inf s, .fin _ => .inf s
  | .inf s, .inf t => if s = t then .inf s else .nan
  | .nan, _ => .nan
  | _, .nan => .nan

/-- `-a`. -/
noncomputable def neg : Dbl → Dbl
  | .fin a => .fin (-a)
  | .inf s => .inf (!s)
  | .nan => .nan

/-- `a * b`; zero times infinity is NaN. -/
noncomputable def mul : Dbl → Dbl → Dbl
  | .fin a, .fin b => rnd64 (a * b)
  | .fin a, .inf t => if a = 0 then .nan else .inf (xor (decide (a < 0)) t)
  | .inf s, .fin b => if b = 0 then .nan else .inf (xor s (decide (b < 0)))
  | .inf s, .inf t => .inf (xor s t)
  | .nan, _ => .nan
  | _, .nan => .nan

/-- `a / b`; `0/0` is NaN, `a/+0` infinite, `a/∞` zero. -/
noncomputable def div : Dbl → Dbl → Dbl
  | .fin a, .fin b => if b = 0 then (if a = 0 then .nan else .inf (decide (a < 0))) else rnd64 (a / b)
  | .fin _, .inf _ => .fin 0
  | .inf s, .fin b => .inf (xor s (decide (b < 0)))
  | .inf _, .inf _ => .nan
  | .nan, _ => .nan
  | _, .nan => .nan

/-- `std::log`. -/
noncomputable def log : Dbl → Dbl
  | .fin a => if a = 0 then .inf true else if a < 0 then .nan else rnd64 (Real.log a)
  | .inf s => if s then .nan else .inf false
  | .nan => .nan

/-- `r == 0`. -/
noncomputable def isZero : Dbl → Bool
  | .fin a => decide (a = 0)
  | _ => false

/-- The components of a `Vector_`. -/
abbrev DVec (n : ℕ) := Fin n → Dbl

/-- `v - w` (vector.hpp:38); `-w` is exact. -/
noncomputable def vsub {n : ℕ} (v w : Vec n) : DVec n := fun j => rnd64 (v j - w j)

/-- `v + w` (vector.hpp:23-29). -/
noncomputable def vadd {n : ℕ} (v w : DVec n) : DVec n := fun j => add (v j) (w j)

/-- `v * r` (vector.hpp:31-35). -/
noncomputable def vscale {n : ℕ} (v : DVec n) (r : Dbl) : DVec n := fun j => mul (v j) r

/-- `-v` (vector.hpp:37): every component times -1, which is exact. -/
noncomputable def vneg {n : ℕ} (v : DVec n) : DVec n := fun j => neg (v j)

/-- `Vector_<d>{}`. -/
noncomputable def vzero (n : ℕ) : DVec n := fun _ => .fin 0

/-- `norm` in two dimensions (vector.hpp:62-64): `std::hypot`, which is infinite if one of the arguments is and neither overflows nor underflows in intermediate results. -/
noncomputable def norm2 (v : DVec 2) : Dbl :=
  match v 0, v 1 with
  | .fin a, .fin b => rnd64 (Vec.norm ![a, b])
  | .inf _, _ => .inf false
  | _, .inf _ => .inf false
  | _, _ => .nan

/-- `norm` in three dimensions (vector.hpp:65-67): `std::hypot` with three arguments. -/
noncomputable def norm3 (v : DVec 3) : Dbl :=
  match v 0, v 1, v 2 with
  | .fin a, .fin b, .fin c => rnd64 (Vec.norm ![a, b, c])
  | .inf _, _, _ => .inf false
  | _, .inf _, _ => .inf false
  | _, _, .inf _ => .inf false
  | _, _, _ => .nan

/-- `norm_sq` in two dimensions (vector.hpp:73-78). -/
noncomputable def normSq (v : DVec 2) : Dbl := add (mul (v 0) (v 0)) (mul (v 1) (v 1))

/-- `potential<2, grav, safe>(src, eval_point)`, fields.hpp:13-27. -/
noncomputable def potential2 (grav safe : Bool) (src : Source 2) (x : Vec 2) : Dbl :=
  let r := norm2 (vsub src.pos x)
  if safe && isZero r then .fin 0
  else
    let pot := mul (.fin src.q) (log r)
    if grav then pot else neg pot

/-- `potential<3, grav, safe>(src, eval_point)`, fields.hpp:13-27. -/
noncomputable def potential3 (grav safe : Bool) (src : Source 3) (x : Vec 3) : Dbl :=
  let r := norm3 (vsub src.pos x)
  if safe && isZero r then .fin 0
  else
    let pot := div (.fin (-src.q)) r
    if grav then pot else neg pot

/-- `forcefield<2, grav, safe>(src, eval_point, eps)`, fields.hpp:48-66. -/
noncomputable def forcefield2 (grav safe : Bool) (src : Source 2) (x : Vec 2) (eps : ℝ) : DVec 2 :=
  let diff := vsub src.pos x
  let rsq := normSq diff
  if safe && isZero rsq then vzero 2
  else
    let frc := vscale diff (div (.fin src.q) (add rsq (.fin eps)))
    if grav then frc else vneg frc

/-- `forcefield<3, grav, safe>(src, eval_point, eps)`, fields.hpp:48-66. -/
noncomputable def forcefield3 (grav safe : Bool) (src : Source 3) (x : Vec 3) (eps : ℝ) : DVec 3 :=
  let diff := vsub src.pos x
  let r := norm3 diff
  if safe && isZero r then vzero 3
  else
    let frc := vscale diff (div (.fin src.q) (add (mul (mul r r) r) (.fin eps)))
    if grav then frc else vneg frc

/-- `potential<d, grav, safe>(sources, eval_point)`, fields.hpp:30-42. -/
noncomputable def potentialSum2 (grav safe : Bool) (sources : List (Source 2)) (x : Vec 2) : Dbl :=
  sources.foldl (fun pot src => add pot (potential2 grav safe src x)) (.fin 0)

noncomputable def potentialSum3 (grav safe : Bool) (sources : List (Source 3)) (x : Vec 3) : Dbl :=
  sources.foldl (fun pot src => add pot (potential3 grav safe src x)) (.fin 0)

/-- `forcefield<d, grav, safe>(sources, eval_point, eps)`, fields.hpp:69-81. -/
noncomputable def forcefieldSum2 (grav safe : Bool) (sources : List (Source 2)) (x : Vec 2) (eps : ℝ) : DVec 2 :=
  sources.foldl (fun frc src => vadd frc (forcefield2 grav safe src x eps)) (vzero 2)

noncomputable def forcefieldSum3 (grav safe : Bool) (sources : List (Source 3)) (x : Vec 3) (eps : ℝ) : DVec 3 :=
  sources.foldl (fun frc src => vadd frc (forcefield3 grav safe src x eps)) (vzero 3)

/-! ## Ranges -/

/-- `2^a ≤ |x| ≤ 2^b`. -/
def Bnd (a b : ℤ) (x : ℝ) : Prop := (2 : ℝ) ^ a ≤ |x| ∧ |x| ≤ 2 ^ b

/-- Zero or between `2^a` and `2^b`. -/
def Bnd0 (a b : ℤ) (x : ℝ) : Prop := x = 0 ∨ Bnd a b x

variable {a b c d : ℤ} {x y : ℝ}

theorem two_pow_pos (a : ℤ) : (0 : ℝ) < 2 ^ a := by positivity

theorem two_pow_mono (h : a ≤ b) : (2 : ℝ) ^ a ≤ 2 ^ b := zpow_le_zpow_right₀ (by norm_num) h

theorem Bnd.ne (h : Bnd a b x) : x ≠ 0 := fun e => by
  have := h.1
  rw [e, abs_zero] at this
  exact absurd (two_pow_pos a) (not_lt.mpr this)

theorem Bnd.mono (h : Bnd a b x) (h1 : c ≤ a) (h2 : b ≤ d) : Bnd c d x := ⟨(two_pow_mono h1).trans h.1, h.2.trans (two_pow_mono h2)⟩

theorem Bnd0.mono (h : Bnd0 a b x) (h1 : c ≤ a) (h2 : b ≤ d) : Bnd0 c d x := h.imp id fun h => h.mono h1 h2

theorem Bnd0.le (h : Bnd0 a b x) : |x| ≤ 2 ^ b := by
  rcases h with rfl | h
  · rw [abs_zero]; exact (two_pow_pos b).le
  · exact h.2

theorem Bnd.neg (h : Bnd a b x) : Bnd a b (-x) := by unfold Bnd; rwa [abs_neg]

theorem Bnd0.neg (h : Bnd0 a b x) : Bnd0 a b (-x) := by
  rcases h with rfl | h
  · left; simp
  · right; exact h.neg

theorem Bnd.mul (hx : Bnd a b x) (hy : Bnd c d y) : Bnd (a + c) (b + d) (x * y) := by
  unfold Bnd
  rw [abs_mul, zpow_add₀ (by norm_num), zpow_add₀ (by norm_num)]
  exact ⟨mul_le_mul hx.1 hy.1 (two_pow_pos _).le (abs_nonneg _), mul_le_mul hx.2 hy.2 (abs_nonneg _) (two_pow_pos _).le⟩

theorem Bnd0.mul (hx : Bnd0 a b x) (hy : Bnd0 c d y) : Bnd0 (a + c) (b + d) (x * y) := by
  rcases hx with rfl | hx
  · left; simp
  · rcases hy with rfl | hy
    · left; simp
    · right; exact hx.mul hy

theorem Bnd.inv (hx : Bnd a b x) : Bnd (-b) (-a) x⁻¹ := by
  have h0 := abs_pos.mpr hx.ne
  unfold Bnd
  rw [abs_inv, zpow_neg, zpow_neg]
  exact ⟨inv_anti₀ h0 hx.2, inv_anti₀ (two_pow_pos _) hx.1⟩

theorem Bnd0.div (hx : Bnd0 a b x) (hy : Bnd c d y) : Bnd0 (a - d) (b - c) (x / y) := by
  rw [div_eq_mul_inv]
  exact hx.mul (Or.inr hy.inv)

/-- A positive number plus a non-negative one. -/
theorem Bnd.add_nonneg (hx : Bnd a b x) (hx0 : 0 ≤ x) (hy0 : 0 ≤ y) (hy : y ≤ 2 ^ b) : Bnd a (b + 1) (x + y) := by
  obtain ⟨h1, h2⟩ := hx
  rw [abs_of_nonneg hx0] at h1 h2
  unfold Bnd
  rw [abs_of_nonneg (_root_.add_nonneg hx0 hy0), zpow_add₀ (by norm_num), zpow_one]
  constructor <;> linarith

/-! ## Rounding -/

theorem le_roundEven {m : ℤ} (h : (m : ℝ) ≤ x) : m ≤ roundEven x := by
  have h1 := (abs_le.mp (roundEven_near x)).1
  have : ((m : ℤ) : ℝ) < ((roundEven x + 1 : ℤ) : ℝ) := by push_cast; linarith
  exact Int.lt_add_one_iff.mp (Int.cast_lt.mp this)

theorem roundEven_le {m : ℤ} (h : x ≤ (m : ℝ)) : roundEven x ≤ m := by
  have h1 := (abs_le.mp (roundEven_near x)).2
  have : ((roundEven x : ℤ) : ℝ) < ((m + 1 : ℤ) : ℝ) := by push_cast; linarith
  exact Int.lt_add_one_iff.mp (Int.cast_lt.mp this)

theorem roundEven_int (m : ℤ) : roundEven (m : ℝ) = m := le_antisymm (roundEven_le le_rfl) (le_roundEven le_rfl)

theorem le_abs_roundEven {m : ℕ} (h : (m : ℝ) ≤ |x|) : (m : ℝ) ≤ |(roundEven x : ℝ)| := by
  rcases le_abs.mp h with h | h
  · have : ((m : ℤ) : ℝ) ≤ x := by exact_mod_cast h
    have := le_roundEven this
    refine le_trans ?_ (le_abs_self _)
    exact_mod_cast this
  · have : x ≤ ((-(m : ℤ) : ℤ) : ℝ) := by push_cast; linarith
    have := roundEven_le this
    refine le_trans ?_ (neg_le_abs _)
    have h2 : ((m : ℤ) : ℝ) ≤ ((-roundEven x : ℤ) : ℝ) := by exact_mod_cast (by omega : (m : ℤ) ≤ -roundEven x)
    exact_mod_cast h2

theorem abs_roundEven_le {m : ℕ} (h : |x| ≤ m) : |(roundEven x : ℝ)| ≤ m := by
  obtain ⟨h1, h2⟩ := abs_le.mp h
  have g1 : ((-(m : ℤ) : ℤ) : ℝ) ≤ x := by push_cast; linarith
  have g2 : x ≤ ((m : ℤ) : ℝ) := by exact_mod_cast h2
  have k1 := le_roundEven g1
  have k2 := roundEven_le g2
  rw [abs_le]
  constructor
  · have : ((-(m : ℤ) : ℤ) : ℝ) ≤ (roundEven x : ℝ) := by exact_mod_cast k1
    push_cast at this
    exact this
  · have : (roundEven x : ℝ) ≤ ((m : ℤ) : ℝ) := by exact_mod_cast k2
    exact_mod_cast this

theorem log_le (hx : x ≠ 0) : (2 : ℝ) ^ (Int.log 2 |x|) ≤ |x| := by
  have := Int.zpow_log_le_self (R := ℝ) (b := 2) (by norm_num) (abs_pos.mpr hx)
  exact_mod_cast this

theorem lt_log (x : ℝ) : |x| < (2 : ℝ) ^ (Int.log 2 |x| + 1) := by
  have := Int.lt_zpow_succ_log_self (R := ℝ) (b := 2) (by norm_num) |x|
  exact_mod_cast this

theorem ulp_mul (x : ℝ) (k : ℕ) : (2 : ℝ) ^ (Int.log 2 |x| - 52 + k) = 2 ^ k * 2 ^ ulpExp x := by
  rw [zpow_add₀ (by norm_num), zpow_natCast, mul_comm]; rfl

theorem abs_rndNE (x : ℝ) : |rndNE x| = |(roundEven (x / 2 ^ ulpExp x) : ℝ)| * 2 ^ ulpExp x := by
  unfold rndNE
  rw [abs_mul, abs_of_pos (two_pow_pos _)]

theorem abs_scaled (x : ℝ) (e : ℤ) : |x / 2 ^ e| = |x| / 2 ^ e := by rw [abs_div, abs_of_pos (two_pow_pos _)]

theorem le_rndNE (h : (2 : ℝ) ^ a ≤ |x|) : (2 : ℝ) ^ a ≤ |rndNE x| := by
  have hx : x ≠ 0 := fun e => by rw [e, abs_zero] at h; exact absurd (two_pow_pos a) (not_lt.mpr h)
  have h1 : a ≤ Int.log 2 |x| := by
    refine (Int.zpow_le_iff_le_log (R := ℝ) (b := 2) (by norm_num) (abs_pos.mpr hx)).mp ?_
    exact_mod_cast h
  refine (two_pow_mono h1).trans ?_
  have e : (2 : ℝ) ^ Int.log 2 |x| = 2 ^ 52 * 2 ^ ulpExp x := by
    rw [← ulp_mul x 52]; congr 1; push_cast; ring
  rw [abs_rndNE, e]
  refine mul_le_mul_of_nonneg_right ?_ (two_pow_pos _).le
  have h2 : ((2 ^ 52 : ℕ) : ℝ) ≤ |x / 2 ^ ulpExp x| := by
    rw [abs_scaled, le_div_iff₀ (two_pow_pos _), Nat.cast_pow, Nat.cast_ofNat, ← e]
    exact log_le hx
  have := le_abs_roundEven h2
  rw [Nat.cast_pow, Nat.cast_ofNat] at this
  exact this

theorem rndNE_le (h : |x| ≤ (2 : ℝ) ^ b) : |rndNE x| ≤ 2 ^ b := by
  rcases eq_or_ne x 0 with rfl | hx
  · have : rndNE (0 : ℝ) = 0 := by simp [rndNE, roundEven]
    rw [this, abs_zero]; exact (two_pow_pos b).le
  · have h1 := lt_log x
    have hb : Int.log 2 |x| ≤ b := by
      by_contra hc
      push Not at hc
      have h2 := (two_pow_mono (show b + 1 ≤ Int.log 2 |x| by omega)).trans (log_le hx)
      rw [zpow_add₀ (by norm_num), zpow_one] at h2
      have := two_pow_pos b
      linarith
    rcases hb.lt_or_eq with hb | hb
    · refine le_trans ?_ (two_pow_mono (show Int.log 2 |x| + 1 ≤ b by omega))
      have e : (2 : ℝ) ^ (Int.log 2 |x| + 1) = 2 ^ 53 * 2 ^ ulpExp x := by
        rw [← ulp_mul x 53]; congr 1; push_cast; ring
      rw [abs_rndNE, e]
      refine mul_le_mul_of_nonneg_right ?_ (two_pow_pos _).le
      have h2 : |x / 2 ^ ulpExp x| ≤ ((2 ^ 53 : ℕ) : ℝ) := by
        rw [abs_scaled, div_le_iff₀ (two_pow_pos _), Nat.cast_pow, Nat.cast_ofNat, ← e]
        exact h1.le
      have := abs_roundEven_le h2
      rw [Nat.cast_pow, Nat.cast_ofNat] at this
      exact this
    · have e : (2 : ℝ) ^ b = 2 ^ 52 * 2 ^ ulpExp x := by
        rw [← ulp_mul x 52, hb]; congr 1; push_cast; ring
      rw [abs_rndNE, e]
      refine mul_le_mul_of_nonneg_right ?_ (two_pow_pos _).le
      have h2 : |x / 2 ^ ulpExp x| ≤ ((2 ^ 52 : ℕ) : ℝ) := by
        rw [abs_scaled, div_le_iff₀ (two_pow_pos _), Nat.cast_pow, Nat.cast_ofNat, ← e]
        exact h
      have := abs_roundEven_le h2
      rw [Nat.cast_pow, Nat.cast_ofNat] at this
      exact this

theorem rndNE_zero : rndNE (0 : ℝ) = 0 := by simp [rndNE, roundEven]

theorem Bnd.rnd (h : Bnd a b x) : Bnd a b (rndNE x) := ⟨le_rndNE h.1, rndNE_le h.2⟩

theorem Bnd0.rnd (h : Bnd0 a b x) : Bnd0 a b (rndNE x) := by
  rcases h with rfl | h
  · left; exact rndNE_zero
  · right; exact h.rnd

theorem rndNE_nonneg (h : 0 ≤ x) : 0 ≤ rndNE x := by
  unfold rndNE
  refine mul_nonneg ?_ (two_pow_pos _).le
  have : ((0 : ℤ) : ℝ) ≤ x / 2 ^ ulpExp x := by rw [Int.cast_zero]; exact div_nonneg h (two_pow_pos _).le
  exact_mod_cast le_roundEven this

/-- In the normal range the exponents do not matter. -/
theorem rnd64_ok (h : Bnd0 (-1022) 1023 x) : rnd64 x = .fin (rndNE x) := by
  unfold rnd64
  rcases h with rfl | h
  · have h1 : |(0 : ℝ)| < 2 ^ (-1022 : ℤ) := by rw [abs_zero]; exact two_pow_pos _
    have h2 : roundEven ((0 : ℝ) / 2 ^ (-1074 : ℤ)) = 0 := by rw [zero_div]; exact_mod_cast roundEven_int 0
    have h3 : |(0 : ℝ)| < 2 ^ (1024 : ℤ) := by rw [abs_zero]; exact two_pow_pos _
    simp only [if_pos h1, h2, rndNE_zero, Int.cast_zero, zero_mul]
    rw [if_pos h3]
  · have h1 : ¬ |x| < 2 ^ (-1022 : ℤ) := not_lt.mpr h.1
    simp only [if_neg h1]
    rw [if_pos (h.rnd.2.trans_lt (zpow_lt_zpow_right₀ (by norm_num) (by norm_num)))]

/-- A bounded number that is zero or not too small. -/
theorem rnd64_of (h : Bnd0 a b x) (ha : -1022 ≤ a) (hb : b ≤ 1023) : rnd64 x = .fin (rndNE x) := rnd64_ok (h.mono ha hb)

/-- Numbers that are not too large stay so. -/
theorem rnd64_le (h : |x| ≤ 2 ^ b) (h1 : -1022 ≤ b) (h2 : b ≤ 1023) : ∃ y, rnd64 x = .fin y ∧ |y| ≤ 2 ^ b := by
  have hb : (2 : ℝ) ^ b < 2 ^ (1024 : ℤ) := zpow_lt_zpow_right₀ (by norm_num) (by omega)
  unfold rnd64
  by_cases hx : |x| < 2 ^ (-1022 : ℤ)
  · simp only [if_pos hx]
    have e : (2 : ℝ) ^ (-1022 : ℤ) = 2 ^ 52 * 2 ^ (-1074 : ℤ) := by
      rw [show (-1022 : ℤ) = 52 + -1074 by norm_num, zpow_add₀ (by norm_num)]; rfl
    have h3 : |x / 2 ^ (-1074 : ℤ)| ≤ ((2 ^ 52 : ℕ) : ℝ) := by
      rw [abs_scaled, div_le_iff₀ (two_pow_pos _), Nat.cast_pow, Nat.cast_ofNat, ← e]
      exact hx.le
    have h4 := abs_roundEven_le h3
    rw [Nat.cast_pow, Nat.cast_ofNat] at h4
    have h5 : |(roundEven (x / 2 ^ (-1074 : ℤ)) : ℝ) * 2 ^ (-1074 : ℤ)| ≤ 2 ^ b := by
      refine le_trans ?_ (two_pow_mono h1)
      rw [abs_mul, abs_of_pos (two_pow_pos (-1074)), e]
      exact mul_le_mul_of_nonneg_right h4 (two_pow_pos _).le
    rw [if_pos (h5.trans_lt hb)]
    exact ⟨_, rfl, h5⟩
  · simp only [if_neg hx]
    rw [if_pos ((rndNE_le h).trans_lt hb)]
    exact ⟨_, rfl, rndNE_le h⟩

/-- Numbers below half of the smallest `double` vanish. -/
theorem rnd64_tiny (h : |x| < 2 ^ (-1075 : ℤ)) : rnd64 x = .fin 0 := by
  have h1 : |x| < 2 ^ (-1022 : ℤ) := h.trans_le (two_pow_mono (by norm_num))
  have h2 : |x / 2 ^ (-1074 : ℤ)| < 1 / 2 := by
    rw [abs_scaled, div_lt_iff₀ (two_pow_pos _)]
    refine h.trans_le (le_of_eq ?_)
    rw [show (-1075 : ℤ) = -1 + -1074 by norm_num, zpow_add₀ (by norm_num)]
    norm_num
  have h3 : roundEven (x / 2 ^ (-1074 : ℤ)) = 0 := by
    have h4 := roundEven_near (x / 2 ^ (-1074 : ℤ))
    generalize x / 2 ^ (-1074 : ℤ) = z at *
    have h5 : |(roundEven z : ℝ)| < 1 := by
      have := abs_sub_abs_le_abs_sub (roundEven z : ℝ) z
      linarith
    have : |roundEven z| < 1 := by exact_mod_cast h5
    exact Int.abs_lt_one_iff.mp this
  unfold rnd64
  simp only [if_pos h1, h3, Int.cast_zero, zero_mul, abs_zero]
  rw [if_pos (two_pow_pos _)]

/-- Numbers from `2^1024` are rounded to infinity. -/
theorem rnd64_huge (h : (2 : ℝ) ^ (1024 : ℤ) ≤ |x|) : rnd64 x = .inf (decide (x < 0)) := by
  have h1 : ¬ |x| < 2 ^ (-1022 : ℤ) := not_lt.mpr ((two_pow_mono (by norm_num)).trans h)
  unfold rnd64
  simp only [if_neg h1]
  rw [if_neg (not_lt.mpr (le_rndNE h))]

/-- Numbers that are not too small stay so, or overflow. -/
theorem rnd64_ge (h : (2 : ℝ) ^ a ≤ |x|) (ha : -1022 ≤ a) : rnd64 x = .inf (decide (x < 0)) ∨ ∃ y, rnd64 x = .fin y ∧ (2 : ℝ) ^ a ≤ |y| := by
  have h1 : ¬ |x| < 2 ^ (-1022 : ℤ) := not_lt.mpr ((two_pow_mono ha).trans h)
  unfold rnd64
  simp only [if_neg h1]
  by_cases h2 : |rndNE x| < 2 ^ (1024 : ℤ)
  · right; rw [if_pos h2]; exact ⟨_, rfl, le_rndNE h⟩
  · left; rw [if_neg h2]

/-! ## Grids -/

/-- `x` is a multiple of `2^g`. -/
def Grid (g : ℤ) (x : ℝ) : Prop := ∃ k : ℤ, x = k * 2 ^ g

theorem Grid.zero (g : ℤ) : Grid g 0 := ⟨0, by simp⟩

theorem Grid.neg {g : ℤ} (h : Grid g x) : Grid g (-x) := by
  obtain ⟨k, rfl⟩ := h
  exact ⟨-k, by push_cast; ring⟩

theorem Grid.add {g : ℤ} (hx : Grid g x) (hy : Grid g y) : Grid g (x + y) := by
  obtain ⟨k, rfl⟩ := hx
  obtain ⟨l, rfl⟩ := hy
  exact ⟨k + l, by push_cast; ring⟩

theorem Grid.of_le {g : ℤ} (h : g ≤ c) (k : ℤ) : Grid g ((k : ℝ) * 2 ^ c) := by
  obtain ⟨n, hn⟩ := Int.eq_ofNat_of_zero_le (sub_nonneg.mpr h)
  refine ⟨k * 2 ^ n, ?_⟩
  have : c = n + g := by omega
  rw [this, zpow_add₀ (by norm_num), zpow_natCast]
  push_cast
  ring

/-- A number that is not smaller than `2^a` is rounded to a multiple of `2^(a-52)`. -/
theorem Grid.of_rnd (h : (2 : ℝ) ^ a ≤ |x|) : Grid (a - 52) (rndNE x) := by
  have hx : x ≠ 0 := fun e => by rw [e, abs_zero] at h; exact absurd (two_pow_pos a) (not_lt.mpr h)
  have h1 : a ≤ Int.log 2 |x| := by
    refine (Int.zpow_le_iff_le_log (R := ℝ) (b := 2) (by norm_num) (abs_pos.mpr hx)).mp ?_
    exact_mod_cast h
  exact Grid.of_le (show a - 52 ≤ ulpExp x by unfold ulpExp; omega) _

theorem Grid.of_rnd0 (h : Bnd0 a b x) : Grid (a - 52) (rndNE x) := by
  rcases h with rfl | h
  · rw [rndNE_zero]; exact Grid.zero _
  · exact Grid.of_rnd h.1

/-- Rounding does not leave a grid. -/
theorem Grid.rnd {g : ℤ} (h : Grid g x) : Grid g (rndNE x) := by
  by_cases hg : g ≤ ulpExp x
  · exact Grid.of_le hg _
  · push Not at hg
    obtain ⟨k, hk⟩ := h
    obtain ⟨n, hn⟩ := Int.eq_ofNat_of_zero_le (sub_nonneg.mpr hg.le)
    have e : x / 2 ^ ulpExp x = ((k * 2 ^ n : ℤ) : ℝ) := by
      generalize ulpExp x = u at *
      have : g = n + u := by omega
      rw [hk, this, zpow_add₀ (by norm_num), zpow_natCast, ← mul_assoc, mul_div_cancel_right₀ _ (two_pow_pos _).ne']
      push_cast
      ring
    have : rndNE x = x := by
      unfold rndNE
      rw [e, roundEven_int, ← e, div_mul_cancel₀ _ (two_pow_pos _).ne']
    rw [this]
    exact ⟨k, hk⟩

/-- A number on a grid is zero or not smaller than the mesh. -/
theorem Grid.bnd {g : ℤ} (h : Grid g x) (hb : |x| ≤ 2 ^ b) : Bnd0 g b x := by
  obtain ⟨k, hk⟩ := h
  by_cases h0 : k = 0
  · left; rw [hk, h0]; simp
  · right
    refine ⟨?_, hb⟩
    rw [hk, abs_mul, abs_of_pos (two_pow_pos _)]
    have : (1 : ℝ) ≤ |(k : ℝ)| := by
      have := Int.one_le_abs h0
      exact_mod_cast this
    have := two_pow_pos g
    nlinarith

end FMM.D64
