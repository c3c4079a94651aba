import Verif.FltIeee
import Verif.FltYlm

/-!
# IEEE arithmetic is a floating-point arithmetic in the sense of `Flt3.Ok`

Library functions return the rounded exact values; the table of the `A_n^m` is computed as in fmm_general.hpp:26.
-/

namespace FMM

/-- `A_coeff` with rounding, fmm_general.hpp:19-27. -/
noncomputable def almRnd (r : ℝ → ℝ) (n : ℕ) (m : ℤ) : ℝ :=
  r ((if n % 2 = 0 then 1 else -1)
    / r (Real.sqrt (r (r ((n - m).toNat.factorial : ℝ) * r ((n + m).toNat.factorial : ℝ)))))

/-- Arithmetic with a given rounding. -/
noncomputable def Flt3.ofRnd (r : ℝ → ℝ) : Flt3 where
  toFlt := Flt.ofRnd r
  nrm3 v := r (Vec.norm v)
  hyp x y := r (Vec.hypot x y)
  atan2 y x := r (Vec.atan2 y x)
  rcos x := r (Real.cos x)
  rsin x := r (Real.sin x)
  cis phi := ⟨r (Real.cos phi), r (Real.sin phi)⟩
  sqrt2 := r (Real.sqrt 2)
  leg _ x l m := r (schmidt (-1) l m x)
  legD _ x := (fun l m => r (schmidt (-1) l m x),
    fun l m => r (deriv (fun t => schmidt (-1) l m (Real.cos t)) (Real.arccos x)))
  alm n m _ := almRnd r n m

/-- `double`s, round to nearest even. -/
noncomputable def Flt3.ieee : Flt3 := Flt3.ofRnd Rounded.rndNE

section
variable {r : ℝ → ℝ} {v : ℝ}

theorem Ap.sqrt (hv : 0 ≤ v) {n : ℕ} {x' x : ℝ} (hx : 0 < x) (hx' : 0 ≤ x') (h : Ap v n x x' x) :
    Ap v n (Real.sqrt x) (Real.sqrt x') (Real.sqrt x) := by
  have hs := Real.sqrt_pos.mpr hx
  have h0 := one_le_pow_u hv n
  refine ⟨?_, by rw [Real.norm_of_nonneg hs.le]⟩
  have h1 := h.1
  rw [Real.norm_eq_abs] at h1 ⊢
  have e : x' - x = (Real.sqrt x' - Real.sqrt x) * (Real.sqrt x' + Real.sqrt x) := by
    have a := Real.mul_self_sqrt hx'
    have b := Real.mul_self_sqrt hx.le
    linear_combination -a + b
  have hp : 0 ≤ Real.sqrt x' := Real.sqrt_nonneg _
  rw [e, abs_mul, abs_of_pos (by linarith : 0 < Real.sqrt x' + Real.sqrt x)] at h1
  have h2 : |Real.sqrt x' - Real.sqrt x| * Real.sqrt x ≤ |Real.sqrt x' - Real.sqrt x| * (Real.sqrt x' + Real.sqrt x) :=
    mul_le_mul_of_nonneg_left (by linarith) (abs_nonneg _)
  have h3 : |Real.sqrt x' - Real.sqrt x| * Real.sqrt x ≤ ((1 + v) ^ n - 1) * Real.sqrt x * Real.sqrt x := by
    rw [mul_assoc, Real.mul_self_sqrt hx.le]; linarith
  exact le_of_mul_le_mul_right h3 hs

theorem pow9_le (hv : 0 ≤ v) (hv' : v ≤ 1) : (1 + v) ^ 9 ≤ (1 + 16 * v) ^ 6 := by
  have h1 : (1 + v) ^ 9 ≤ (1 + v) ^ 12 := pow_le_pow_right₀ (by linarith) (by norm_num)
  have h2 : (1 + v) ^ 2 ≤ 1 + 16 * v := by nlinarith
  have h3 := pow_le_pow_left₀ (by positivity) h2 6
  rw [← pow_mul] at h3
  exact h1.trans h3

theorem almRnd_err (hv : 0 ≤ v) (hv' : v ≤ 1 / 256) (H : ∀ x, |r x - x| ≤ v * |x|) (n : ℕ) (m : ℤ) :
    Ap v 9 |aSpec n m| (almRnd r n m) (aSpec n m) := by
  set f1 : ℝ := ((n - m).toNat.factorial : ℝ) with hf1
  set f2 : ℝ := ((n + m).toNat.factorial : ℝ) with hf2
  have p1 : 0 < f1 := by rw [hf1]; positivity
  have p2 : 0 < f2 := by rw [hf2]; positivity
  have a1 : Ap v 1 f1 (r f1) f1 := rnd_ap hv H (Ap.refl (by rw [Real.norm_of_nonneg p1.le]))
  have a2 : Ap v 1 f2 (r f2) f2 := rnd_ap hv H (Ap.refl (by rw [Real.norm_of_nonneg p2.le]))
  have a3 : Ap v 3 (f1 * f2) (r (r f1 * r f2)) (f1 * f2) := rnd_ap hv H (a1.mul hv a2)
  have pos : ∀ x, 0 < x → 0 < r x := fun x hx => by
    have := H x
    rw [abs_of_pos hx, abs_le] at this
    nlinarith [this.1]
  have p3 : 0 < r (r f1 * r f2) := pos _ (mul_pos (pos _ p1) (pos _ p2))
  have hs : 0 < Real.sqrt (f1 * f2) := Real.sqrt_pos.mpr (mul_pos p1 p2)
  have a4 : Ap v 4 (Real.sqrt (f1 * f2)) (r (Real.sqrt (r (r f1 * r f2)))) (Real.sqrt (f1 * f2)) :=
    rnd_ap hv H (Ap.sqrt hv (mul_pos p1 p2) p3.le a3)
  have a5 := (Ap.invk hv 4 (by
    have : (1 + v) ^ 4 ≤ (1 + 1 / 256 : ℝ) ^ 4 := pow_le_pow_left₀ (by linarith) (by linarith) 4
    refine this.trans (by norm_num)) hs.ne' (by
      have := a4.1
      rwa [Real.norm_eq_abs (Real.sqrt _), abs_of_pos hs])).2
  rw [Real.norm_of_nonneg hs.le] at a5
  have e1 : |aSpec n m| = (Real.sqrt (f1 * f2))⁻¹ := by
    unfold aSpec
    rw [abs_div, abs_pow, abs_neg, abs_one, one_pow, abs_of_pos hs, one_div]
  rw [e1]
  unfold almRnd aSpec
  refine rnd_ap hv H ?_
  rw [← hf1, ← hf2]
  by_cases hn : n % 2 = 0
  · rw [if_pos hn, (Nat.even_iff.mpr hn).neg_one_pow, one_div, one_div]
    exact a5
  · rw [if_neg hn, (Nat.odd_iff.mpr (by omega)).neg_one_pow, neg_div, neg_div, one_div, one_div]
    exact a5.neg

theorem schmidt_le {x : ℝ} (hx : |x| ≤ 1) {l m : ℕ} (hm : m ≤ l) : |schmidt (-1) l m x| ≤ 2 := by
  have hcos : Real.cos (Real.arccos x) = x := Real.cos_arccos (abs_le.mp hx).1 (abs_le.mp hx).2
  have hR := schmidt_rY (theta := Real.arccos x) (phi := 0) (by rw [Real.sin_arccos]; exact Real.sqrt_nonneg _) hm
  rw [hcos] at hR
  have h1 : ‖rY (dirV (Real.arccos x) 0) l m‖ ≤ 1 := by
    have a := le_l2 (s := Ir l) (fun m => rY (dirV (Real.arccos x) 0) l m) (i := (m : ℤ)) (mem_Ir.mpr (by rw [abs_le]; omega))
    rwa [l2_rY, Fl3.len3_dirV, one_pow] at a
  rw [← hR] at h1
  by_cases h0 : m = 0
  · subst h0
    rw [if_pos rfl, Complex.norm_real, Real.norm_eq_abs] at h1
    linarith
  · have hs2 : (0 : ℝ) < Real.sqrt 2 := Real.sqrt_pos.mpr (by norm_num)
    have hs4 : Real.sqrt 2 ≤ 2 := by rw [Real.sqrt_le_left (by norm_num)]; norm_num
    rw [if_neg h0, norm_div, norm_mul, Complex.ofReal_zero, mul_zero, Complex.exp_zero, one_pow, norm_one, mul_one,
      Complex.norm_real, Complex.norm_real, Real.norm_eq_abs, Real.norm_of_nonneg hs2.le, div_le_one hs2] at h1
    linarith

/-- Rounding with relative error `v`, which does not lead out of `[-1, 1]`. -/
theorem Flt3.ofRnd_ok (hv : 0 ≤ v) (hv' : v ≤ 1 / 256) (H : ∀ x, |r x - x| ≤ v * |x|) (H1 : ∀ x, |x| ≤ 1 → |r x| ≤ 1) :
    (Flt3.ofRnd r).Ok (16 * v) (2 * v) := by
  have hle : v ≤ 16 * v := by linarith
  refine ⟨Flt.ofRnd_ok hv hv' H, by linarith, fun w => ?_, fun x y => ?_, fun y x => ?_, fun x => ?_, fun x => ?_, fun phi => ?_, ?_,
    fun lmax x l m hx hm _ => ?_, fun n m _ _ => ?_⟩
  · have h0 := Vec.norm_nonneg w
    have h := H (Vec.norm w)
    rw [abs_of_nonneg h0] at h
    exact h.trans (mul_le_mul_of_nonneg_right hle h0)
  · have h0 : 0 ≤ Vec.hypot x y := Real.sqrt_nonneg _
    have h := H (Vec.hypot x y)
    rw [abs_of_nonneg h0] at h
    exact h.trans (mul_le_mul_of_nonneg_right hle h0)
  · exact (H _).trans (mul_le_mul_of_nonneg_right hle (abs_nonneg _))
  · refine (H _).trans ((mul_le_mul_of_nonneg_left (Real.abs_cos_le_one x) hv).trans ?_)
    linarith
  · exact H1 _ (Real.abs_cos_le_one x)
  · have e : Complex.exp (Complex.I * phi) = ⟨Real.cos phi, Real.sin phi⟩ := by
      rw [mul_comm]
      exact Complex.ext (Complex.exp_ofReal_mul_I_re phi) (Complex.exp_ofReal_mul_I_im phi)
    have h := ofRnd_pair hv H (Real.cos phi) (Real.sin phi)
    rw [← e] at h
    have he : ‖Complex.exp (Complex.I * phi)‖ = 1 := by rw [mul_comm, Complex.norm_exp_ofReal_mul_I]
    rw [he] at h
    refine h.trans ?_
    linarith
  · have h0 : 0 ≤ Real.sqrt 2 := Real.sqrt_nonneg _
    have h := H (Real.sqrt 2)
    rw [abs_of_nonneg h0] at h
    exact h.trans (mul_le_mul_of_nonneg_right hle h0)
  · refine (H _).trans ?_
    have := mul_le_mul_of_nonneg_left (schmidt_le hx hm) hv
    linarith
  · refine ((almRnd_err hv hv' H n m).1).trans (mul_le_mul_of_nonneg_right ?_ (abs_nonneg _))
    exact sub_le_sub_right (pow9_le hv (by linarith)) 1

theorem rndNE_one {x : ℝ} (hx : |x| ≤ 1) : |Rounded.rndNE x| ≤ 1 := by
  rcases eq_or_ne x 0 with rfl | h0
  · simp [Rounded.rndNE, Rounded.roundEven]
  have hp : (0 : ℝ) < 2 ^ Rounded.ulpExp x := by positivity
  have h1 := Rounded.roundEven_near (x / 2 ^ Rounded.ulpExp x)
  by_cases h2 : |x| = 1
  · have hu : Rounded.ulpExp x = -52 := by
      unfold Rounded.ulpExp; rw [h2, Int.log_one_right]; norm_num
    have e : x / 2 ^ (-52 : ℤ) = x * 2 ^ 52 := by rw [zpow_neg, div_inv_eq_mul]; norm_cast
    unfold Rounded.rndNE
    rw [hu, e]
    have key : ∀ k : ℤ, x = k → Rounded.roundEven (x * 2 ^ 52) = k * 2 ^ 52 := fun k hk => by
      refine Rounded.roundEven_eq ?_
      rw [hk]; norm_num
    rcases abs_eq (by norm_num : (0 : ℝ) ≤ 1) |>.mp h2 with h | h
    · rw [key 1 (by rw [h]; norm_num)]; norm_num
    · rw [key (-1) (by rw [h]; norm_num)]; norm_num
  · have hlt : |x| < 1 := lt_of_le_of_ne hx h2
    have h3 : |x| < (2 : ℝ) ^ (Int.log 2 |x| + 1) := by
      have := Int.lt_zpow_succ_log_self (R := ℝ) (b := 2) (by norm_num) |x|
      exact_mod_cast this
    have h4 : (2 : ℝ) ^ (Int.log 2 |x|) ≤ |x| := by
      have := Int.zpow_log_le_self (R := ℝ) (b := 2) (by norm_num) (abs_pos.mpr h0)
      exact_mod_cast this
    have h5 : Int.log 2 |x| < 0 := by
      by_contra hc
      push Not at hc
      have : (1 : ℝ) ≤ 2 ^ (Int.log 2 |x|) := one_le_zpow₀ (by norm_num) hc
      linarith
    have e : (2 : ℝ) ^ (Int.log 2 |x| + 1) = 2 ^ 53 * 2 ^ Rounded.ulpExp x := by
      rw [← zpow_natCast, ← zpow_add₀ (by norm_num)]
      congr 1
      simp [Rounded.ulpExp]
      ring
    have h6 : |x / 2 ^ Rounded.ulpExp x| < 2 ^ 53 := by
      rw [abs_div, abs_of_pos hp, div_lt_iff₀ hp, ← e]; exact h3
    have h7 : |(Rounded.roundEven (x / 2 ^ Rounded.ulpExp x) : ℝ)| < 2 ^ 53 + 1 := by
      have := abs_sub_abs_le_abs_sub ((Rounded.roundEven (x / 2 ^ Rounded.ulpExp x) : ℝ)) (x / 2 ^ Rounded.ulpExp x)
      linarith
    have h8 : |(Rounded.roundEven (x / 2 ^ Rounded.ulpExp x) : ℝ)| ≤ 2 ^ 53 := by
      have : |Rounded.roundEven (x / 2 ^ Rounded.ulpExp x)| < 2 ^ 53 + 1 := by exact_mod_cast h7
      have : |Rounded.roundEven (x / 2 ^ Rounded.ulpExp x)| ≤ 2 ^ 53 := by omega
      exact_mod_cast this
    unfold Rounded.rndNE
    rw [abs_mul, abs_of_pos hp]
    refine (mul_le_mul_of_nonneg_right h8 hp.le).trans ?_
    rw [← e]
    exact zpow_le_one_of_nonpos₀ (by norm_num) (by omega)

theorem Flt3.ieee_ok : Flt3.ieee.Ok (1 / 2 ^ 49) (1 / 2 ^ 52) := by
  have h := Flt3.ofRnd_ok (r := Rounded.rndNE) (v := 1 / 2 ^ 53) (by positivity) (by norm_num) Rounded.rndNE_rel fun _ h => rndNE_one h
  have e : (16 * (1 / 2 ^ 53) : ℝ) = 1 / 2 ^ 49 := by norm_num
  have e' : (2 * (1 / 2 ^ 53) : ℝ) = 1 / 2 ^ 52 := by norm_num
  rw [e, e'] at h
  exact h

end
end FMM
