import Verif.RoundedFmm
import Verif.FltIeee
import Verif.PropsFltTree
import Mathlib.Analysis.Complex.ExponentialBounds

/-!
# C78: the expansion order in floating-point arithmetic
-/

namespace FMM
variable {d : ℕ} {rnd rlog : ℝ → ℝ} {u : ℝ}

theorem totalStrength_ap (hu : 0 ≤ u) (H : ∀ x, |rnd x - x| ≤ u * |x|) (S : List (Source d)) :
    Ap u S.length (totalStrength S) (Rounded.totalStrength rnd S) (totalStrength S) := by
  have key : ∀ (S : List (Source d)) (n : ℕ) (a' a : ℝ), Ap u n a a' a →
      Ap u (n + S.length) (S.foldl (fun acc s => acc + |s.q|) a) (S.foldl (fun acc s => rnd (acc + |s.q|)) a')
        (S.foldl (fun acc s => acc + |s.q|) a) := by
    intro S
    induction S with
    | nil => intro n a' a h; exact h
    | cons s S ih =>
      intro n a' a h
      have h0 : Ap u 0 |s.q| |s.q| |s.q| := Ap.refl (by rw [Real.norm_eq_abs, abs_abs])
      have h1 := rnd_ap hu H (h.add (h0.mono hu (Nat.zero_le n) le_rfl))
      have := ih (n + 1) _ _ h1
      rw [List.length_cons, show n + (S.length + 1) = n + 1 + S.length by omega]
      exact this
  have := key S 0 0 0 (Ap.zero le_rfl hu)
  rwa [Nat.zero_add] at this

/-- Logarithm to base `B₀` of a perturbed number, with rounded logarithms and division. -/
theorem logb_err {B₀ : ℝ} (hB : 2 ≤ B₀) (hu : 0 ≤ u) (hu' : u ≤ 1 / 16) (H : ∀ x, |rnd x - x| ≤ u * |x|)
    (HL : ∀ x, 0 < x → |rlog x - Real.log x| ≤ u * |Real.log x|) {a b g : ℝ} (ha : 0 < a) (hg : g ≤ 1 / 4)
    (hb : |b - a| ≤ g * a) :
    0 < b ∧ |rnd (rlog b / rlog B₀) - Real.log a / Real.log B₀| ≤ 4 * u * |Real.log a / Real.log B₀| + 4 * g := by
  have hg0 : 0 ≤ g := by
    by_contra h
    push Not at h
    have := (abs_nonneg _).trans hb
    nlinarith
  have hb2 := abs_le.mp hb
  have hb0 : 0 < b := by nlinarith [hb2.1]
  refine ⟨hb0, ?_⟩
  have l2 : 0.69 < Real.log B₀ := by
    have := Real.log_le_log (by norm_num : (0 : ℝ) < 2) hB
    linarith [Real.log_two_gt_d9]
  have l20 : 0 < Real.log B₀ := by linarith
  -- the argument
  have hx : |Real.log b - Real.log a| ≤ 4 / 3 * g := by
    rw [← Real.log_div hb0.ne' ha.ne']
    have hq : 0 < b / a := by positivity
    have h1 := Real.log_le_sub_one_of_pos hq
    have h2 := Real.one_sub_inv_le_log_of_pos hq
    have h3 : b / a ≤ 1 + g := by rw [div_le_iff₀ ha]; linarith [hb2.2]
    have h4 : 1 - g ≤ b / a := by rw [le_div_iff₀ ha]; linarith [hb2.1]
    have h5 : (b / a)⁻¹ ≤ 1 + 4 / 3 * g := by
      rw [inv_le_comm₀ hq (by linarith)]
      refine le_trans ?_ h4
      rw [inv_le_iff_one_le_mul₀ (by linarith)]
      nlinarith
    rw [abs_le]; constructor <;> linarith
  have hw := HL b hb0
  have hz := HL B₀ (by linarith)
  rw [abs_of_pos l20] at hz
  set w := rlog b
  set z := rlog B₀
  set B := Real.log b
  set l := Real.log B₀
  have hz2 := abs_le.mp hz
  have hz0 : 0 < z := by nlinarith [hz2.1]
  have hz1 : (1 - u) * l ≤ z := by linarith [hz2.1]
  have e1 : |w / z - B / l| ≤ 2 * u * (|B| / z) := by
    rw [div_sub_div _ _ hz0.ne' l20.ne', abs_div, abs_of_pos (mul_pos hz0 l20), div_le_iff₀ (mul_pos hz0 l20)]
    have e : w * l - z * B = (w - B) * l + B * (l - z) := by ring
    have e2 : 2 * u * (|B| / z) * (z * l) = u * |B| * l + |B| * (u * l) := by field_simp; ring
    rw [e, e2]
    refine (abs_add_le _ _).trans ?_
    rw [abs_mul, abs_mul, abs_of_pos l20, abs_sub_comm l z]
    exact add_le_add (mul_le_mul_of_nonneg_right hw l20.le) (mul_le_mul_of_nonneg_left hz (abs_nonneg _))
  have hBz : |B| / z ≤ 16 / 15 * (|B| / l) := by
    rw [div_le_iff₀ hz0]
    have : 16 / 15 * (|B| / l) * ((1 - u) * l) ≤ 16 / 15 * (|B| / l) * z := mul_le_mul_of_nonneg_left hz1 (by positivity)
    have e : 16 / 15 * (|B| / l) * ((1 - u) * l) = 16 / 15 * (1 - u) * |B| := by field_simp
    have := abs_nonneg B
    nlinarith
  have hX0 : 0 ≤ |B| / l := by positivity
  have e3 : |w / z - B / l| ≤ 32 / 15 * u * (|B| / l) := by
    have := mul_le_mul_of_nonneg_left hBz (by linarith : 0 ≤ 2 * u)
    linarith
  have e4 : |w / z| ≤ (1 + 32 / 15 * u) * (|B| / l) := by
    have h1 := abs_sub_abs_le_abs_sub (w / z) (B / l)
    rw [abs_div B, abs_of_pos l20] at h1
    linarith
  have e5 := H (w / z)
  have e6 : |rnd (w / z) - B / l| ≤ 10 / 3 * u * (|B| / l) := by
    have h1 := abs_sub_le (rnd (w / z)) (w / z) (B / l)
    have h2 := mul_le_mul_of_nonneg_left e4 hu
    have h3 : u * ((1 + 32 / 15 * u) * (|B| / l)) ≤ (1 + 2 / 15) * u * (|B| / l) := by
      have : (1 + 32 / 15 * u) * (|B| / l) ≤ (1 + 2 / 15) * (|B| / l) := mul_le_mul_of_nonneg_right (by linarith) hX0
      nlinarith
    nlinarith
  have e7 : |B / l - Real.log a / l| ≤ 2 * g := by
    rw [← sub_div, abs_div, abs_of_pos l20, div_le_iff₀ l20]
    nlinarith
  have e8 : |B| / l ≤ |Real.log a / l| + 2 * g := by
    have h1 := abs_sub_abs_le_abs_sub (B / l) (Real.log a / l)
    rw [abs_div B, abs_of_pos l20] at h1
    linarith
  have h1 := abs_sub_le (rnd (w / z)) (B / l) (Real.log a / l)
  have h2 := mul_le_mul_of_nonneg_left e8 (by linarith : 0 ≤ 10 / 3 * u)
  have h3 : 0 ≤ u * |Real.log a / l| := by positivity
  have h4 : 10 / 3 * u * (2 * g) ≤ 2 * g := by nlinarith
  nlinarith

/-- Bound of the error of the binary logarithm of `A / eps`: `N` additions, a division, two logarithms, a division. -/
noncomputable def orderSlack (u : ℝ) (N : ℕ) (A eps : ℝ) : ℝ :=
  4 * u * |Real.log (A / eps) / Real.log 2| + 4 * ((1 + u) ^ (N + 1) - 1)

/-- **C78** If the total strength is larger than the accuracy, the order computed with rounding differs by at most one from
the exact one, and it is sufficient for `eps` up to a factor `2^slack`. -/
theorem C78_order (hu : 0 ≤ u) (hu' : u ≤ 1 / 16) (H : ∀ x, |rnd x - x| ≤ u * |x|)
    (HL : ∀ x, 0 < x → |rlog x - Real.log x| ≤ u * |Real.log x|) (S : List (Source d)) {eps : ℝ} {p : ℕ}
    (hp : expansionOrder (totalStrength S) eps = .ok p) (hp0 : 1 ≤ p) (hp1 : p + 1 < 2 ^ 32)
    (hs : orderSlack u S.length (totalStrength S) eps < 1) :
    ∃ p', Rounded.expansionOrder rnd rlog (Rounded.totalStrength rnd S) eps = .ok p' ∧ p' ≤ p + 1 ∧ p ≤ p' + 1 ∧
      totalStrength S ≤ eps * 2 ^ (p' + orderSlack u S.length (totalStrength S) eps) := by
  have hA := totalStrength_ap hu H S
  set A := totalStrength S
  set A' := Rounded.totalStrength rnd S
  have hA0 : 0 ≤ A := hA.nonneg
  unfold expansionOrder at hp
  by_cases h0 : eps = 0 ∨ A / eps ≤ 0
  · rw [if_pos h0] at hp; cases hp
  rw [if_neg h0] at hp
  push Not at h0
  obtain ⟨he, hpos⟩ := h0
  have he0 : 0 < eps := by
    by_contra hc
    have := div_nonpos_of_nonneg_of_nonpos hA0 (not_lt.mp hc)
    linarith
  unfold toU32 at hp
  by_cases hz : 0 ≤ ⌈Real.log (A / eps) / Real.log 2⌉ ∧ ⌈Real.log (A / eps) / Real.log 2⌉ < 2 ^ 32
  swap
  · rw [if_neg hz] at hp; cases hp
  rw [if_pos hz] at hp
  injection hp with hp
  have hc : ⌈Real.log (A / eps) / Real.log 2⌉ = p := by omega
  set g := (1 + u) ^ (S.length + 1) - 1 with hg
  have hq0 : 0 ≤ 4 * u * |Real.log (A / eps) / Real.log 2| := by positivity
  have hg1 : g ≤ 1 / 4 := by unfold orderSlack at hs; linarith
  have hdiv : Ap u (S.length + 1) (A / eps) (rnd (A' / eps)) (A / eps) := by
    refine rnd_ap hu H ⟨?_, by rw [Real.norm_eq_abs, abs_of_pos hpos]⟩
    rw [← sub_div, norm_div, Real.norm_eq_abs eps, abs_of_pos he0, ← mul_div_assoc]
    exact div_le_div_of_nonneg_right hA.1 he0.le
  obtain ⟨b0, b1⟩ := logb_err le_rfl hu hu' H HL hpos hg1 (b := rnd (A' / eps)) hdiv.1
  have b1 : |rnd (rlog (rnd (A' / eps)) / rlog 2) - Real.log (A / eps) / Real.log 2| ≤ orderSlack u S.length A eps := b1
  set Q := rnd (rlog (rnd (A' / eps)) / rlog 2)
  set L := Real.log (A / eps) / Real.log 2 with hLdef
  set δ := orderSlack u S.length A eps
  have b2 := abs_le.mp b1
  have c1 := Int.le_ceil L
  have c2 := Int.ceil_lt_add_one L
  have d1 := Int.le_ceil Q
  have d2 := Int.ceil_lt_add_one Q
  rw [hc] at c1 c2
  have k1 : (((p : ℤ) - 1 : ℤ) : ℝ) < ((⌈Q⌉ + 1 : ℤ) : ℝ) := by push_cast at c1 c2 ⊢; linarith [b2.1]
  have k2 : ((⌈Q⌉ : ℤ) : ℝ) < (((p : ℤ) + 2 : ℤ) : ℝ) := by push_cast at c1 c2 ⊢; linarith [b2.2]
  have k1' := Int.cast_lt.mp k1
  have k2' := Int.cast_lt.mp k2
  have hQ0 : 0 ≤ ⌈Q⌉ := by omega
  refine ⟨⌈Q⌉.toNat, ?_, by omega, by omega, ?_⟩
  · unfold Rounded.expansionOrder
    rw [if_neg (by push Not; exact ⟨he, b0⟩)]
    unfold toU32
    have hQ1 : ⌈Q⌉ < 2 ^ 32 := by omega
    exact if_pos ⟨hQ0, hQ1⟩
  · have t : ((⌈Q⌉.toNat : ℕ) : ℝ) = (⌈Q⌉ : ℝ) := by
      have : ((⌈Q⌉.toNat : ℤ)) = ⌈Q⌉ := Int.toNat_of_nonneg hQ0
      exact_mod_cast this
    have hLe : L ≤ (⌈Q⌉.toNat : ℝ) + δ := by rw [t]; linarith [b2.1]
    have l20 : 0 < Real.log 2 := Real.log_pos (by norm_num)
    have : A / eps = 2 ^ L := by
      rw [Real.rpow_def_of_pos (by norm_num), hLdef, mul_div_cancel₀ _ l20.ne', Real.exp_log hpos]
    have h2 : A / eps ≤ 2 ^ ((⌈Q⌉.toNat : ℝ) + δ) := by
      rw [this]; exact Real.rpow_le_rpow_of_exponent_le (by norm_num) hLe
    rw [div_le_iff₀ he0] at h2
    linarith

/-- Non-vacuity: eight unit charges, `eps = 2^-20`, `double`s; the exact order is 23. -/
example : ∃ p', Rounded.expansionOrder Flt.ieee.rnd Flt.ieee.rlog
    (Rounded.totalStrength Flt.ieee.rnd (List.replicate 8 (⟨0, 1⟩ : Source 2))) (1 / 2 ^ 20) = .ok p' ∧ p' ≤ 24 ∧ 22 ≤ p' := by
  have hA : totalStrength (List.replicate 8 (⟨0, 1⟩ : Source 2)) = 8 := by
    unfold totalStrength
    norm_num [List.replicate]
  have l20 : Real.log 2 ≠ 0 := (Real.log_pos (by norm_num)).ne'
  have hL : Real.log ((8 : ℝ) / (1 / 2 ^ 20)) / Real.log 2 = 23 := by
    rw [show (8 : ℝ) / (1 / 2 ^ 20) = 2 ^ 23 by norm_num, Real.log_pow]
    push_cast
    rw [mul_div_cancel_right₀ _ l20]
  have hord : expansionOrder (totalStrength (List.replicate 8 (⟨0, 1⟩ : Source 2))) (1 / 2 ^ 20) = .ok 23 := by
    unfold expansionOrder
    rw [hA, if_neg (by norm_num), hL]
    have : ⌈(23 : ℝ)⌉ = 23 := by norm_num
    rw [this]
    rfl
  obtain ⟨p', h1, h2, h3, -⟩ := C78_order (by positivity) (by norm_num) Flt.ieee_ok.rnd Flt.ieee_ok.rlog _ hord (by norm_num)
    (by norm_num) (by
      unfold orderSlack
      rw [hA, hL, List.length_replicate]
      norm_num)
  exact ⟨p', h1, h2, by omega⟩

end FMM
