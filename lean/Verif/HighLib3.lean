import Verif.HighOps3
import Verif.LowLaws3
import Verif.HighEval

/-!
# Tables and harmonics do not overflow
-/

namespace FMM.Hi3
open FMM D64 Rounded Fl3 Finset
variable {F : Flt3} {L : Lib} {u g η ρ θ τ ν : ℝ} {p G κ : ℕ}

theorem wW_le {j n : ℕ} {k m : ℤ} (hk : |k| ≤ j) (hm : |m| ≤ n) : wW j n k m ≤ 2 ^ (j + n) := by
  have h0 := (wW_pos j n k m).le
  refine (abs_le_of_sq_le_sq' ?_ (by positivity)).2
  rw [wW_sq hk hm]
  rw [abs_le] at hk hm
  have h1 : ((((j + n : ℕ) + (k + m) : ℤ).toNat.choose (j + k).toNat : ℕ) : ℝ) ≤ 2 ^ ((j + n : ℕ) + (k + m) : ℤ).toNat := by
    exact_mod_cast Nat.choose_le_two_pow _ _
  have h2 : ((((j + n : ℕ) - (k + m) : ℤ).toNat.choose (j - k).toNat : ℕ) : ℝ) ≤ 2 ^ ((j + n : ℕ) - (k + m) : ℤ).toNat := by
    exact_mod_cast Nat.choose_le_two_pow _ _
  refine (mul_le_mul h1 h2 (by positivity) (by positivity)).trans (le_of_eq ?_)
  rw [← pow_add, ← pow_mul]
  congr 1
  omega

/-- The quotients of the `A_n^m`. -/
theorem quot_le {n j : ℕ} {m k : ℤ} (hn : n ≤ p) (hj : j ≤ p) (hm : |m| ≤ n) (hk : |k| ≤ j) :
    |aSpec n m| * |aSpec (j + n) (m - k)|⁻¹ ≤ 2 ^ (2 * p) * Real.sqrt ((2 * p).factorial) := by
  have e := m2l_wratio j n k m
  rw [abs_div, abs_mul, sg2_abs, one_mul] at e
  have h1 := wW_le (j := j) (n := n) (k := -k) (m := m) (by rwa [abs_neg]) hm
  have h2 := aMin_le_abs hj hk
  have h3 : (0 : ℝ) < |aSpec j k| := abs_pos.mpr (aSpec_ne_zero _ _)
  have h4 : |aSpec n m| * |aSpec (j + n) (m - k)|⁻¹ = wW j n (-k) m * |aSpec j k|⁻¹ := by
    rw [← e, mul_assoc, mul_inv_cancel₀ h3.ne', mul_one, div_eq_mul_inv]
  rw [h4]
  refine mul_le_mul (h1.trans (pow_le_pow_right₀ (by norm_num) (by omega))) ?_ (by positivity) (by positivity)
  have := inv_anti₀ (aMin_pos p) h2
  unfold aMin at this
  rwa [inv_inv] at this

section
variable (hF : F.Low u g η ρ)
include hF

theorem pow6 : (1 + u) ^ 6 - 1 ≤ 1 / 2 := by
  have h0 := hF.nonneg
  have h1 := hF.small
  have h2 : (1 + u) ^ 6 ≤ (1 + 1 / 16) ^ 6 := pow_le_pow_left₀ (by linarith) (by linarith) 6
  norm_num at h2 ⊢
  linarith

theorem alm_bounds {n : ℕ} {m : ℤ} (hn : n ≤ 84) (hm : |m| ≤ n) :
    |aSpec n m| / 2 ≤ |F.alm n m (aSpec n m)| ∧ |F.alm n m (aSpec n m)| ≤ 3 / 2 * |aSpec n m| := by
  have h := hF.alm n m hn hm
  have h0 := abs_nonneg (aSpec n m)
  have h1 := mul_le_mul_of_nonneg_right (pow6 hF) h0
  have h2 := abs_sub_abs_le_abs_sub (F.alm n m (aSpec n m)) (aSpec n m)
  have h3 := abs_sub_abs_le_abs_sub (aSpec n m) (F.alm n m (aSpec n m))
  rw [abs_sub_comm (aSpec n m)] at h3
  constructor <;> linarith

/-- The tables. -/
theorem almOk (h64 : Is64 F) (hL : LibOf L F) (hs : Scale3 u η θ τ ν p) (hp : p ≤ 42) (hG : Real.sqrt ((2 * p).factorial) ≤ 2 ^ G)
    (hG' : G ≤ 800) : AlmOk L p (G + 2 * p + 2) where
  up n m hn hm := by
    rw [(hL.alm n m (by omega) hm).1]
    refine .fin ?_
    have h1 := (alm_bounds hF (by omega) hm).2
    have h2 := aSpec_le_one n m
    rw [zpow_one]
    linarith
  lo n m hn hm := by
    obtain ⟨h1, h2⟩ := hL.alm n m (by omega) hm
    refine ⟨_, h1, h2, ?_⟩
    have h3 := (alm_bounds hF (by omega) hm).1
    have h4 := aMin_le_abs hn hm
    have h5 := aMin_pos p
    have h6 := inv_anti₀ (by linarith : 0 < aMin p / 2) ((div_le_div_of_nonneg_right h4 (by norm_num)).trans h3)
    refine h6.trans ?_
    rw [inv_div]
    unfold aMin
    rw [div_inv_eq_mul]
    calc 2 * Real.sqrt ((2 * p).factorial) ≤ 2 * 2 ^ G := by linarith
      _ = (2 : ℝ) ^ (1 + G) := by rw [pow_add, pow_one]
      _ ≤ 2 ^ (G + 2 * p + 2) := pow_le_pow_right₀ (by norm_num) (by omega)
      _ = 2 ^ (((G + 2 * p + 2 : ℕ)) : ℤ) := (zpow_natCast _ _).symm
  quot s n j m k hs1 hn hj hm hk := by
    have hmk : |m - k| ≤ (j + n : ℕ) := by rw [abs_le] at *; push_cast; omega
    obtain ⟨h1, h2⟩ := hL.alm n m (by omega) hm
    obtain ⟨h1', h2'⟩ := hL.alm (j + n) (m - k) (by omega) hmk
    obtain ⟨a1, a2⟩ := alm_bounds hF (n := n) (m := m) (by omega) hm
    obtain ⟨b1, -⟩ := alm_bounds hF (n := j + n) (m := m - k) (by omega) hmk
    have ha : η ≤ |aSpec n m| := by
      have c1 := hs.floor'
      have c2 : τ * ν ^ 3 * θ ^ (3 * p + 2) ≤ 1 :=
        mul_le_one₀ (mul_le_one₀ hs.tau1 (by have := hs.nu0; positivity) (pow_le_one₀ hs.nu0 hs.nu1)) (by have := hs.th0; positivity) (pow_le_one₀ hs.th0.le hs.th1)
      have c3 := mul_le_of_le_one_right (aMin_pos p).le c2
      exact c1.trans (c3.trans (aMin_le_abs hn hm))
    have ha0 : (0 : ℝ) < |aSpec n m| := abs_pos.mpr (aSpec_ne_zero _ _)
    have hb0 : (0 : ℝ) < |aSpec (j + n) (m - k)| := abs_pos.mpr (aSpec_ne_zero _ _)
    rw [h1, h1']
    generalize F.alm n m (aSpec n m) = y at *
    generalize F.alm (j + n) (m - k) (aSpec (j + n) (m - k)) = y' at *
    have hsy : |s * y| = |y| := by rw [abs_mul, hs1, one_mul]
    have hr := hF.rnd (s * y)
    rw [h64.rnd, hsy] at hr
    have hr' : |rndU (s * y)| ≤ 2 * |aSpec n m| := by
      have d1 := abs_sub_abs_le_abs_sub (rndU (s * y)) (s * y)
      rw [hsy] at d1
      have d2 : u * max |y| η ≤ 1 / 16 * (3 / 2 * |aSpec n m|) :=
        mul_le_mul hF.small (max_le a2 (by linarith)) (hF.eta.trans (le_max_right _ _)) (by norm_num)
      linarith
    have hm1 : D64.mul (.fin s) (.fin y) = .fin (rndU (s * y)) := by
      refine (rnd64_fin (b := 1) ?_ (by norm_num) (by norm_num)).1
      rw [hsy, zpow_one]
      have := aSpec_le_one n m
      linarith
    rw [hm1]
    show N 1 _ (if y' = 0 then _ else rnd64 (rndU (s * y) / y'))
    rw [if_neg h2']
    refine rnd_N (by norm_num) (by push_cast; omega) (by push_cast; omega) ?_
    rw [abs_div, Nat.cast_one, one_mul]
    have hy' : |y'|⁻¹ ≤ 2 * |aSpec (j + n) (m - k)|⁻¹ := by
      have := inv_anti₀ (by linarith : 0 < |aSpec (j + n) (m - k)| / 2) b1
      rw [inv_div, div_eq_mul_inv] at this
      exact this
    have hq := quot_le (p := p) hn hj hm hk
    calc |rndU (s * y)| / |y'| = |rndU (s * y)| * |y'|⁻¹ := div_eq_mul_inv _ _
      _ ≤ 2 * |aSpec n m| * (2 * |aSpec (j + n) (m - k)|⁻¹) := mul_le_mul hr' hy' (by positivity) (by positivity)
      _ = 4 * (|aSpec n m| * |aSpec (j + n) (m - k)|⁻¹) := by ring
      _ ≤ 4 * (2 ^ (2 * p) * 2 ^ G) := by
        refine mul_le_mul_of_nonneg_left (hq.trans (mul_le_mul_of_nonneg_left hG (by positivity))) (by norm_num)
      _ = (2 : ℝ) ^ (G + 2 * p + 2) := by rw [pow_add _ (G + 2 * p), pow_add _ G]; ring
      _ ≤ 2 ^ (G + 2 * p + 2 + 1) := pow_le_pow_right₀ (by norm_num) (by omega)
      _ = 2 ^ (((G + 2 * p + 2 : ℕ) : ℤ) + 1) := by rw [← zpow_natCast]; push_cast; rfl
  s1 k m := ⟨_, sg1_abs k m, hL.sign1 k m⟩
  s2 k m := ⟨_, sg2_abs k m, hL.sign2 k m⟩
  s3 k m := ⟨_, sg3_abs k m, hL.sign3 k m⟩

end

/-- Finite harmonics: GSL returns finite values for all directions up to degree 84. -/
def YFin (L : Lib) : Prop := ∀ (lmax : ℕ) (θ φ : ℝ) (l : ℕ) (m : ℤ), lmax ≤ 84 → l ≤ lmax → |m| ≤ l →
  (∃ x, (L.ylm lmax (.fin θ, .fin φ) l m).re = .fin x) ∧ ∃ y, (L.ylm lmax (.fin θ, .fin φ) l m).im = .fin y

theorem yEr_kap (hu : 0 ≤ u) (hg : 0 ≤ g) (p : ℕ) : yEr u g (2 * p) ≤ Fl3.kap u g p := by
  refine le_trans ?_ (eta_le_kap hu hg p)
  have h1 := yEr_nonneg hu hg (2 * p)
  have h2 := one_le_pow_u hu (12 * p + 6)
  have h3 := eta_of hu hg p (K := 0) (Nat.zero_le _)
  rw [pow_zero, one_mul, add_sub_cancel_left] at h3
  refine le_trans ?_ h3
  unfold eps tEr
  nlinarith

/-- The harmonics are below 2. -/
theorem yOk (hF : F.Low u g η ρ) (h64 : Is64 F) (hL : LibOf L F) (hY : YFin L) (hκ : Cost u g p κ) (hκ2 : (1 + u) ^ κ ≤ 2) (hp : p ≤ 42) {lmax : ℕ}
    (hl : lmax ≤ 2 * p) {v w : Vec 3} (hv : Mod v) (hw : Mod w) : YOk L lmax (vsub v w) := by
  intro n m hn hm
  obtain ⟨-, -, g3⟩ := geo_fin h64 hL hv hw
  rw [g3]
  have ha := ylm_agr h64 hL lmax (F.sph (F.vsub v w) 1) (F.sph (F.vsub v w) 2) hn hm
  obtain ⟨⟨x, hx⟩, y, hy⟩ := hY lmax (F.sph (F.vsub v w) 1) (F.sph (F.vsub v w) 2) n m (by omega) hn hm
  have h1 := Lo3.yv_any hF (F.vsub v w) hn
  have h2 := Lo3.norm_le_l2 (s := Ir n) (x := yv F lmax (F.rcos (F.sph (F.vsub v w) 1)) (F.sph (F.vsub v w) 2) n) (mem_Ir.mpr hm)
  have hg := Lo3.gpos hF
  have h3 := (yEr_mono hF.nonneg hg (hn.trans hl)).trans ((yEr_kap hF.nonneg hg p).trans hκ.one)
  have h4 : ‖yv F lmax (F.rcos (F.sph (F.vsub v w) 1)) (F.sph (F.vsub v w) 2) n m‖ ≤ 2 ^ (1 : ℤ) := by
    rw [zpow_one]; linarith
  constructor
  · rw [hx, ha.1 x hx]
    exact .fin ((Complex.abs_re_le_norm _).trans h4)
  · rw [hy, ha.2 y hy]
    exact .fin ((Complex.abs_im_le_norm _).trans h4)

end FMM.Hi3
