import Verif.Exp3
import Verif.LoopLemmas
import Verif.SolidSeries
import Verif.PropsTables
import Mathlib.Algebra.Order.Ring.Int

/-!
# Tables of the 3D expansions: contents
-/

namespace FMM
open Finset

/-! ## Loops -/

theorem sum_Icc_range {M : Type*} [AddCommMonoid M] (lo hi : ℤ) (g : ℤ → M) :
    ∑ i ∈ range (hi + 1 - lo).toNat, g (lo + i) = ∑ m ∈ Icc lo hi, g m := by
  refine sum_bij' (fun i _ => lo + (i : ℤ)) (fun m _ => (m - lo).toNat) ?_ ?_ ?_ ?_ ?_
  · intro i hi'; rw [mem_range] at hi'; rw [mem_Icc]; omega
  · intro m hm; rw [mem_Icc] at hm; rw [mem_range]; omega
  · intro i hi'; omega
  · intro m hm; rw [mem_Icc] at hm; omega
  · intro i hi'; rfl

theorem loopZ_acc {M : Type*} [AddCommMonoid M] (lo hi : ℤ) (f : ℤ → M → Outcome M) (g : ℤ → M) (s : M)
    (h : ∀ m, lo ≤ m → m ≤ hi → ∀ b, f m b = .ok (b + g m)) :
    loopZ lo hi f s = .ok (s + ∑ m ∈ Icc lo hi, g m) := by
  unfold loopZ
  rw [loopM_acc _ _ (fun i => g (lo + i)) s fun i hi' b => h _ (by omega) (by omega) b, sum_Icc_range]

/-- Cells of a coefficient array. -/
def cell (n : ℕ) (m : ℤ) : ℕ := (lmIndex n m).toNat

theorem cell_inj {n n' : ℕ} {m m' : ℤ} (h : |m| ≤ n) (h' : |m'| ≤ n') (he : cell n m = cell n' m') : n = n' ∧ m = m' :=
  lmIndex_toNat_injective h h' he

theorem rdZ_cell {a : Arr ℂ} {p n : ℕ} {m : ℤ} (hs : a.size = (p + 1) * (p + 1)) (hn : n ≤ p) (hm : |m| ≤ n) :
    a.rdZ (lmIndex n m) = .ok (a.val (cell n m)) := by
  obtain ⟨h0, h1⟩ := lmIndex_bounds hm hn
  exact Arr.rdZ_ok a h0 (by rw [hs]; exact h1)

theorem wrZ_cell {a : Arr ℂ} {p n : ℕ} {m : ℤ} (hs : a.size = (p + 1) * (p + 1)) (hn : n ≤ p) (hm : |m| ≤ n) (x : ℂ) :
    a.wrZ (lmIndex n m) x = .ok ⟨a.size, Function.update a.val (cell n m) x⟩ := by
  obtain ⟨h0, h1⟩ := lmIndex_bounds hm hn
  exact Arr.wrZ_ok a h0 (by rw [hs]; exact h1) x

/-- One row of cells updated in order. -/
theorem row_rmw {p n : ℕ} (hn : n ≤ p) (f : ℤ → Arr ℂ → Outcome (Arr ℂ)) (g : ℤ → ℂ → ℂ) (c : Arr ℂ)
    (hc : c.size = (p + 1) * (p + 1))
    (h : ∀ m : ℤ, |m| ≤ n → ∀ c' : Arr ℂ, c'.size = (p + 1) * (p + 1) →
      f m c' = .ok ⟨c'.size, Function.update c'.val (cell n m) (g m (c'.val (cell n m)))⟩) :
    ∃ c', loopZ (-(n : ℤ)) n f c = .ok c' ∧ c'.size = (p + 1) * (p + 1) ∧
      ∀ (n' : ℕ) (m' : ℤ), |m'| ≤ n' → c'.val (cell n' m') = if n' = n then g m' (c.val (cell n m')) else c.val (cell n' m') := by
  unfold loopZ
  obtain ⟨c', h1, h2, h3⟩ := loopM_invariant
    (fun i (c' : Arr ℂ) => c'.size = (p + 1) * (p + 1) ∧ ∀ (n' : ℕ) (m' : ℤ), |m'| ≤ n' →
      c'.val (cell n' m') = if n' = n ∧ m' < -(n : ℤ) + i then g m' (c.val (cell n m')) else c.val (cell n' m'))
    (fun i => f (-(n : ℤ) + i)) c ((n : ℤ) + 1 - -(n : ℤ)).toNat
    ⟨hc, fun n' m' hm' => by
      rw [if_neg]; rintro ⟨rfl, h⟩
      rw [abs_le] at hm'; omega⟩
    (by
      rintro i hi t ⟨ht, hv⟩
      have hm : |-(n : ℤ) + i| ≤ n := by rw [abs_le]; omega
      refine ⟨_, h _ hm t ht, ht, ?_⟩
      intro n' m' hm'
      simp only
      by_cases he : cell n' m' = cell n (-(n : ℤ) + i)
      · obtain ⟨rfl, rfl⟩ := cell_inj hm' hm he
        rw [Function.update_self, if_pos ⟨rfl, by push_cast; omega⟩, hv _ _ hm, if_neg (by omega)]
      · rw [Function.update_of_ne he, hv n' m' hm']
        by_cases hb : n' = n ∧ m' < -(n : ℤ) + i
        · rw [if_pos hb, if_pos ⟨hb.1, by push_cast; omega⟩]
        · rw [if_neg hb, if_neg]
          rintro ⟨rfl, h'⟩
          push_cast at h'
          have : m' = -(n' : ℤ) + i := by
            by_contra hne
            exact hb ⟨rfl, by omega⟩
          exact he (by rw [this]))
  refine ⟨c', h1, h2, fun n' m' hm' => ?_⟩
  rw [h3 n' m' hm']
  by_cases hb : n' = n
  · subst hb
    rw [abs_le] at hm'
    rw [if_pos ⟨rfl, by omega⟩, if_pos rfl]
  · rw [if_neg (fun h => hb h.1), if_neg hb]

/-- All rows of cells updated in order, with a running second component. -/
theorem grid_rmw {β : Type} {p : ℕ} (f : ℕ → Arr ℂ × β → Outcome (Arr ℂ × β)) (g : ℕ → ℤ → ℂ → ℂ) (y : ℕ → β) (c : Arr ℂ)
    (hc : c.size = (p + 1) * (p + 1))
    (h : ∀ n ≤ p, ∀ c' : Arr ℂ, c'.size = (p + 1) * (p + 1) → ∃ c'' : Arr ℂ, f n (c', y n) = .ok (c'', y (n + 1)) ∧
      c''.size = (p + 1) * (p + 1) ∧ ∀ (n' : ℕ) (m' : ℤ), |m'| ≤ n' →
        c''.val (cell n' m') = if n' = n then g n m' (c'.val (cell n m')) else c'.val (cell n' m')) :
    ∃ c' : Arr ℂ, loopM (p + 1) f (c, y 0) = .ok (c', y (p + 1)) ∧ c'.size = (p + 1) * (p + 1) ∧
      ∀ n ≤ p, ∀ m : ℤ, |m| ≤ n → c'.val (cell n m) = g n m (c.val (cell n m)) := by
  obtain ⟨t, h1, h2, h3, h4⟩ := loopM_invariant
    (fun i (t : Arr ℂ × β) => t.2 = y i ∧ t.1.size = (p + 1) * (p + 1) ∧ ∀ (n' : ℕ) (m' : ℤ), |m'| ≤ n' →
      t.1.val (cell n' m') = if n' < i then g n' m' (c.val (cell n' m')) else c.val (cell n' m'))
    f (c, y 0) (p + 1) ⟨rfl, hc, fun n' m' _ => by rw [if_neg (by omega)]⟩
    (by
      rintro i hi ⟨t, b⟩ ⟨rfl, ht, hv⟩
      obtain ⟨c'', h1, h2, h3⟩ := h i (by omega) t ht
      refine ⟨_, h1, rfl, h2, fun n' m' hm' => ?_⟩
      rw [h3 n' m' hm']
      by_cases hb : n' = i
      · subst hb
        rw [if_pos rfl, if_pos (by omega), hv _ _ hm', if_neg (by omega)]
      · rw [if_neg hb, hv _ _ hm']
        by_cases hlt : n' < i
        · rw [if_pos hlt, if_pos (by omega)]
        · rw [if_neg hlt, if_neg (by omega)])
  obtain ⟨t1, t2⟩ := t
  simp only at h2 h3 h4
  subst h2
  refine ⟨t1, h1, h3, fun n hn m hm => ?_⟩
  rw [h4 n m hm, if_pos (by omega)]

/-! ## Signs and normalisation -/

/-- Phase of the code's spherical harmonics relative to `sR`. -/
noncomputable def eS (m : ℤ) : ℝ := (-1) ^ (max m 0)

theorem iPow_two_mul (h : ℤ) : iPow (2 * h) = (-1 : ℝ) ^ h := by
  unfold iPow; rw [I_zpow_two_mul, Complex.ofReal_re]

/-- Values of the three sign functions. -/
noncomputable def sg1 (k m : ℤ) : ℝ := iPow (|k| - |m| - |k - m|)
noncomputable def sg2 (k m : ℤ) : ℝ := iPow (|k - m| - |k| - |m|)
noncomputable def sg3 (k m : ℤ) : ℝ := iPow (|m| - |m - k| - |k|)

theorem neg_one_zpow_congr {a b c : ℤ} (h : a = b + 2 * c) : (-1 : ℝ) ^ a = (-1) ^ b := by
  rw [h, zpow_add₀ (by norm_num), zpow_mul]; norm_num

theorem max_abs (m : ℤ) : 2 * max m 0 = |m| + m := by
  rcases abs_cases m with ⟨h1, h2⟩ | ⟨h1, h2⟩ <;> rw [h1] <;> omega

theorem sg1_eq (k m : ℤ) : sg1 k m * eS (-m) * eS (m - k) = eS (-k) := by
  have e : |k| - |m| - |k - m| = 2 * (max (-k) 0 - max (-m) 0 - max (m - k) 0) := by
    have h1 := max_abs (-k); have h2 := max_abs (-m); have h3 := max_abs (m - k)
    rw [abs_neg] at h1 h2
    rw [abs_sub_comm m k] at h3
    omega
  unfold sg1 eS
  rw [e, iPow_two_mul, ← zpow_add₀ (by norm_num), ← zpow_add₀ (by norm_num)]
  congr 1; ring

theorem sg2_eq (k m : ℤ) : sg2 k m * eS k * eS (-m) * eS (m - k) = (-1) ^ (k - m) := by
  have e : |k - m| - |k| - |m| = 2 * (|k - m| - max k 0 - max (-m) 0 - max (m - k) 0) := by
    have h1 := max_abs k; have h2 := max_abs (-m); have h3 := max_abs (m - k)
    rw [abs_neg] at h2
    rw [abs_sub_comm m k] at h3
    omega
  unfold sg2 eS
  rw [e, iPow_two_mul, ← zpow_add₀ (by norm_num), ← zpow_add₀ (by norm_num), ← zpow_add₀ (by norm_num)]
  have h3 := max_abs (m - k)
  rw [abs_sub_comm m k] at h3
  refine neg_one_zpow_congr (c := max (m - k) 0) ?_
  linarith

theorem sg3_eq (k m : ℤ) : sg3 k m * eS k * eS (m - k) * eS m = 1 := by
  have e : |m| - |m - k| - |k| = 2 * (max m 0 - max (m - k) 0 - max k 0) := by
    have h1 := max_abs m; have h2 := max_abs (m - k); have h3 := max_abs k
    omega
  unfold sg3 eS
  rw [e, iPow_two_mul, ← zpow_add₀ (by norm_num), ← zpow_add₀ (by norm_num), ← zpow_add₀ (by norm_num)]
  exact (neg_one_zpow_congr (b := 0) (c := max m 0) (by ring)).trans (zpow_zero _)

theorem eS_mul_neg (m : ℤ) : eS m * eS (-m) = (-1) ^ m := by
  unfold eS
  rw [← zpow_add₀ (by norm_num)]
  refine neg_one_zpow_congr (c := max (-m) 0) ?_
  omega

theorem eS_sq (m : ℤ) : eS m * eS m = 1 := by
  unfold eS
  rw [← zpow_add₀ (by norm_num)]
  exact (neg_one_zpow_congr (b := 0) (c := max m 0) (by ring)).trans (zpow_zero _)

/-- `sqrt((n-m)! (n+m)!)`. -/
noncomputable def cN (n : ℕ) (m : ℤ) : ℝ :=
  Real.sqrt (((n - m).toNat.factorial : ℝ) * ((n + m).toNat.factorial : ℝ))

theorem cN_pos (n : ℕ) (m : ℤ) : 0 < cN n m := by
  unfold cN
  apply Real.sqrt_pos.mpr
  positivity

theorem cN_neg (n : ℕ) (m : ℤ) : cN n (-m) = cN n m := by
  unfold cN; rw [sub_neg_eq_add, ← sub_eq_add_neg, mul_comm]

theorem cN_sq (n : ℕ) (m : ℤ) : ((cN n m : ℂ)) * cN n m = fF n m := by
  rw [← Complex.ofReal_mul]
  unfold cN fF
  rw [Real.mul_self_sqrt (by positivity)]
  push_cast; ring

theorem aSpec_eq (n : ℕ) (m : ℤ) : aSpec n m = (-1) ^ n / cN n m := rfl

theorem aSpec_ne_zero (n : ℕ) (m : ℤ) : aSpec n m ≠ 0 := by
  rw [aSpec_eq]
  exact div_ne_zero (pow_ne_zero _ (by norm_num)) (cN_pos n m).ne'

/-- The code's `r^n Y_n^m` of a vector. -/
noncomputable def rY (v : Vec 3) (n : ℕ) (m : ℤ) : ℂ := (eS m : ℂ) * (cN n m : ℂ) * sR v n m

theorem rY_out (v : Vec 3) (n : ℕ) (m : ℤ) (h : (n : ℤ) < |m|) : rY v n m = 0 := by
  unfold rY; rw [sR_out v n m h, mul_zero]

theorem conj_rY (v : Vec 3) (n : ℕ) (m : ℤ) : (starRingEnd ℂ) (rY v n m) = rY v n (-m) := by
  unfold rY
  rw [map_mul, map_mul, Complex.conj_ofReal, Complex.conj_ofReal, sR_conj, cN_neg]
  have h : (eS m : ℂ) * (-1) ^ m = eS (-m) := by
    have h1 := eS_mul_neg m
    have h2 := eS_sq m
    have : eS m * (-1) ^ m = eS (-m) := by rw [← h1, ← mul_assoc, h2, one_mul]
    rw [← this]; push_cast; rfl
  linear_combination (cN n m : ℂ) * sR v n (-m) * h

/-! ## Spherical harmonics -/

/-- Direction with the given angles. -/
noncomputable def dirV (theta phi : ℝ) : Vec 3 :=
  ![Real.sin theta * Real.cos phi, Real.sin theta * Real.sin phi, Real.cos theta]

theorem sph_smul (v : Vec 3) : v = (v.toSpherical3 0) • dirV (v.toSpherical3 1) (v.toSpherical3 2) := by
  have h := C47_roundtrip3 v
  conv_lhs => rw [← h]
  ext i; fin_cases i <;> simp [Vec.toCartesian3, dirV, mul_assoc]

theorem sph_sin_nonneg (v : Vec 3) : 0 ≤ Real.sin (v.toSpherical3 1) := by
  obtain ⟨-, -, h1, h2, -⟩ := C47_ranges 0 v
  exact Real.sin_nonneg_of_nonneg_of_le_pi h1 h2

theorem sph_r (v : Vec 3) : v.toSpherical3 0 = len3 v := by rw [len3_eq_norm]; rfl

theorem rY_sph (v : Vec 3) (n : ℕ) (m : ℤ) :
    rY v n m = (len3 v : ℂ) ^ n * rY (dirV (v.toSpherical3 1) (v.toSpherical3 2)) n m := by
  unfold rY
  conv_lhs => rw [sph_smul v, sR_smul, sph_r]
  ring

theorem schmidt_rY {theta phi : ℝ} (hs : 0 ≤ Real.sin theta) {l k : ℕ} (hk : k ≤ l) :
    (if k = 0 then ((schmidt (-1) l 0 (Real.cos theta) : ℝ) : ℂ)
      else ((schmidt (-1) l k (Real.cos theta) : ℝ) : ℂ) * Complex.exp (Complex.I * phi) ^ k / (Real.sqrt 2 : ℂ))
      = rY (dirV theta phi) l k := by
  have hR := sR_legendre theta phi l k
  have hsq : Real.sqrt (1 - Real.cos theta ^ 2) = Real.sin theta := by
    rw [show 1 - Real.cos theta ^ 2 = Real.sin theta ^ 2 by have := Real.sin_sq_add_cos_sq theta; linarith,
      Real.sqrt_sq hs]
  unfold rY dirV
  rw [hR]
  have heS : eS (k : ℤ) = (-1) ^ k := by
    unfold eS; rw [max_eq_left (by omega), zpow_natCast]
  rw [heS]
  by_cases h0 : k = 0
  · subst h0
    rw [if_pos rfl]
    unfold schmidt cN
    simp only [Nat.cast_zero, sub_zero, add_zero, Int.toNat_natCast, pow_zero, Function.iterate_zero_apply, one_mul, if_true]
    rw [Real.sqrt_mul_self (by positivity), ← Complex.ofReal_mul, ← Complex.ofReal_mul]
    congr 1
    have : (l.factorial : ℝ) ≠ 0 := by exact_mod_cast l.factorial_ne_zero
    field_simp
  · rw [if_neg h0]
    unfold schmidt cN
    rw [if_neg h0, hsq, show ((l : ℤ) - k).toNat = l - k by omega, show ((l : ℤ) + k).toNat = l + k by omega]
    set a : ℝ := ((l - k).factorial : ℝ) with ha
    set b : ℝ := ((l + k).factorial : ℝ) with hb
    have ha0 : 0 < a := by rw [ha]; positivity
    have hb0 : 0 < b := by rw [hb]; positivity
    have hq : Real.sqrt (2 * a / b) = Real.sqrt 2 * (Real.sqrt (a * b) / b) := by
      rw [show 2 * a / b = 2 * (a * b / b ^ 2) by field_simp, Real.sqrt_mul (by norm_num), Real.sqrt_div (by positivity),
        Real.sqrt_sq hb0.le]
    rw [hq]
    have h2 : (Real.sqrt 2 : ℂ) ≠ 0 := by
      exact_mod_cast (Real.sqrt_pos.mpr (by norm_num : (0 : ℝ) < 2)).ne'
    have hb0' : (b : ℂ) ≠ 0 := by exact_mod_cast hb0.ne'
    set D : ℝ := (Polynomial.derivative^[k] (legendreP l)).eval (Real.cos theta)
    set E := Complex.exp (Complex.I * phi) ^ k
    set s := Real.sin theta
    set q := Real.sqrt (a * b)
    clear_value D E s q a b
    push_cast
    field_simp

namespace YlmTable

theorem stepM_ok {lmax l i : ℕ} {theta phi : ℝ} (hs : 0 ≤ Real.sin theta) (hl : l ≤ lmax) (hi : i < l)
    (t : Arr ℂ) (ht : t.size = (lmax + 1) * (lmax + 1)) :
    stepM (fun l m => if m ≤ l ∧ l ≤ lmax then .ok (schmidt (-1) l m (Real.cos theta)) else .error .ub)
      (Complex.exp (Complex.I * phi)) l i (t, Complex.exp (Complex.I * phi) ^ (i + 1))
      = .ok (⟨t.size, Function.update (Function.update t.val (cell l ((i : ℤ) + 1)) (rY (dirV theta phi) l ((i : ℤ) + 1)))
          (cell l (-((i : ℤ) + 1))) (rY (dirV theta phi) l (-((i : ℤ) + 1)))⟩, Complex.exp (Complex.I * phi) ^ (i + 1 + 1)) := by
  have h := schmidt_rY (phi := phi) hs (show i + 1 ≤ l from hi)
  rw [if_neg (by omega)] at h
  push_cast at h
  unfold stepM
  simp only
  rw [if_pos ⟨hi, hl⟩, ok_bind]
  push_cast
  rw [h, wrZ_cell ht hl (by rw [abs_le]; omega), ok_bind]
  have ht2 : (⟨t.size, Function.update t.val (cell l ((i : ℤ) + 1)) (rY (dirV theta phi) l ((i : ℤ) + 1))⟩ : Arr ℂ).size
      = (lmax + 1) * (lmax + 1) := ht
  rw [wrZ_cell ht2 hl (by rw [abs_le]; omega), ok_bind, conj_rY]
  simp only [Except.ok.injEq, Prod.mk.injEq, true_and]
  rw [pow_succ _ (i + 1)]

theorem stepL_ok {lmax l : ℕ} {theta phi : ℝ} (hs : 0 ≤ Real.sin theta) (hl : l ≤ lmax) (t : Arr ℂ)
    (ht : t.size = (lmax + 1) * (lmax + 1)) :
    ∃ t', stepL (fun l m => if m ≤ l ∧ l ≤ lmax then .ok (schmidt (-1) l m (Real.cos theta)) else .error .ub) phi l t
      = .ok t' ∧ t'.size = (lmax + 1) * (lmax + 1) ∧ ∀ (l' : ℕ) (m' : ℤ), |m'| ≤ l' →
        t'.val (cell l' m') = if l' = l then rY (dirV theta phi) l m' else t.val (cell l' m') := by
  unfold stepL
  simp only
  rw [if_pos ⟨by omega, hl⟩, ok_bind, wrZ_cell ht hl (by simp), ok_bind]
  have h0 := schmidt_rY (phi := phi) hs (show 0 ≤ l by omega)
  rw [if_pos rfl] at h0
  rw [h0]
  obtain ⟨⟨t', b⟩, h1, h2, h3, h4⟩ := loopM_invariant
    (fun i (s : Arr ℂ × ℂ) => s.2 = Complex.exp (Complex.I * phi) ^ (i + 1) ∧ s.1.size = (lmax + 1) * (lmax + 1) ∧
      ∀ (l' : ℕ) (m' : ℤ), |m'| ≤ l' →
        s.1.val (cell l' m') = if l' = l ∧ |m'| ≤ i then rY (dirV theta phi) l m' else t.val (cell l' m'))
    (stepM (fun l m => if m ≤ l ∧ l ≤ lmax then .ok (schmidt (-1) l m (Real.cos theta)) else .error .ub)
      (Complex.exp (Complex.I * phi)) l)
    (⟨t.size, Function.update t.val (cell l 0) (rY (dirV theta phi) l ((0 : ℕ) : ℤ))⟩, Complex.exp (Complex.I * phi)) l
    ⟨by simp, ht, fun l' m' hm' => by
      simp only
      by_cases he : cell l' m' = cell l 0
      · obtain ⟨rfl, rfl⟩ := cell_inj hm' (by simp) he
        rw [Function.update_self, if_pos ⟨rfl, by simp⟩]; rfl
      · rw [Function.update_of_ne he, if_neg]
        rintro ⟨rfl, h⟩
        have h0' : m' = 0 := abs_eq_zero.mp (le_antisymm (by simpa using h) (abs_nonneg _))
        exact he (by rw [h0'])⟩
    (by
      rintro i hi ⟨s, b⟩ ⟨rfl, hsz, hv⟩
      refine ⟨_, stepM_ok hs hl hi s hsz, rfl, hsz, fun l' m' hm' => ?_⟩
      simp only
      by_cases he1 : cell l' m' = cell l (-((i : ℤ) + 1))
      · obtain ⟨rfl, rfl⟩ := cell_inj hm' (by rw [abs_le]; omega) he1
        rw [Function.update_self, if_pos ⟨rfl, by rw [abs_le]; push_cast; omega⟩]
      · rw [Function.update_of_ne he1]
        by_cases he2 : cell l' m' = cell l ((i : ℤ) + 1)
        · obtain ⟨rfl, rfl⟩ := cell_inj hm' (by rw [abs_le]; omega) he2
          rw [Function.update_self, if_pos ⟨rfl, by rw [abs_le]; push_cast; omega⟩]
        · rw [Function.update_of_ne he2, hv l' m' hm']
          by_cases hb : l' = l ∧ |m'| ≤ (i : ℕ)
          · rw [if_pos hb, if_pos ⟨hb.1, by push_cast; omega⟩]
          · rw [if_neg hb, if_neg]
            rintro ⟨rfl, h⟩
            push_cast at h
            have : |m'| = i + 1 := by
              by_contra hne
              exact hb ⟨rfl, by omega⟩
            rcases abs_cases m' with ⟨h', -⟩ | ⟨h', -⟩
            · exact he2 (by rw [← this, h'])
            · exact he1 (by rw [← this, h', neg_neg]))
  refine ⟨t', ?_, h3, fun l' m' hm' => ?_⟩
  · rw [h1]; rfl
  · rw [h4 l' m' hm']
    by_cases hb : l' = l
    · subst hb; rw [if_pos ⟨rfl, hm'⟩, if_pos rfl]
    · rw [if_neg (fun h => hb h.1), if_neg hb]

/-- Contents of the table of spherical harmonics. -/
theorem make_ok (lmax : ℕ) {theta : ℝ} (phi : ℝ) (hs : 0 ≤ Real.sin theta) :
    ∃ t, make lmax theta phi = .ok t ∧ ∀ l ≤ lmax, ∀ m : ℤ, |m| ≤ l → t.get l m = .ok (rY (dirV theta phi) l m) := by
  unfold make gslLegendre
  rw [if_pos (Real.abs_cos_le_one theta), ok_bind]
  obtain ⟨t, h1, h2, h3⟩ := loopM_invariant
    (fun i (t : Arr ℂ) => t.size = (lmax + 1) * (lmax + 1) ∧ ∀ l, l < i → ∀ m : ℤ, |m| ≤ l →
      t.val (cell l m) = rY (dirV theta phi) l m)
    (stepL (fun l m => if m ≤ l ∧ l ≤ lmax then .ok (schmidt (-1) l m (Real.cos theta)) else .error .ub) phi)
    (Arr.new ((lmax + 1) * (lmax + 1))) (lmax + 1) ⟨rfl, fun l hl => by omega⟩
    (by
      rintro i hi t ⟨ht, hv⟩
      obtain ⟨t', h1, h2, h3⟩ := stepL_ok (phi := phi) hs (show i ≤ lmax by omega) t ht
      refine ⟨t', h1, h2, fun l hl m hm => ?_⟩
      rw [h3 l m hm]
      by_cases hb : l = i
      · subst hb; rw [if_pos rfl]
      · rw [if_neg hb]; exact hv l (by omega) m hm)
  rw [h1, ok_bind]
  refine ⟨_, rfl, fun l hl m hm => ?_⟩
  unfold get
  rw [rdZ_cell h2 hl hm, h3 l (by omega) m hm]

end YlmTable

/-! ## The static tables -/

/-- Invariant of the static tables. -/
structure Stat3.Good (st : Stat3) : Prop where
  alm : st.alm.Good
  s1 : st.s1.Good sg1
  s2 : st.s2.Good sg2
  s3 : st.s3.Good sg3
  m1 : st.s1.maxOrder = st.alm.maxOrder
  m2 : st.s2.maxOrder = st.alm.maxOrder
  m3 : st.s3.maxOrder = st.alm.maxOrder

/-- The static tables at program start, series_expansion.hpp:130-133 (`o1`, `o2`, `o3`: the uninitialised offsets). -/
def Stat3.init (o1 o2 o3 : ℤ) : Stat3 := ⟨AlmTable.init, SignTable.init o1, SignTable.init o2, SignTable.init o3⟩

theorem Stat3.good_init (o1 o2 o3 : ℤ) : (Stat3.init o1 o2 o3).Good :=
  ⟨AlmTable.good_init, SignTable.good_init _ _, SignTable.good_init _ _, SignTable.good_init _ _, rfl, rfl, rfl⟩

theorem AlmTable.get_ok {t : AlmTable} (ht : t.Good) (h0 : 0 < t.maxOrder) {l : ℕ} {m : ℤ} (hl : l ≤ 2 * t.maxOrder)
    (hm : |m| ≤ l) : t.get l m = .ok (aSpec l m) := by
  unfold AlmTable.get
  obtain ⟨h1, h2⟩ := lmIndex_bounds hm hl
  rw [Arr.rdZ_ok _ h1 (by rw [ht.size, if_neg (by omega)]; exact h2), ht.val h0 l hl m hm]

theorem SignTable.get_ok {t : SignTable} {g : ℤ → ℤ → ℝ} (ht : t.Good g) (h0 : 0 < t.maxOrder) {k m : ℤ}
    (hk : |k| ≤ t.maxOrder) (hm : |m| ≤ t.maxOrder) : t.get k m = .ok (g k m) := by
  unfold SignTable.get
  obtain ⟨h1, h2⟩ := signIndex_bounds hk hm
  rw [← ht.off h0] at h1 h2
  rw [Arr.rdZ_ok _ h1 (by rw [ht.size, if_neg (by omega)]; exact h2), ht.val h0 k m hk hm]

end FMM
