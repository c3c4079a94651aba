import Verif.SolidGrad
import Verif.Exp3Bounds
import Verif.BoxDist

/-!
# Error bounds of the force fields of the 3D expansions
-/

namespace FMM
open Finset

/-! ## The pairing and its derivative -/

/-- Derivative of `sK n u h` in `u`. -/
noncomputable def sKD (n : ℕ) (u e h : Vec 3) : ℂ :=
  ∑ m ∈ Icc (-(n : ℤ)) n, (-1) ^ m * fF n m * sD u e n m * sR h n (-m)

theorem sKD_zero (u e h : Vec 3) : sKD 0 u e h = 0 := by simp [sKD, sD_zero]

theorem sK_line (n : ℕ) (u e h : Vec 3) (t : ℝ) :
    HasDerivAt (fun t : ℝ => sK n (u + t • e) h) (sKD n (u + t • e) e h) t := by
  unfold sK sKD
  exact HasDerivAt.fun_sum fun m _ => ((sR_line u e n m t).const_mul _).mul_const _

theorem sR_vec_zero (n : ℕ) (m : ℤ) : sR 0 (n + 1) m = 0 := by
  have := sR_smul 0 (0 : Vec 3) (n + 1) m
  rw [zero_smul] at this
  rw [this]; simp

theorem sTD_self (n : ℕ) (u e h : Vec 3) : sTD n n u e 0 h = sKD n u e h := by
  unfold sTD sKD
  refine sum_congr rfl fun m hm => ?_
  have : ∑ k ∈ Icc (-(n : ℤ)) n, sD u e n k * sR 0 (n - n) (m - k) = sD u e n m := by
    rw [sum_eq_single_of_mem m hm]
    · rw [Nat.sub_self, sR_zero, sub_self, if_pos rfl, mul_one]
    · intro k _ hk
      rw [Nat.sub_self, sR_zero, if_neg (sub_ne_zero.mpr hk.symm), mul_zero]
  rw [this]

theorem sTD_vec_zero (j n : ℕ) (u e h : Vec 3) : sTD (j + (n + 1)) j u e 0 h = 0 := by
  unfold sTD
  refine sum_eq_zero fun m _ => ?_
  rw [sum_eq_zero fun k _ => ?_]
  · ring
  · rw [Nat.add_sub_cancel_left, sR_vec_zero, mul_zero]

/-- Truncation error of the gradient of the Legendre series. -/
theorem single_cut_grad (u e h : Vec 3) (hlt : len3 u < len3 h) (k : ℕ) :
    ‖((dot3 (h - u) e / len3 (h - u) ^ 3 : ℝ) : ℂ) - ∑ n ∈ range (k + 1), sKD n u e h / (len3 h : ℂ) ^ (2 * n + 1)‖
      ≤ len3 e * gB k (len3 u) (len3 h) := by
  have h0 : len3 (0 : Vec 3) = 0 := by simp [len3, dot3]
  have := double_cut_grad u e 0 h (by rw [h0]; linarith) k (range (k + 1) ×ˢ range (k + 1)) (by
    intro j n hjn
    rw [mem_product, mem_range, mem_range]
    omega)
  rw [h0, add_zero, add_zero, sum_product] at this
  refine le_trans (le_of_eq ?_) this
  congr 2
  refine sum_congr rfl fun j _ => ?_
  rw [sum_range_succ']
  simp only [sTD_vec_zero, zero_div, sum_const_zero, zero_add, add_zero, sTD_self]

/-- Derivative in the far vector. -/
theorem sKD_kelvin (n : ℕ) (u e h : Vec 3) :
    ((dot3 h h : ℝ) : ℂ) * sKD n h e u - (2 * (n : ℂ) + 1) * ((dot3 h e : ℝ) : ℂ) * sK n h u = - sKD (n + 1) u e h := by
  have hN : ∀ f : ℤ → ℂ, (∀ k, (n : ℤ) < |k| → f k = 0) →
      ∑ m ∈ Icc (-(n : ℤ)) n, f m = ∑ m ∈ Icc (-((n : ℤ) + 2)) (n + 2), f m :=
    fun f hf => (sum_Icc_ext hf (by omega)).symm
  have hout : ∀ k : ℤ, (n : ℤ) < |k| → sR u n (-k) = 0 := fun k hk => sR_out u n (-k) (by rwa [abs_neg])
  have h1 : ((dot3 h h : ℝ) : ℂ) * sKD n h e u - (2 * (n : ℂ) + 1) * ((dot3 h e : ℝ) : ℂ) * sK n h u
      = -∑ m ∈ Icc (-(n : ℤ)) n, (-1) ^ m * sR u n (-m) * ((e 2 : ℂ) * fF (n + 1) m * sR h (n + 1) m
        - wv e / 2 * fF (n + 1) (m - 1) * sR h (n + 1) (m - 1) + wc e / 2 * fF (n + 1) (m + 1) * sR h (n + 1) (m + 1)) := by
    unfold sKD sK
    rw [mul_sum, mul_sum, ← sum_sub_distrib, ← sum_neg_distrib]
    refine sum_congr rfl fun m hm => ?_
    rw [mem_Icc] at hm
    have hm' : |m| ≤ n := abs_le.mpr hm
    rw [fF_mid hm', fF_up hm', fF_down hm']
    linear_combination (-(-1) ^ m * fF n m * sR u n (-m)) * sR_kelvin h e n m
  rw [h1]
  congr 1
  have h2 : sKD (n + 1) u e h = ∑ m ∈ Icc (-((n : ℤ) + 1)) (n + 1), (-1) ^ m * fF (n + 1) m * sD u e (n + 1) (-m) * sR h (n + 1) m := by
    unfold sKD
    push_cast
    refine sum_nbij' (fun m => -m) (fun m => -m) ?_ ?_ ?_ ?_ ?_
    · intro m hm; rw [mem_Icc] at hm ⊢; omega
    · intro m hm; rw [mem_Icc] at hm ⊢; omega
    · intro m _; simp
    · intro m _; simp
    · intro m _
      rw [neg_neg, fF_neg, zpow_neg, ← inv_zpow, show (-1 : ℂ)⁻¹ = -1 by norm_num]
  rw [h2]
  have h3 : ∑ m ∈ Icc (-((n : ℤ) + 1)) (n + 1), (-1) ^ m * fF (n + 1) m * sD u e (n + 1) (-m) * sR h (n + 1) m
      = ∑ m ∈ Icc (-((n : ℤ) + 2)) (n + 2), (-1) ^ m * fF (n + 1) m * sD u e (n + 1) (-m) * sR h (n + 1) m := by
    refine (sum_Icc_ext (fun k hk => ?_) (by omega)).symm
    rw [sR_out h (n + 1) k (by push_cast; exact hk), mul_zero]
  rw [h3, hN _ fun k hk => by rw [hout k hk]; ring]
  have e1 : ∀ m : ℤ, (-1 : ℂ) ^ m * fF (n + 1) m * sD u e (n + 1) (-m) * sR h (n + 1) m
      = (-1) ^ m * sR u n (-m) * ((e 2 : ℂ) * fF (n + 1) m * sR h (n + 1) m)
        + (-1) ^ m * fF (n + 1) m * sR h (n + 1) m * (wv e / 2 * sR u n (-m - 1))
        - (-1) ^ m * fF (n + 1) m * sR h (n + 1) m * (wc e / 2 * sR u n (-m + 1)) := by
    intro m; rw [sD_succ]; ring
  simp only [e1, mul_add, mul_sub, sum_add_distrib, sum_sub_distrib]
  have hA : ∑ m ∈ Icc (-((n : ℤ) + 2)) (n + 2), (-1 : ℂ) ^ m * fF (n + 1) m * sR h (n + 1) m * (wv e / 2 * sR u n (-m - 1))
      = -∑ m ∈ Icc (-((n : ℤ) + 2)) (n + 2), (-1) ^ m * sR u n (-m) * (wv e / 2 * fF (n + 1) (m - 1) * sR h (n + 1) (m - 1)) := by
    have hh := sum_shift (N := (n : ℤ) + 2) (f := fun m => -((-1 : ℂ) ^ m * sR u n (-m) * (wv e / 2 * fF (n + 1) (m - 1) * sR h (n + 1) (m - 1)))) 1
      (fun k hk => by rw [hout k (by omega)]; ring)
      (fun k hk => by
        rw [add_sub_cancel_right, sR_out h (n + 1) k (by push_cast; omega)]; ring)
    rw [← sum_neg_distrib, ← hh]
    refine sum_congr rfl fun m _ => ?_
    rw [add_sub_cancel_right, zpow_add₀ (by norm_num), zpow_one, show -(m + 1) = -m - 1 by ring]
    ring
  have hB : ∑ m ∈ Icc (-((n : ℤ) + 2)) (n + 2), (-1 : ℂ) ^ m * fF (n + 1) m * sR h (n + 1) m * (wc e / 2 * sR u n (-m + 1))
      = -∑ m ∈ Icc (-((n : ℤ) + 2)) (n + 2), (-1) ^ m * sR u n (-m) * (wc e / 2 * fF (n + 1) (m + 1) * sR h (n + 1) (m + 1)) := by
    have hh := sum_shift (N := (n : ℤ) + 2) (f := fun m => -((-1 : ℂ) ^ m * sR u n (-m) * (wc e / 2 * fF (n + 1) (m + 1) * sR h (n + 1) (m + 1)))) (-1)
      (fun k hk => by rw [hout k (by omega)]; ring)
      (fun k hk => by
        rw [neg_add_cancel_right, sR_out h (n + 1) k (by push_cast; omega)]; ring)
    rw [← sum_neg_distrib, ← hh]
    refine sum_congr rfl fun m _ => ?_
    rw [neg_add_cancel_right, zpow_add₀ (by norm_num), zpow_neg_one, show -(m + -1) = -m + 1 by ring]
    norm_num
    ring
  rw [hA, hB]
  ring

/-! ## Gradients of the expansions of sources -/

theorem hasDerivAt_list {α : Type} (S : List α) (f : α → ℝ → ℂ) (f' : α → ℂ) (t : ℝ) (h : ∀ s ∈ S, HasDerivAt (f s) (f' s) t) :
    HasDerivAt (fun t => (S.map fun s => f s t).sum) (S.map f').sum t := by
  induction S with
  | nil => simpa using hasDerivAt_const t (0 : ℂ)
  | cons s S ih =>
    simp only [List.map_cons, List.sum_cons]
    exact (h s (by simp)).add (ih fun s' hs' => h s' (by simp [hs']))

theorem leGrad3_line (a : ℕ → ℤ → ℂ) (p : ℕ) (v e : Vec 3) :
    HasDerivAt (fun t : ℝ => leSum3 a p (v + t • e)) (leGrad3 a p v e) 0 := by
  unfold leSum3 leGrad3
  refine HasDerivAt.fun_sum fun n _ => HasDerivAt.fun_sum fun m _ => ?_
  have h1 : HasFDerivAt (fun v => rY v n m) (rDL v n m) ((fun t : ℝ => v + t • e) 0) := by
    simp only [zero_smul, add_zero]; exact rY_hasFDerivAt v n m
  exact (h1.comp_hasDerivAt 0 (line_hasDerivAt v e 0)).const_mul _

theorem meGrad3_line (a : ℕ → ℤ → ℂ) (p : ℕ) {v : Vec 3} (hv : v ≠ 0) (e : Vec 3) :
    HasDerivAt (fun t : ℝ => meSum3 a p (v + t • e)) (meGrad3 a p v e) 0 := by
  unfold meSum3 meGrad3
  refine HasDerivAt.fun_sum fun n _ => HasDerivAt.fun_sum fun m _ => ?_
  have h1 : HasFDerivAt (fun v => rY v n m / (len3 v : ℂ) ^ (2 * n + 1)) (iDL v n m) ((fun t : ℝ => v + t • e) 0) := by
    simp only [zero_smul, add_zero]; exact irr_hasFDerivAt hv n m
  exact (h1.comp_hasDerivAt 0 (line_hasDerivAt v e 0)).const_mul _

theorem leGrad3_m2l (p : ℕ) (c h : Vec 3) (S : List (Source 3)) (y e : Vec 3) :
    leGrad3 (m2lC p (meCoeff3 c S) h) p y e = (S.map fun s => (s.q : ℂ) * ∑ x ∈ range (p + 1) ×ˢ range (p + 1),
      sTD (x.1 + x.2) x.1 y e (-(s.pos - c)) h / (len3 h : ℂ) ^ (2 * (x.1 + x.2) + 1)).sum := by
  have h1 := leGrad3_line (m2lC p (meCoeff3 c S) h) p y e
  simp only [m2lC_sources] at h1
  refine h1.unique (hasDerivAt_list S _ _ 0 fun s _ => HasDerivAt.const_mul _ (HasDerivAt.fun_sum fun x _ => ?_))
  have := (sT_line (x.1 + x.2) x.1 y e (-(s.pos - c)) h 0).div_const ((len3 h : ℂ) ^ (2 * (x.1 + x.2) + 1))
  simpa only [zero_smul, add_zero] using this

theorem leGrad3_sources (c : Vec 3) (S : List (Source 3)) (p : ℕ) (v e : Vec 3) :
    leGrad3 (leCoeff3 c S) p v e = (S.map fun s => (s.q : ℂ) *
      ∑ n ∈ range (p + 1), sKD n v e (s.pos - c) / (len3 (s.pos - c) : ℂ) ^ (2 * n + 1)).sum := by
  have h1 := leGrad3_line (leCoeff3 c S) p v e
  simp only [leSum3_sources, sK_symm _ (_ - c)] at h1
  refine h1.unique (hasDerivAt_list S _ _ 0 fun s _ => HasDerivAt.const_mul _ (HasDerivAt.fun_sum fun n _ => ?_))
  have := (sK_line n v e (s.pos - c) 0).div_const ((len3 (s.pos - c) : ℂ) ^ (2 * n + 1))
  simpa only [zero_smul, add_zero] using this

theorem meGrad3_sources (c : Vec 3) (S : List (Source 3)) (p : ℕ) {v : Vec 3} (hv : v ≠ 0) (e : Vec 3) :
    meGrad3 (meCoeff3 c S) p v e = (S.map fun s => (s.q : ℂ) *
      -∑ n ∈ range (p + 2), sKD n (s.pos - c) e v / (len3 v : ℂ) ^ (2 * n + 1)).sum := by
  have h0 : (len3 v : ℂ) ≠ 0 := by exact_mod_cast (len3_pos hv).ne'
  have hsq : ((dot3 v v : ℝ) : ℂ) = (len3 v : ℂ) ^ 2 := by rw [← len3_sq]; push_cast; ring
  have h1 : meGrad3 (meCoeff3 c S) p v e = (S.map fun s => (s.q : ℂ) * ∑ n ∈ range (p + 1),
      -(sKD (n + 1) (s.pos - c) e v / (len3 v : ℂ) ^ (2 * (n + 1) + 1))).sum := by
    unfold meGrad3 meCoeff3
    simp only [list_sum_mul, sum_list_sum]
    congr 1
    refine List.map_congr_left fun s _ => ?_
    rw [mul_sum]
    refine sum_congr rfl fun n _ => ?_
    have e1 : ∑ m ∈ Icc (-(n : ℤ)) n, rY (s.pos - c) n (-m) * rD v e n m = sKD n v e (s.pos - c) := by
      have a1 : HasDerivAt (fun t : ℝ => ∑ m ∈ Icc (-(n : ℤ)) n, rY (s.pos - c) n (-m) * rY (v + t • e) n m)
          (∑ m ∈ Icc (-(n : ℤ)) n, rY (s.pos - c) n (-m) * rD v e n m) 0 := by
        refine HasDerivAt.fun_sum fun m _ => ?_
        have h1 : HasFDerivAt (fun v => rY v n m) (rDL v n m) ((fun t : ℝ => v + t • e) 0) := by
          simp only [zero_smul, add_zero]; exact rY_hasFDerivAt v n m
        exact (h1.comp_hasDerivAt 0 (line_hasDerivAt v e 0)).const_mul _
      simp only [rY_pair] at a1
      have a2 := sK_line n v e (s.pos - c) 0
      simp only [zero_smul, add_zero] at a2
      exact a1.unique a2
    have e2 := rY_pair n (s.pos - c) v
    have hk := sKD_kelvin n (s.pos - c) e v
    rw [hsq] at hk
    calc _ = (s.q : ℂ) * ((∑ m ∈ Icc (-(n : ℤ)) n, rY (s.pos - c) n (-m) * rD v e n m) / (len3 v : ℂ) ^ (2 * n + 1)
          - (2 * n + 1) * (dot3 v e : ℂ) * (∑ m ∈ Icc (-(n : ℤ)) n, rY (s.pos - c) n (-m) * rY v n m) / (len3 v : ℂ) ^ (2 * n + 3)) := by
          rw [sum_div, mul_sum, sum_div, ← sum_sub_distrib, mul_sum]
          refine sum_congr rfl fun m _ => ?_
          unfold iD
          ring
      _ = (s.q : ℂ) * (((len3 v : ℂ) ^ 2 * sKD n v e (s.pos - c) - (2 * (n : ℂ) + 1) * ((dot3 v e : ℝ) : ℂ) * sK n v (s.pos - c))
          / (len3 v : ℂ) ^ (2 * n + 3)) := by
          rw [e1, e2]
          field_simp
          ring
      _ = _ := by
          rw [hk, show 2 * (n + 1) + 1 = 2 * n + 3 by ring, neg_div]
  rw [h1]
  congr 1
  refine List.map_congr_left fun s _ => ?_
  rw [sum_range_succ' _ (p + 1), sKD_zero, zero_div, add_zero, sum_neg_distrib]

/-! ## Bounds -/

/-- A vector whose components are the values of a linear form on the unit vectors. -/
theorem vec_bound (f : Vec 3 → ℝ) (ha : ∀ e g, f (e + g) = f e + f g) (hs : ∀ (t : ℝ) e, f (t • e) = t * f e)
    (G : Vec 3) {B : ℝ} (hB : 0 ≤ B) (h : ∀ e, |f e - dot3 G e| ≤ B * len3 e) : dist2 (fun i => f (unitV i)) G ≤ B := by
  set F : Vec 3 := fun i => f (unitV i) with hF
  have hlin : ∀ e, f e = dot3 F e := by
    intro e
    have : e = e 0 • unitV 0 + e 1 • unitV 1 + e 2 • unitV 2 := by
      funext i; fin_cases i <;> simp [unitV]
    conv_lhs => rw [this]
    rw [ha, ha, hs, hs, hs]
    simp only [dot3, hF]; ring
  rw [← len3_eq_dist2]
  have h1 := h (F - G)
  rw [hlin] at h1
  have e1 : dot3 F (F - G) - dot3 G (F - G) = dot3 (F - G) (F - G) := by simp only [dot3, Pi.sub_apply]; ring
  rw [e1, ← len3_sq] at h1
  have h2 := le_trans (le_abs_self _) h1
  have h3 := len3_nonneg (F - G)
  by_contra hc
  push Not at hc
  nlinarith

theorem dot3_directField (S : List (Source 3)) (y e : Vec 3) (h : ∀ s ∈ S, s.pos ≠ y) :
    dot3 (directField true S y 0) e = (S.map fun s => s.q * (dot3 (s.pos - y) e / len3 (s.pos - y) ^ 3)).sum := by
  induction S with
  | nil => simp [directField, dot3]
  | cons s S ih =>
    have h1 := ih fun t ht => h t (by simp [ht])
    unfold directField at h1 ⊢
    rw [List.map_cons, List.sum_cons, List.map_cons, List.sum_cons, ← h1]
    have e1 : dot3 (directFieldTerm true y 0 s) e = s.q * (dot3 (s.pos - y) e / len3 (s.pos - y) ^ 3) := by
      unfold directFieldTerm
      rw [if_neg (h s (by simp)), len3_eq_dist2]
      simp only [dot3, fieldSpec, sgn, forceDenom, Pi.sub_apply]
      norm_num
      ring
    rw [← e1]
    simp only [dot3, Pi.add_apply]; ring

theorem list_bound_grad (S : List (Source 3)) (F : Source 3 → ℂ) (G : Source 3 → ℝ) (B : ℝ)
    (h : ∀ s ∈ S, ‖((G s : ℝ) : ℂ) - F s‖ ≤ B) :
    |((S.map fun s => (s.q : ℂ) * F s).sum).re - (S.map fun s => s.q * G s).sum| ≤ totalStrength S * B := by
  have h1 := list_bound S F G B h
  rw [← abs_neg] at h1
  refine le_trans (le_of_eq ?_) h1
  congr 1
  have : (S.map fun s => s.q * -(G s)).sum = -(S.map fun s => s.q * G s).sum := by
    induction S with
    | nil => simp
    | cons s S ih =>
      simp only [List.map_cons, List.sum_cons]
      have hS : ∀ s ∈ S, ‖((G s : ℝ) : ℂ) - F s‖ ≤ B := fun t ht => h t (by simp [ht])
      have hl := list_bound S F G B hS
      rw [← abs_neg] at hl
      rw [ih hS hl]; ring
  rw [this]; ring

/-- Multipole expansion. -/
theorem me_force_bound3 (c x : Vec 3) (p : ℕ) (S : List (Source 3)) {R r : ℝ} (hR : 0 ≤ R) (hS : ∀ s ∈ S, dist2 s.pos c ≤ R)
    (hRr : R < r) (hx : r ≤ dist2 x c) :
    dist2 (fun i => (meGrad3 (meCoeff3 c S) p (x - c) (unitV i)).re) (directField true S x 0) ≤ totalStrength S * gB (p + 1) R r := by
  have hr : 0 < r := hR.trans_lt hRr
  have hv : x - c ≠ 0 := by
    intro h
    rw [sub_eq_zero.mp h, (dist2_eq_zero_iff _ _).mpr rfl] at hx
    linarith
  refine vec_bound (fun e => (meGrad3 (meCoeff3 c S) p (x - c) e).re) (fun e g => by rw [meGrad3_add, Complex.add_re])
    (fun t e => by rw [meGrad3_smul, Complex.re_ofReal_mul]) _ (mul_nonneg (totalStrength_nonneg S) (gB_nonneg _ hR hRr)) fun e => ?_
  rw [dot3_directField S x e fun s hs h => by have := hS s hs; rw [h] at this; linarith, meGrad3_sources c S p hv, mul_assoc]
  refine list_bound_grad S _ (fun s => dot3 (s.pos - x) e / len3 (s.pos - x) ^ 3) _ fun s hs => ?_
  have h1 := hS s hs
  rw [← len3_eq_dist2] at h1 hx
  have := single_cut_grad (s.pos - c) e (x - c) (by linarith) (p + 1)
  rw [show x - c - (s.pos - c) = -(s.pos - x) by abel, len3_neg] at this
  have e1 : dot3 (-(s.pos - x)) e = -dot3 (s.pos - x) e := by simp only [dot3, Pi.neg_apply]; ring
  rw [e1, ← norm_neg] at this
  refine le_trans (le_of_eq ?_) (this.trans ?_)
  · congr 1; push_cast; ring
  · rw [mul_comm]
    exact mul_le_mul_of_nonneg_right (gB_mono _ (len3_nonneg _) h1 hx hRr) (len3_nonneg e)

/-- Local expansion of sources. -/
theorem le_force_bound3 (c y : Vec 3) (p : ℕ) (S : List (Source 3)) {r D : ℝ} (hy : dist2 y c ≤ r) (hrD : r < D)
    (hS : ∀ s ∈ S, D ≤ dist2 s.pos c) :
    dist2 (fun i => (leGrad3 (leCoeff3 c S) p (y - c) (unitV i)).re) (directField true S y 0) ≤ totalStrength S * gB p r D := by
  have hr : 0 ≤ r := le_trans (by rw [← len3_eq_dist2]; exact len3_nonneg _) hy
  refine vec_bound (fun e => (leGrad3 (leCoeff3 c S) p (y - c) e).re) (fun e g => by rw [leGrad3_add, Complex.add_re])
    (fun t e => by rw [leGrad3_smul, Complex.re_ofReal_mul]) _ (mul_nonneg (totalStrength_nonneg S) (gB_nonneg _ hr hrD)) fun e => ?_
  rw [dot3_directField S y e fun s hs h => by have := hS s hs; rw [h] at this; linarith, leGrad3_sources, mul_assoc]
  refine list_bound_grad S _ (fun s => dot3 (s.pos - y) e / len3 (s.pos - y) ^ 3) _ fun s hs => ?_
  have h1 := hS s hs
  rw [← len3_eq_dist2] at h1 hy
  have := single_cut_grad (y - c) e (s.pos - c) (by linarith) p
  rw [show s.pos - c - (y - c) = s.pos - y by abel] at this
  refine this.trans ?_
  rw [mul_comm]
  exact mul_le_mul_of_nonneg_right (gB_mono _ (len3_nonneg _) hy h1 hrD) (len3_nonneg e)

/-- Conversion. -/
theorem m2l_force_bound3 (c c' y : Vec 3) (p : ℕ) (S : List (Source 3)) {R r D : ℝ} (hR : 0 ≤ R)
    (hS : ∀ s ∈ S, dist2 s.pos c ≤ R) (hy : dist2 y c' ≤ r) (hD : D ≤ dist2 c c') (h : r + R < D) :
    dist2 (fun i => (leGrad3 (m2lC p (meCoeff3 c S) (c - c')) p (y - c') (unitV i)).re) (directField true S y 0)
      ≤ totalStrength S * gB p (r + R) D := by
  have hr : 0 ≤ r := le_trans (by rw [← len3_eq_dist2]; exact len3_nonneg _) hy
  have hne : ∀ s ∈ S, s.pos ≠ y := by
    intro s hs he
    have h1 := hS s hs
    rw [he] at h1
    have h2 := dist2_triangle3 c y c'
    rw [dist2_comm c y] at h2
    linarith
  refine vec_bound (fun e => (leGrad3 (m2lC p (meCoeff3 c S) (c - c')) p (y - c') e).re)
    (fun e g => by rw [leGrad3_add, Complex.add_re])
    (fun t e => by rw [leGrad3_smul, Complex.re_ofReal_mul]) _
    (mul_nonneg (totalStrength_nonneg S) (gB_nonneg _ (by linarith) h)) fun e => ?_
  rw [dot3_directField S y e hne, leGrad3_m2l, mul_assoc]
  refine list_bound_grad S _ (fun s => dot3 (s.pos - y) e / len3 (s.pos - y) ^ 3) _ fun s hs => ?_
  have h1 := hS s hs
  rw [← len3_eq_dist2] at h1 hy hD
  have := double_cut_grad (y - c') e (-(s.pos - c)) (c - c') (by rw [len3_neg]; linarith) p (range (p + 1) ×ˢ range (p + 1)) (by
    intro j n hjn
    rw [mem_product, mem_range, mem_range]
    omega)
  rw [show c - c' - (y - c' + -(s.pos - c)) = s.pos - y by abel, len3_neg] at this
  refine this.trans ?_
  rw [mul_comm]
  exact mul_le_mul_of_nonneg_right (gB_mono _ (add_nonneg (len3_nonneg _) (len3_nonneg _)) (add_le_add hy h1) hD h) (len3_nonneg e)

end FMM
