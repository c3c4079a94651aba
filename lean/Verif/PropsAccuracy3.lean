import Verif.PropsAccuracy
import Verif.PropsFmm3D

/-!
# C41: what the caller has to pass in three dimensions
-/

namespace FMM
variable {t : Stat3} {S : List (Source 3)} {r : Box 3} {par eps : ℝ}

theorem order_bounds3 {A : ℝ} (hpar : 0 < par) (hlo : par < A) (hhi : A ≤ 2 ^ 42 * par) :
    ∃ p, expansionOrder A par = .ok p ∧ 1 ≤ p ∧ p ≤ 42 ∧ A ≤ 2 ^ p * par := by
  obtain ⟨p, h1, h2, h3⟩ := C24_order A par hpar (by linarith) (hhi.trans (by
    have : (2 : ℝ) ^ 42 ≤ 2 ^ (2 ^ 32 - 1) := pow_le_pow_right₀ (by norm_num) (by norm_num)
    exact mul_le_mul_of_nonneg_right this hpar.le))
  refine ⟨p, h1, ?_, ?_, h2⟩
  · by_contra hlt
    have : p = 0 := by omega
    rw [this, pow_zero, one_mul] at h2
    linarith
  · by_contra hlt
    have := h3 42 (by omega)
    linarith

theorem errPot3_le {A b : ℝ} {p : ℕ} (hA : 0 ≤ A) (hb : 0 < b) (he : 0 ≤ eps) (h1 : A ≤ 2 ^ p * par)
    (h2 : par * A ^ 4 ≤ 2 * (eps * ((2 - Real.sqrt 3) * b)) ^ 5) : A * errPot3 p b ≤ eps := by
  have hs : 0 < 2 - Real.sqrt 3 := by linarith [sqrt3_lt]
  have h0 := rho3_pos
  have hsq : rho3 ^ 4 = 9 / 16 := by
    unfold rho3
    rw [show (Real.sqrt 3 / 2) ^ 4 = ((Real.sqrt 3) ^ 2) ^ 2 / 16 by ring, Real.sq_sqrt (by norm_num)]; norm_num
  have h5 : rho3 ^ 5 ≤ 1 / 2 := by
    rw [show rho3 ^ 5 = rho3 ^ 4 * rho3 by ring, hsq]
    linarith [rho3_lt]
  have h6 : (rho3 ^ (p + 1)) ^ 5 * 2 ^ p ≤ 1 / 2 := by
    rw [← pow_mul, mul_comm (p + 1) 5, pow_mul]
    calc (rho3 ^ 5) ^ (p + 1) * 2 ^ p ≤ (1 / 2) ^ (p + 1) * 2 ^ p := by gcongr
      _ = 1 / 2 := by rw [pow_succ, mul_right_comm, ← mul_pow]; norm_num
  unfold errPot3
  rw [mul_div_assoc', div_le_iff₀ (by positivity)]
  have hz : 0 ≤ eps * ((2 - Real.sqrt 3) * b) := by positivity
  refine le_of_pow_le_pow_left₀ (n := 5) (by norm_num) hz ?_
  change (A * rho3 ^ (p + 1)) ^ 5 ≤ _
  calc (A * rho3 ^ (p + 1)) ^ 5 = A * A ^ 4 * (rho3 ^ (p + 1)) ^ 5 := by ring
    _ ≤ 2 ^ p * par * A ^ 4 * (rho3 ^ (p + 1)) ^ 5 := by gcongr
    _ = par * A ^ 4 * ((rho3 ^ (p + 1)) ^ 5 * 2 ^ p) := by ring
    _ ≤ par * A ^ 4 * (1 / 2) := by
      refine mul_le_mul_of_nonneg_left h6 ?_
      have : 0 ≤ par := by
        by_contra hn
        have : 2 ^ p * par < 0 := mul_neg_of_pos_of_neg (by positivity) (by linarith)
        linarith
      positivity
    _ ≤ _ := by linarith

/-- **C41** What the caller has to pass, balanced tree in three dimensions: the accuracy `eps` is attained everywhere in the root box when the constructor is
given a parameter `par ≤ 2 ((2-√3) b eps)⁵ / A⁴`, `A` the sum of the absolute source strengths, `b` the side of the leaves (and `par < A ≤ 2^42 par`, so that
the order lies between 1 and the largest order the tables support). -/
theorem C41_fifth_3d_partial (ht : Reachable3 t) {perCell h : ℕ} (hI : BalancedInput S perCell r h) (hpar : 0 < par) (he : 0 ≤ eps)
    (hlo : par < (S.map fun s => |s.q|).sum) (hhi : (S.map fun s => |s.q|).sum ≤ 2 ^ 42 * par)
    (h5 : par * (S.map fun s => |s.q|).sum ^ 4 ≤ 2 * (eps * ((2 - Real.sqrt 3) * (r.len / 2 ^ h))) ^ 5) :
    ∃ (fuel0 : ℕ) (T : BalancedFmm kit3),
      (∀ fuel ≥ fuel0, ∀ sch, Schedule sch → balancedFmm kit3 fuel sch t S perCell par = .ok T) ∧
      ∀ x, r.containsHO x → ∀ grav, ∃ v, balancedEval pot3 grav T x = .ok v ∧ |v - directPotential grav S x| ≤ eps := by
  rw [← totalStrength_eq] at hlo hhi h5
  obtain ⟨p, h1, h2, h3, h4⟩ := order_bounds3 hpar hlo hhi
  obtain ⟨f, T, a1, -, -, a2⟩ := C53_balanced ht hI h1 h2 h3
  have hb : 0 < r.len / 2 ^ h := div_pos hI.len_pos (by positivity)
  refine ⟨f, T, a1, fun x hx grav => ?_⟩
  obtain ⟨v, v1, v2⟩ := a2 x hx grav
  rw [← totalStrength_eq] at v2
  exact ⟨v, v1, v2.trans (errPot3_le (totalStrength_nonneg S) hb he h4 h5)⟩

/-- The same for the adaptive tree; the height of the tree does not depend on `par`. -/
theorem C41_fifth_adaptive_3d_partial (ht : Reachable3 t) {max : ℕ} (hI : AdaptiveInput S max r) (hpar : 0 < par) (he : 0 ≤ eps) (hL : 0 < r.len)
    (hlo : par < (S.map fun s => |s.q|).sum) (hhi : (S.map fun s => |s.q|).sum ≤ 2 ^ 42 * par) :
    ∃ (fuel0 : ℕ) (T : AdaptiveFmm kit3),
      (∀ fuel ≥ fuel0, ∀ sch, Schedule sch → adaptiveFmm kit3 fuel sch t S max par = .ok T) ∧
      (par * (S.map fun s => |s.q|).sum ^ 4 ≤ 2 * (eps * ((2 - Real.sqrt 3) * (r.len / 2 ^ T.height))) ^ 5 →
        ∀ x, r.contains x → ∀ grav cur, ∃ v, (∀ fuel ≥ fuel0, adaptiveEval pot3 fuel grav T cur x = .ok v) ∧
          |v - directPotential grav S x| ≤ eps) := by
  rw [← totalStrength_eq] at hlo hhi ⊢
  obtain ⟨p, h1, h2, h3, h4⟩ := order_bounds3 hpar hlo hhi
  obtain ⟨f, T, a1, -, a2, -⟩ := C53_adaptive ht hI h1 h2 h3
  have hb : 0 < r.len / 2 ^ T.height := div_pos hL (by positivity)
  refine ⟨f, T, a1, fun h5 x hx grav cur => ?_⟩
  obtain ⟨v, v1, v2⟩ := a2 x hx grav cur
  rw [← totalStrength_eq] at v2
  exact ⟨v, v1, v2.trans (errPot3_le (totalStrength_nonneg S) hb he h4 h5)⟩

/-- Non-vacuity: nine sources, balanced tree of height 2: for the accuracy 1 it suffices to pass `2⁻²⁰`. -/
example : ∃ fuel T v, balancedFmm kit3 fuel (fun _ l => l.reverse) (Stat3.init 0 0 0) S9 1 (1 / 2 ^ 20) = .ok T ∧
    balancedEval pot3 false T ![4, 4, 4] = .ok v ∧ |v - directPotential false S9 ![4, 4, 4]| ≤ 1 := by
  have hA : (S9.map fun s => |s.q|).sum = 9 := by rw [← totalStrength_eq]; exact S9_total
  have hb : (2 : ℝ) ≤ box9.len / 2 ^ 2 := by norm_num [box9, paddingFactor]
  obtain ⟨f, T, h1, h2⟩ := C41_fifth_3d_partial (par := 1 / 2 ^ 20) (eps := 1) reachable3_init S9_balanced (by norm_num) (by norm_num)
    (by rw [hA]; norm_num) (by rw [hA]; norm_num) (by
      rw [hA]
      have h3 : Real.sqrt 3 ≤ 174 / 100 := by rw [Real.sqrt_le_left (by norm_num)]; norm_num
      have h4 : (1 / 2 : ℝ) ≤ 1 * ((2 - Real.sqrt 3) * (box9.len / 2 ^ 2)) := by nlinarith
      have h5 : (1 / 2 : ℝ) ^ 5 ≤ (1 * ((2 - Real.sqrt 3) * (box9.len / 2 ^ 2))) ^ 5 := pow_le_pow_left₀ (by norm_num) h4 5
      norm_num at h5 ⊢
      linarith)
  obtain ⟨v, v1, v2⟩ := h2 ![4, 4, 4] (S9_insideHO ⟨![4, 4, 4], 1⟩ (by simp [S9])) false
  exact ⟨f, T, v, h1 f le_rfl _ fun _ l => l.reverse_perm, v1, v2⟩

end FMM
