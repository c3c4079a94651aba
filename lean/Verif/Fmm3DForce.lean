import Verif.Fmm3D
import Verif.Exp3ForceBounds

/-!
# The expansion laws in three dimensions (force)
-/

namespace FMM
open Finset

/-! ## Linearity in the coefficients -/

theorem leGrad3_coeff_add (a b : ℕ → ℤ → ℂ) (p : ℕ) (v e : Vec 3) :
    leGrad3 (fun n m => a n m + b n m) p v e = leGrad3 a p v e + leGrad3 b p v e := by
  unfold leGrad3
  rw [← sum_add_distrib]
  refine sum_congr rfl fun n _ => ?_
  rw [← sum_add_distrib]
  exact sum_congr rfl fun m _ => by ring

theorem leGrad3_coeff_list {α : Type} (L : List α) (F : α → ℕ → ℤ → ℂ) (p : ℕ) (v e : Vec 3) :
    leGrad3 (fun n m => (L.map fun x => F x n m).sum) p v e = (L.map fun x => leGrad3 (F x) p v e).sum := by
  induction L with
  | nil => simp [leGrad3]
  | cons x L ih =>
    simp only [List.map_cons, List.sum_cons]
    rw [leGrad3_coeff_add, ih]

theorem leGrad3_l2l (p : ℕ) (a : ℕ → ℤ → ℂ) (h y e : Vec 3) : leGrad3 (l2lC p a h) p y e = leGrad3 a p (y - h) e := by
  have h1 := leGrad3_line (l2lC p a h) p y e
  have h2 := leGrad3_line a p (y - h) e
  simp only [l2lC_exact] at h1
  refine h1.unique (h2.congr_of_eventuallyEq (Filter.Eventually.of_forall fun t => ?_))
  simp only
  congr 1; abel

theorem dist2_add_zero3 (v w : Vec 3) : dist2 (v + w) 0 ≤ dist2 v 0 + dist2 w 0 := by
  have := len3_add_le v w
  rw [← len3_eq_dist2, ← len3_eq_dist2, ← len3_eq_dist2]
  simpa using this

theorem dist2_sub_zero3 (v w : Vec 3) : dist2 (v - w) 0 = dist2 v w := by
  unfold dist2; simp

/-! ## Bound -/

/-- The error bound of the force, `b`: edge length of the smallest box. -/
noncomputable def forceB3 (p : ℕ) (b : ℝ) : ℝ :=
  ((p + 1) * rho3 ^ p / (2 * (2 - Real.sqrt 3)) + rho3 ^ (p + 1) / (2 - Real.sqrt 3) ^ 2) / b ^ 2

theorem forceB3_num_nonneg (p : ℕ) :
    0 ≤ ((p : ℝ) + 1) * rho3 ^ p / (2 * (2 - Real.sqrt 3)) + rho3 ^ (p + 1) / (2 - Real.sqrt 3) ^ 2 := by
  have h2 : 0 < 2 - Real.sqrt 3 := by linarith [sqrt3_lt]
  have := rho3_pos
  positivity

theorem forceB3_nonneg (p : ℕ) (b : ℝ) : 0 ≤ forceB3 p b := div_nonneg (forceB3_num_nonneg p) (sq_nonneg b)

theorem gB_m2l {p : ℕ} {b : ℝ} (hb : 0 < b) : gB p (rho3 * b + rho3 * b) (2 * b) = forceB3 p b := by
  have h2 : 2 - Real.sqrt 3 ≠ 0 := by linarith [sqrt3_lt]
  have hratio : (rho3 * b + rho3 * b) / (2 * b) = rho3 := by field_simp; ring
  have hden : 2 * b - (rho3 * b + rho3 * b) = (2 - Real.sqrt 3) * b := by unfold rho3; ring
  unfold gB forceB3
  rw [hratio, hden]
  field_simp

theorem gB_far {p : ℕ} {b : ℝ} (hb : 0 < b) : gB p (rho3 * b) (3 / 2 * b) ≤ forceB3 p b := by
  have h0 := rho3_pos
  have h1 : 3 / 4 < rho3 := by unfold rho3; linarith [sqrt3_gt]
  have h3 : Real.sqrt 3 = 2 * rho3 := by unfold rho3; ring
  have h4 := rho3_lt
  rw [← gB_m2l hb]
  unfold gB
  have hq : rho3 * b / (3 / 2 * b) ≤ (rho3 * b + rho3 * b) / (2 * b) := by
    rw [div_le_div_iff₀ (by positivity) (by positivity)]; nlinarith [mul_pos h0 (mul_pos hb hb)]
  have hq0 : 0 ≤ rho3 * b / (3 / 2 * b) := by positivity
  refine add_le_add ?_ ?_
  · refine div_le_div₀ (by positivity) (by gcongr) ?_ ?_
    · exact mul_pos (by positivity) (by nlinarith)
    · nlinarith [mul_pos hb hb]
  · refine div_le_div₀ (by positivity) (by gcongr) ?_ ?_
    · exact pow_pos (by nlinarith) 2
    · refine pow_le_pow_left₀ (by nlinarith) ?_ 2
      nlinarith

theorem gB_far_succ {p : ℕ} (hp : 0 < p) {b : ℝ} (hb : 0 < b) : gB (p + 1) (rho3 * b) (3 / 2 * b) ≤ forceB3 p b := by
  refine le_trans ?_ (gB_far hb)
  have h0 := rho3_pos
  have h4 := rho3_lt
  have e : rho3 * b / (3 / 2 * b) = 2 / 3 * rho3 := by field_simp
  unfold gB
  rw [e]
  have hden : 0 < 3 / 2 * b - rho3 * b := by nlinarith
  refine add_le_add ?_ ?_
  · refine div_le_div_of_nonneg_right ?_ (by positivity)
    push_cast
    rw [pow_succ]
    have h5 : (1 : ℝ) ≤ p := by exact_mod_cast hp
    have h6 : ((p : ℝ) + 1 + 1) * (2 / 3 * rho3) ≤ p + 1 := by nlinarith
    calc ((p : ℝ) + 1 + 1) * ((2 / 3 * rho3) ^ p * (2 / 3 * rho3)) = (((p : ℝ) + 1 + 1) * (2 / 3 * rho3)) * (2 / 3 * rho3) ^ p := by ring
      _ ≤ (p + 1) * (2 / 3 * rho3) ^ p := mul_le_mul_of_nonneg_right h6 (by positivity)
  · refine div_le_div_of_nonneg_right ?_ (by positivity)
    exact pow_le_pow_of_le_one (by positivity) (by nlinarith) (by omega)

/-- A list of multipole expansions converted to one local expansion. -/
theorem m2l_list_force_bound3 {p : ℕ} (b : Box 3) (hb : 0 < b.len) (L : List (Box 3 × List (Source 3)))
    (hL : ∀ x ∈ L, x.1.len = b.len ∧ (∃ j, 2 * b.len ≤ |b.center j - x.1.center j|) ∧ ∀ s ∈ x.2, x.1.contains s.pos)
    {y : Vec 3} (hy : b.contains y) :
    dist2 (fun i => (leGrad3 (fun n m => (L.map fun x => m2lC p (meCoeff3 x.1.center x.2) (x.1.center - b.center) n m).sum)
        p (y - b.center) (unitV i)).re) (directField true (L.flatMap (·.2)) y 0)
      ≤ forceB3 p b.len * totalStrength (L.flatMap (·.2)) := by
  simp only [leGrad3_coeff_list]
  induction L with
  | nil => simp [directField, totalStrength_nil, dist2]
  | cons x L ih =>
    obtain ⟨h1, h2, h3⟩ := hL x (by simp)
    have hfar : 2 * b.len ≤ dist2 x.1.center b.center := by
      rw [dist2_comm]; exact far_dist3 h2
    have hR : ∀ s ∈ x.2, dist2 s.pos x.1.center ≤ rho3 * b.len := fun s hs => by
      rw [← h1]; exact box_dist3 (by rw [h1]; exact hb) (h3 s hs)
    have hlt : rho3 * b.len + rho3 * b.len < 2 * b.len := by nlinarith [rho3_lt]
    have h0 := rho3_pos
    have hbd := m2l_force_bound3 x.1.center b.center y p x.2 (by positivity) hR (box_dist3 hb hy) hfar hlt
    rw [gB_m2l hb] at hbd
    have hrest := ih fun z hz => hL z (by simp [hz])
    simp only [List.map_cons, List.sum_cons, List.flatMap_cons, Complex.add_re]
    rw [directField_append, totalStrength_append, mul_add, ← dist2_sub_zero3]
    rw [← dist2_sub_zero3] at hbd hrest
    refine le_trans ?_ (add_le_add ((mul_comm _ _).le.trans' hbd) hrest)
    refine le_trans (le_of_eq ?_) (dist2_add_zero3 _ _)
    congr 1
    funext i
    simp only [Pi.sub_apply, Pi.add_apply]
    ring

/-- The laws for the force without smoothing, orders `1 ≤ p ≤ 42`. -/
noncomputable def laws3Force (p : ℕ) (hp0 : 0 < p) (hp : p ≤ 42) : FmmLaws kit3 (force3 0) p where
  good := fun t => Stat3.Good t
  cov := fun t => Stat3.Good t ∧ p ≤ AlmTable.maxOrder (Stat3.alm t)
  isME := fun e c S => Exp3.Is e c p (meCoeff3 c S)
  isLE := fun e c φ => ∃ a, Exp3.Is e c p a ∧ ∀ y, φ y = fun i => (leGrad3 a p (y - c) (unitV i)).re
  nrm := fun v => dist2 v 0
  direct := fun S x => directField true S x 0
  adm := fun c y => ¬ OnAxis (y - c)
  B := forceB3 p
  nrm_zero := (dist2_eq_zero_iff _ _).mpr rfl
  nrm_add := dist2_add_zero3
  direct_nil := fun _ => rfl
  direct_append := fun S T x => directField_append true S T x 0
  direct_perm := fun _ _ x h => directField_perm true x 0 h
  B_nonneg := fun b _ => forceB3_nonneg p b
  B_anti := by
    intro a b ha hab
    have := forceB3_num_nonneg p
    unfold forceB3
    gcongr
  cov_good := fun _ h => h.1
  leNew := fun t c ht => by
    obtain ⟨t', e, h1, h2, h3, h4⟩ := new_cov3 hp t c ht
    exact ⟨t', e, h1, h2, h3, fun _ _ => 0, h4, fun y => by funext i; simp [leGrad3]⟩
  meSrc := meSrc_cov3 hp
  me_perm := fun e c S T h he => Exp3.Is.congr he fun n _ m _ => meCoeff3_perm _ h n m
  meMes := fun t => meMes_cov3 hp t (Or.inl hp0)
  size_pos := by
    rintro e c φ ⟨a, ha, -⟩
    show e.coeffs.size ≠ 0
    rw [ha.size]; positivity
  leLe := by
    rintro t e c c' φ ht ⟨a, ha, hφ⟩
    obtain ⟨t', f, h1, -, -, h4, h5⟩ := Exp3.leOfLe_ok t ht.1 ha hp (Or.inl hp0) c'
    obtain rfl := h4 ht.2
    refine ⟨f, h1, _, h5, fun y => ?_⟩
    rw [hφ]
    funext i
    rw [leGrad3_l2l, show y - c' - (c - c') = y - c by abel]
  add := by
    rintro e f c φ ψ ⟨a, ha, hφ⟩ ⟨b, hb, hψ⟩
    obtain ⟨g, hg1, hg2⟩ := Exp3.addEq_ok ha hb
    refine ⟨g, hg1, _, hg2, fun y => ?_⟩
    rw [Pi.add_apply, hφ, hψ]
    funext i
    rw [leGrad3_coeff_add, Complex.add_re, Pi.add_apply]
  leMes := by
    intro t b L ht hb hne hL
    obtain ⟨e, h1, h2⟩ := leMes_cov3 hp t (Or.inl hp0) b hb L ht hne fun x hx => ⟨(hL x hx).1, (hL x hx).2.2.1⟩
    refine ⟨e, _, h1, ⟨_, h2, fun y => rfl⟩, fun y hy => ?_⟩
    have := m2l_list_force_bound3 (p := p) b hb (L.map (·.2)) (by
      intro x hx
      obtain ⟨z, hz, rfl⟩ := List.mem_map.mp hx
      exact (hL z hz).2) hy
    simp only [List.flatMap_map] at this
    rw [dist2_sub_zero3]
    exact this
  leSrc := by
    intro t b S ht hb hfar
    obtain ⟨e, h1, h2⟩ := leSrc_cov3 hp t b S ht hb hfar
    refine ⟨e, _, h1, ⟨_, h2, fun y => rfl⟩, fun y hy => ?_⟩
    obtain ⟨j, hj⟩ := hfar
    have hd : ∀ s ∈ S, 3 / 2 * b.len ≤ dist2 s.pos b.center := fun s hs => far_dist3 ⟨j, hj s hs⟩
    rw [dist2_sub_zero3]
    refine (le_force_bound3 b.center y p S (box_dist3 hb hy) (by nlinarith [rho3_lt]) hd).trans ?_
    rw [mul_comm]
    exact mul_le_mul_of_nonneg_right (gB_far hb) (totalStrength_nonneg S)
  me_obs := by
    rintro e b S y hb he hS hfar hA
    have hd : 3 / 2 * b.len ≤ dist2 y b.center := far_dist3 hfar
    have h0 := rho3_pos
    refine ⟨_, Exp3.meForce_ok he y hA, ?_⟩
    rw [dist2_sub_zero3]
    refine (me_force_bound3 b.center y p S (by positivity) (fun s hs => box_dist3 hb (hS s hs)) (by nlinarith [rho3_lt]) hd).trans ?_
    rw [mul_comm]
    exact mul_le_mul_of_nonneg_right (gB_far_succ hp0 hb) (totalStrength_nonneg S)
  le_obs := by
    rintro e c φ y ⟨a, ha, hφ⟩ hA
    rw [hφ]; exact Exp3.leForce_ok ha y hA
  sum_safe := fun S y => forcefieldSum_safe true S y 0 le_rfl
  sum_unsafe := fun S y h => forcefieldSum_unsafe true S y 0 le_rfl h

end FMM
