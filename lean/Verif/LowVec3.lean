import Verif.LowScale3
import Verif.FltRun3

/-!
# Vector-valued rounding errors with gradual underflow
-/

namespace FMM
open Finset

namespace Lo3
open Fl3
variable {F : Flt3} {u g η ρ θ τ ν : ℝ} {p : ℕ}

/-! ## Accumulating loops -/

theorem loopM_ap {F : Flt} (hF : F.Low u η ρ) (n : ℕ) (f : ℕ → ℂ → Outcome ℂ) (t : ℕ → ℂ) (M : ℕ → ℝ) {c n0 : ℕ} {s' s : ℂ} {M0 : ℝ}
    (hs : Ap u n0 M0 s' s) (hc : c ≤ n0) (hM0 : Flr η M0)
    (h : ∀ i < n, ∃ t', (∀ b, f i b = .ok (F.cadd b t')) ∧ Ap u c (M i) t' (t i)) (hM : ∀ i < n, Flr η (M i)) :
    ∃ r, loopM n f s' = .ok r ∧ Ap u (n0 + n) (M0 + ∑ i ∈ range n, M i) r (s + ∑ i ∈ range n, t i) := by
  have hM' : ∀ i < n, 0 ≤ M i := fun i hi => by
    obtain ⟨t', -, h2⟩ := h i hi
    exact h2.nonneg
  refine loopM_invariant (fun i r => Ap u (n0 + i) (M0 + ∑ i ∈ range i, M i) r (s + ∑ i ∈ range i, t i)) f s' n
    (by simpa using hs) (fun i hi b hb => ?_)
  obtain ⟨t', h1, h2⟩ := h i hi
  refine ⟨_, h1 b, ?_⟩
  have hf : Flr η (M0 + ∑ i ∈ range (i + 1), M i) := hM0.add
    (Flr.sum (i + 1) (fun j hj => hM j (by omega)) fun j hj => hM' j (by omega)) hs.nonneg
    (sum_nonneg fun j hj => hM' j (by have := mem_range.mp hj; omega))
  rw [sum_range_succ, ← add_assoc M0] at hf
  rw [sum_range_succ, sum_range_succ, ← add_assoc M0, ← add_assoc s]
  have hb' : Ap u (n0 + i) (M0 + ∑ i ∈ range i, M i) b (s + ∑ i ∈ range i, t i) := hb
  exact hF.cadd' hb' h2 hf (by omega) (by omega)

theorem loopZ_ap {F : Flt} (hF : F.Low u η ρ) (lo hi : ℤ) (f : ℤ → ℂ → Outcome ℂ) (t : ℤ → ℂ) (M : ℤ → ℝ) {c n0 : ℕ} {s' s : ℂ}
    {M0 : ℝ} (hs : Ap u n0 M0 s' s) (hc : c ≤ n0) (hM0 : Flr η M0)
    (h : ∀ m, lo ≤ m → m ≤ hi → ∃ t', (∀ b, f m b = .ok (F.cadd b t')) ∧ Ap u c (M m) t' (t m))
    (hM : ∀ m, lo ≤ m → m ≤ hi → Flr η (M m)) :
    ∃ r, loopZ lo hi f s' = .ok r ∧
      Ap u (n0 + (hi + 1 - lo).toNat) (M0 + ∑ m ∈ Icc lo hi, M m) r (s + ∑ m ∈ Icc lo hi, t m) := by
  unfold loopZ
  have := loopM_ap hF (hi + 1 - lo).toNat (fun i => f (lo + i)) (fun i => t (lo + i)) (fun i => M (lo + i)) hs hc hM0
    (fun i hi' => h _ (by omega) (by omega)) (fun i hi' => hM _ (by omega) (by omega))
  rwa [sum_Icc_range lo hi M, sum_Icc_range lo hi t] at this

/-! ## Radii and powers -/

/-- Computed differences. -/
theorem vsub_len {F : Flt} (hF : F.Low u η ρ) (a b : Vec 3) {R : ℝ} (h1 : len3 (a - b) ≤ R) (h2 : η ≤ R) :
    len3 (F.vsub a b - (a - b)) ≤ u * R := by
  have hu := hF.nonneg
  have hη := hF.eta
  have hR : 0 ≤ R := hη.trans h2
  have h : ∀ i, (F.vsub a b i - (a i - b i)) ^ 2 ≤ u ^ 2 / 4 * ((a i - b i) ^ 2 + η ^ 2) := fun i => by
    have h3 := hF.rnd (a i - b i)
    have h4 := pow_le_pow_left₀ (abs_nonneg _) h3 2
    rw [mul_pow, sq_abs] at h4
    have h5 : max |a i - b i| η ^ 2 ≤ (a i - b i) ^ 2 + η ^ 2 := by
      rcases max_cases |a i - b i| η with ⟨e, -⟩ | ⟨e, -⟩ <;> rw [e]
      · rw [sq_abs]; nlinarith
      · nlinarith [sq_nonneg (a i - b i)]
    have h6 := mul_le_mul_of_nonneg_left h5 (show 0 ≤ (u / 2) ^ 2 by positivity)
    have e : F.vsub a b i = F.rnd (a i - b i) := rfl
    rw [e]
    nlinarith
  have hl : dot3 (a - b) (a - b) ≤ R ^ 2 := by
    have := pow_le_pow_left₀ (len3_nonneg _) h1 2
    unfold len3 at this
    rwa [Real.sq_sqrt (by unfold dot3; nlinarith [mul_self_nonneg ((a - b) 0), mul_self_nonneg ((a - b) 1), mul_self_nonneg ((a - b) 2)])] at this
  rw [← Real.sqrt_sq (mul_nonneg hu hR)]
  unfold len3
  refine Real.sqrt_le_sqrt ?_
  unfold dot3 at hl ⊢
  simp only [Pi.sub_apply] at hl ⊢
  have k0 := h 0; have k1 := h 1; have k2 := h 2
  have k3 : η ^ 2 ≤ R ^ 2 := pow_le_pow_left₀ hη h2 2
  have k4 := mul_le_mul_of_nonneg_left (show (a 0 - b 0) ^ 2 + (a 1 - b 1) ^ 2 + (a 2 - b 2) ^ 2 + 3 * η ^ 2 ≤ 4 * R ^ 2 by nlinarith)
    (show 0 ≤ u ^ 2 / 4 by positivity)
  nlinarith

theorem nrm3_ap (hF : F.Low u g η ρ) {v v' : Vec 3} {R : ℝ} (hv : len3 (v' - v) ≤ u * R) (hl : len3 v ≤ R) (hR : η ≤ R) :
    Ap u 2 R (F.nrm3 v') (len3 v) := by
  have h1 : Ap u 1 R (len3 v') (len3 v) := by
    refine ⟨?_, by rwa [Real.norm_of_nonneg (len3_nonneg v)]⟩
    rw [pow_one, add_sub_cancel_left, Real.norm_eq_abs]
    exact (abs_len3_sub _ _).trans hv
  refine h1.roundf hF.nonneg (Or.inr hR) ?_ fun h0 => by rw [len3_eq_zero h0]; exact hF.nrm30
  have := hF.nrm3 v'
  rwa [← len3_eq_norm, Real.norm_eq_abs, Real.norm_of_nonneg (len3_nonneg v')] at *

theorem pow_two_le (hF : F.Low u g η ρ) : (1 + u) ^ 2 ≤ 3 / 2 := by
  have h1 := hF.nonneg
  have h2 := hF.small
  nlinarith

theorem nrm3_inv (hF : F.Low u g η ρ) {v v' : Vec 3} (hv : len3 (v' - v) ≤ u * len3 v) (h0 : 0 < len3 v) (hR : η ≤ len3 v) :
    F.nrm3 v' ≠ 0 ∧ Ap u 4 (len3 v)⁻¹ (F.nrm3 v')⁻¹ (len3 v)⁻¹ := by
  have h := nrm3_ap hF hv le_rfl hR
  have := Ap.invk hF.nonneg 2 (pow_two_le hF) h0.ne' (by
    rw [Real.norm_of_nonneg (len3_nonneg v)]; exact h.1)
  rwa [Real.norm_of_nonneg (len3_nonneg v)] at this

theorem rpw_ap (hF : F.Low u g η ρ) {m n0 : ℕ} {D M : ℝ} {x' x a' a : ℝ} (hx : Ap u m D x' x) (ha : Ap u n0 M a' a) (i : ℕ)
    (hf : ∀ j ≤ i, Flr η (M * D ^ j)) :
    Ap u (n0 + (m + 1) * i) (M * D ^ i) (rpw F x' a' i) (a * x ^ i) := by
  induction i with
  | zero => simpa [rpw] using ha
  | succ i ih =>
    have := hF.rrnd ((ih fun j hj => hf j (by omega)).mul hF.nonneg hx) (by
      have := hf (i + 1) le_rfl
      rwa [pow_succ, ← mul_assoc] at this)
    rw [pow_succ, pow_succ, ← mul_assoc, ← mul_assoc]
    exact this.mono hF.nonneg (by ring_nf; rfl) le_rfl

theorem rdv_ap (hF : F.Low u g η ρ) {m n0 : ℕ} {D M : ℝ} {x' x a' a : ℝ} (hx : Ap u m D x'⁻¹ x⁻¹) (ha : Ap u n0 M a' a) (i : ℕ)
    (hf : ∀ j ≤ i, Flr η (M * D ^ j)) :
    Ap u (n0 + (m + 1) * i) (M * D ^ i) (rdv F x' a' i) (a * x⁻¹ ^ i) := by
  induction i with
  | zero => simpa [rdv] using ha
  | succ i ih =>
    have := hF.rrnd ((ih fun j hj => hf j (by omega)).mul hF.nonneg hx) (by
      have := hf (i + 1) le_rfl
      rwa [pow_succ, ← mul_assoc] at this)
    rw [pow_succ, pow_succ, ← mul_assoc, ← mul_assoc]
    rw [← div_eq_mul_inv] at this
    exact this.mono hF.nonneg (by ring_nf; rfl) le_rfl

/-- The difference of two points: distant, but not too distant. -/
def Far (θ : ℝ) (v : Vec 3) : Prop := θ ≤ len3 v ∧ θ ≤ (len3 v)⁻¹

section
variable (hF : F.Low u g η ρ) (hs : Scale3 u η θ τ ν p)
include hF hs

/-- Powers of the computed radius. -/
theorem pw_r (a b : Vec 3) {R : ℝ} (h1 : len3 (a - b) ≤ R) (h2 : θ ≤ R) {n : ℕ} (hn : n ≤ p) :
    Ap u (3 * n) (R ^ n) (rpw F (F.nrm3 (F.vsub a b)) 1 n) (len3 (a - b) ^ n) := by
  have hv := vsub_len hF.toLow a b h1 (hs.le h2)
  have := rpw_ap hF (nrm3_ap hF hv h1 (hs.le h2)) (Ap.refl (u := u) (le_of_eq (norm_one (α := ℝ)))) n
    fun j hj => Or.inr (by rw [one_mul]; exact hs.powle h2 (by omega))
  simpa using this

theorem far_inv {a b : Vec 3} (h : Far θ (a - b)) :
    F.nrm3 (F.vsub a b) ≠ 0 ∧ Ap u 4 (len3 (a - b))⁻¹ (F.nrm3 (F.vsub a b))⁻¹ (len3 (a - b))⁻¹ :=
  nrm3_inv hF (vsub_len hF.toLow a b le_rfl (hs.le h.1)) (hs.th0.trans_le h.1) (hs.le h.1)

theorem rinv_ap {a b : Vec 3} (h : Far θ (a - b)) : Ap u 5 (len3 (a - b))⁻¹ (F.rnd (1 / F.nrm3 (F.vsub a b))) (len3 (a - b))⁻¹ := by
  have := hF.rrnd (far_inv hF hs h).2 (Or.inr (hs.le h.2))
  rwa [← one_div (F.nrm3 (F.vsub a b))] at this

/-- Powers of the computed reciprocal of the radius. -/
theorem pw_rinv {a b : Vec 3} (h : Far θ (a - b)) {n : ℕ} (hn : n ≤ 2 * p + 1) :
    Ap u (6 * n) ((len3 (a - b))⁻¹ ^ n) (rpw F (F.rnd (1 / F.nrm3 (F.vsub a b))) 1 n) ((len3 (a - b))⁻¹ ^ n) := by
  have := rpw_ap hF (rinv_ap hF hs h) (Ap.refl (u := u) (le_of_eq (norm_one (α := ℝ)))) n
    fun j hj => Or.inr (by rw [one_mul]; exact hs.powle h.2 (by omega))
  simpa using this

/-- Repeated division by the computed radius. -/
theorem dv_r {a b : Vec 3} (h : Far θ (a - b)) {n : ℕ} (hn : n ≤ p) :
    Ap u (5 + 5 * n) ((len3 (a - b))⁻¹ ^ (n + 1)) (rdv F (F.nrm3 (F.vsub a b)) (F.rnd (1 / F.nrm3 (F.vsub a b))) n)
      ((len3 (a - b))⁻¹ ^ (n + 1)) := by
  have := rdv_ap hF (far_inv hF hs h).2 (rinv_ap hF hs h) n
    fun j hj => Or.inr (by rw [← pow_succ']; exact hs.powle h.2 (by omega))
  rwa [← pow_succ'] at this

end

/-! ## Tables with their powers -/

/-- Entries times a computed factor. -/
theorem yv_scale {l : ℕ} {y : ℤ → ℂ} {w : Vec 3} (hw : len3 w = 1) (hy : l2 (Ir l) (fun m => y m - rY w l m) ≤ yEr u g l)
    {P' P ζ : ℝ} {e : ℕ} (hP' : Ap u e ζ P' P) :
    l2 (Ir l) (fun m => (P' : ℂ) * y m - (P : ℂ) * rY w l m) ≤ tEr u g e l * ζ := by
  have h1 := l2_tri (Ir l) (fun m => (P' : ℂ) * y m) (fun m => (P' : ℂ) * rY w l m) (fun m => (P : ℂ) * rY w l m)
  have h2 : l2 (Ir l) (fun m => (P' : ℂ) * y m - (P' : ℂ) * rY w l m) ≤ (1 + u) ^ e * ζ * yEr u g l := by
    have : (fun m => (P' : ℂ) * y m - (P' : ℂ) * rY w l m) = fun m => (P' : ℂ) * (y m - rY w l m) := by funext m; ring
    rw [this, l2_smul, Complex.norm_real]
    exact mul_le_mul hP'.norm hy (l2_nonneg _ _) ((norm_nonneg _).trans hP'.norm)
  have h3 : l2 (Ir l) (fun m => (P' : ℂ) * rY w l m - (P : ℂ) * rY w l m) ≤ ((1 + u) ^ e - 1) * ζ := by
    have : (fun m => (P' : ℂ) * rY w l m - (P : ℂ) * rY w l m) = fun m => ((P' - P : ℝ) : ℂ) * rY w l m := by
      funext m; push_cast; ring
    rw [this, l2_smul, l2_rY, hw, one_pow, mul_one, Complex.norm_real]
    exact hP'.1
  unfold tEr
  linarith

section
variable (hF : F.Low u g η ρ) (hs : Scale3 u η θ τ ν p)
include hF hs

/-- The table of a vector which is not tiny. -/
theorem yv_far {lmax l : ℕ} {a b : Vec 3} (h : 2 * η ≤ len3 (a - b)) (hl : l ≤ lmax) :
    l2 (Ir l) (fun m => yv F lmax (F.rcos (F.sph (F.vsub a b) 1)) (F.sph (F.vsub a b) 2) l m - rY (dir (a - b)) l m) ≤ yEr u g l := by
  have hη := hF.eta
  have hv := vsub_len hF.toLow a b le_rfl (show η ≤ len3 (a - b) by linarith)
  refine yv_l2 hF hv ?_ hl
  have h2 := (abs_le.mp (abs_len3_sub (F.vsub a b) (a - b))).1
  have h3 := hF.small
  nlinarith [len3_nonneg (a - b)]

/-- Degree zero does not depend on the vector. -/
theorem yv_deg0 {lmax : ℕ} (v' w : Vec 3) (hw : len3 w = 1) :
    l2 (Ir 0) (fun m => yv F lmax (F.rcos (F.sph v' 1)) (F.sph v' 2) 0 m - rY w 0 m) ≤ yEr u g 0 := by
  have h1 := yv_w hF v' (Nat.zero_le lmax)
  have h2 := l2_rY_lip 0 (len3_dirV (Real.arccos (F.rcos (F.sph v' 1))) (v'.toSpherical3 2)) hw
  have h3 := l2_tri (Ir 0) (fun m => yv F lmax (F.rcos (F.sph v' 1)) (F.sph v' 2) 0 m)
    (fun m => rY (dirV (Real.arccos (F.rcos (F.sph v' 1))) (v'.toSpherical3 2)) 0 m) (fun m => rY w 0 m)
  unfold yEr
  rw [Nat.cast_zero, zero_mul] at h2
  have h4 : ((0 : ℕ) : ℝ) * (Real.sqrt (18 * u) + 2 * u) = 0 := by rw [Nat.cast_zero, zero_mul]
  linarith

/-- Computed power times computed harmonic: regular solid harmonics, also of tiny vectors. -/
theorem tab_reg {lmax l : ℕ} (a b : Vec 3) {R : ℝ} (h1 : len3 (a - b) ≤ R) (h2 : θ ≤ R) (hl : l ≤ lmax) (hp : l ≤ p) :
    l2 (Ir l) (fun m => (rpw F (F.nrm3 (F.vsub a b)) 1 l : ℂ) * yv F lmax (F.rcos (F.sph (F.vsub a b) 1)) (F.sph (F.vsub a b) 2) l m
      - rY (a - b) l m) ≤ eps u g p * R ^ l := by
  have hu := hF.nonneg
  have hR0 : 0 ≤ R := hs.th0.le.trans h2
  have hP := pw_r hF hs a b h1 h2 hp
  have e1 : (fun m => (rpw F (F.nrm3 (F.vsub a b)) 1 l : ℂ) * yv F lmax (F.rcos (F.sph (F.vsub a b) 1)) (F.sph (F.vsub a b) 2) l m
        - rY (a - b) l m)
      = fun m => (rpw F (F.nrm3 (F.vsub a b)) 1 l : ℂ) * yv F lmax (F.rcos (F.sph (F.vsub a b) 1)) (F.sph (F.vsub a b) 2) l m
        - ((len3 (a - b) ^ l : ℝ) : ℂ) * rY (dir (a - b)) l m := by
    funext m; rw [rY_dir_pow]
  have hmono : tEr u g (3 * l) l * R ^ l ≤ eps u g p * R ^ l :=
    mul_le_mul_of_nonneg_right (tEr_mono hu (gpos hF) (by omega) (by omega)) (pow_nonneg hR0 _)
  rw [e1]
  rcases Nat.eq_zero_or_pos l with rfl | hl0
  · exact (yv_scale (len3_dir _) (yv_deg0 hF hs _ _ (len3_dir _)) hP).trans hmono
  · by_cases hv : 2 * η ≤ len3 (a - b)
    · exact (yv_scale (len3_dir _) (yv_far hF hs hv hl) hP).trans hmono
    · push Not at hv
      have hy := yv_any hF (F.vsub a b) hl
      have hY0 := yEr_nonneg hu (gpos hF) l
      have ht := hs.tiny
      have hR1 : u * θ ≤ u * R := mul_le_mul_of_nonneg_left h2 hu
      set L := len3 (a - b) with hL
      have hL0 : 0 ≤ L := len3_nonneg _
      have hLl : 2 * L ^ l ≤ u * R ^ l := by
        obtain ⟨k, rfl⟩ : ∃ k, l = k + 1 := ⟨l - 1, by omega⟩
        have b1 : L ^ k ≤ R ^ k := pow_le_pow_left₀ hL0 h1 k
        have b2 : 2 * L ≤ u * R := by linarith
        calc 2 * L ^ (k + 1) = L ^ k * (2 * L) := by ring
          _ ≤ R ^ k * (u * R) := mul_le_mul b1 b2 (by linarith) (pow_nonneg hR0 k)
          _ = u * R ^ (k + 1) := by ring
      have hPn : ‖rpw F (F.nrm3 (F.vsub a b)) 1 l‖ ≤ L ^ l + ((1 + u) ^ (3 * l) - 1) * R ^ l := by
        have b1 := hP.1
        have b2 := norm_sub_norm_le (rpw F (F.nrm3 (F.vsub a b)) 1 l) (L ^ l)
        rw [Real.norm_of_nonneg (pow_nonneg hL0 l)] at b2
        linarith
      have c1 : l2 (Ir l) (fun m => (rpw F (F.nrm3 (F.vsub a b)) 1 l : ℂ) * yv F lmax (F.rcos (F.sph (F.vsub a b) 1)) (F.sph (F.vsub a b) 2) l m)
          ≤ (L ^ l + ((1 + u) ^ (3 * l) - 1) * R ^ l) * (1 + yEr u g l) := by
        rw [l2_smul, Complex.norm_real]
        exact mul_le_mul hPn hy (l2_nonneg _ _) ((norm_nonneg _).trans hPn)
      have c2 : l2 (Ir l) (fun m => ((L ^ l : ℝ) : ℂ) * rY (dir (a - b)) l m) = L ^ l := by
        rw [l2_smul, l2_rY, len3_dir, one_pow, mul_one, Complex.norm_real, Real.norm_of_nonneg (pow_nonneg hL0 l)]
      have c3 := l2_tri (Ir l) (fun m => (rpw F (F.nrm3 (F.vsub a b)) 1 l : ℂ) * yv F lmax (F.rcos (F.sph (F.vsub a b) 1)) (F.sph (F.vsub a b) 2) l m)
        (fun _ => 0) (fun m => ((L ^ l : ℝ) : ℂ) * rY (dir (a - b)) l m)
      simp only [sub_zero, zero_sub] at c3
      rw [l2_neg, c2] at c3
      have hmono2 : tEr u g (3 * l + 1) l * R ^ l ≤ eps u g p * R ^ l :=
        mul_le_mul_of_nonneg_right (tEr_mono hu (gpos hF) (by omega) (by omega)) (pow_nonneg hR0 _)
      refine (c3.trans (add_le_add_left c1 _)).trans (le_trans ?_ hmono2)
      have d1 := one_le_pow_u hu (3 * l)
      have d2 : 0 ≤ R ^ l := pow_nonneg hR0 l
      have d3 : 0 ≤ L ^ l := pow_nonneg hL0 l
      unfold tEr
      rw [pow_succ]
      generalize (1 + u) ^ (3 * l) = x at d1
      generalize R ^ l = r at *
      generalize L ^ l = s at *
      generalize yEr u g l = y at *
      have f1 : 2 * s * (1 + y) ≤ u * r * (1 + y) := mul_le_mul_of_nonneg_right hLl (by linarith)
      have f2 : u * r * (1 + y) ≤ x * (u * r * (1 + y)) := le_mul_of_one_le_left (by positivity) d1
      have f3 : 0 ≤ s * y := mul_nonneg d3 hY0
      have f4 : 0 ≤ r * y := mul_nonneg d2 hY0
      nlinarith

/-- Computed power times computed harmonic: irregular solid harmonics. -/
theorem tab_irr {lmax l e : ℕ} {a b : Vec 3} (h : Far θ (a - b)) (hl : l ≤ lmax)
    (hp : l ≤ 2 * p) {P : ℝ} (he : e ≤ 12 * p + 6) (hP : Ap u e ((len3 (a - b))⁻¹ ^ (l + 1)) P ((len3 (a - b))⁻¹ ^ (l + 1))) :
    l2 (Ir l) (fun m => (P : ℂ) * yv F lmax (F.rcos (F.sph (F.vsub a b) 1)) (F.sph (F.vsub a b) 2) l m
      - rY (a - b) l m / (len3 (a - b) : ℂ) ^ (2 * l + 1)) ≤ eps u g p * (len3 (a - b))⁻¹ ^ (l + 1) := by
  have h0 : a - b ≠ 0 := fun h0 => by
    have := h.1
    rw [h0, len3_zero] at this
    exact absurd hs.th0 (by linarith)
  have hη : 2 * η ≤ len3 (a - b) := by
    have h1 := hs.tiny
    have h2 := hs.u1
    have h3 := h.1
    have h4 := hs.th0
    nlinarith
  have h := yv_scale (g := g) (len3_dir (a - b)) (yv_far hF hs hη hl) hP
  have e1 : (fun m => (P : ℂ) * yv F lmax (F.rcos (F.sph (F.vsub a b) 1)) (F.sph (F.vsub a b) 2) l m - rY (a - b) l m / (len3 (a - b) : ℂ) ^ (2 * l + 1))
      = fun m => (P : ℂ) * yv F lmax (F.rcos (F.sph (F.vsub a b) 1)) (F.sph (F.vsub a b) 2) l m
        - (((len3 (a - b))⁻¹ ^ (l + 1) : ℝ) : ℂ) * rY (dir (a - b)) l m := by
    funext m; rw [rY_dir_inv h0]
  rw [e1]
  exact h.trans (mul_le_mul_of_nonneg_right (tEr_mono hF.nonneg (gpos hF) he hp)
    (pow_nonneg (inv_nonneg.mpr (len3_nonneg _)) _))

/-- Majorants of the products, each factor enlarged. -/
theorem beta_l2 {lmax l e : ℕ} (v' : Vec 3) (hl : l ≤ lmax) (hp : l ≤ 2 * p) {P P₀ ζ : ℝ} (he : e ≤ 12 * p + 6) (hP : Ap u e ζ P P₀) :
    l2 (Ir l) (fun m => (‖P‖ + ν * ζ) * (‖yv F lmax (F.rcos (F.sph v' 1)) (F.sph v' 2) l m‖ + ν))
      ≤ (1 + u) ^ 2 * (1 + eps u g p) * ζ := by
  have hu := hF.nonneg
  have hν := hs.nu0
  have hζ := hP.nonneg
  have h1 := yv_any hF v' hl
  have h2 := l2_add (Ir l) (fun m => ‖yv F lmax (F.rcos (F.sph v' 1)) (F.sph v' 2) l m‖) (fun _ => ν)
  have h3 := l2_le_card (s := Ir l) (x := fun _ => ν) (b := ν) hν (fun _ _ => by rw [Real.norm_of_nonneg hν])
  rw [l2_norm] at h2
  rw [card_Ir] at h3
  push_cast at h3
  have h4 := hs.nu_sqrt hp
  rw [mul_comm] at h4
  have h5 := hP.norm
  have hY := yEr_nonneg hu (gpos hF) l
  have hPn : ‖P‖ + ν * ζ ≤ (1 + u) ^ (e + 1) * ζ := by
    have a1 := mul_le_mul_of_nonneg_right hs.nu_le hζ
    have a2 : u * ζ ≤ (1 + u) ^ e * (u * ζ) := le_mul_of_one_le_left (by positivity) (one_le_pow_u hu e)
    rw [pow_succ]; linarith
  have hYn : l2 (Ir l) (fun m => ‖yv F lmax (F.rcos (F.sph v' 1)) (F.sph v' 2) l m‖ + ν) ≤ (1 + u) * (1 + yEr u g l) := by
    have : 0 ≤ u * yEr u g l := mul_nonneg hu hY
    linarith
  have h0 : 0 ≤ ‖P‖ + ν * ζ := by positivity
  rw [l2_smulR _ h0]
  refine (mul_le_mul hPn hYn (l2_nonneg _ _) (by positivity)).trans ?_
  have h6 : (1 + u) ^ e * (1 + yEr u g l) ≤ 1 + eps u g p := by
    have := tEr_mono hu (gpos hF) he hp
    unfold eps
    unfold tEr at this ⊢
    linarith
  have h7 := mul_le_mul_of_nonneg_left h6 (show 0 ≤ (1 + u) ^ 2 * ζ by positivity)
  calc (1 + u) ^ (e + 1) * ζ * ((1 + u) * (1 + yEr u g l)) = (1 + u) ^ 2 * ζ * ((1 + u) ^ e * (1 + yEr u g l)) := by rw [pow_succ]; ring
    _ ≤ (1 + u) ^ 2 * ζ * (1 + eps u g p) := h7
    _ = (1 + u) ^ 2 * (1 + eps u g p) * ζ := by ring

end

/-! ## Sums -/

theorem norm_le_l2 {s : Finset ℤ} {x : ℤ → ℂ} {i : ℤ} (hi : i ∈ s) : ‖x i‖ ≤ l2 s x := by
  unfold l2
  refine Real.le_sqrt_of_sq_le ?_
  exact single_le_sum (f := fun i => ‖x i‖ ^ 2) (fun _ _ => sq_nonneg _) hi

/-- Error of a computed sum: half a unit of the sum and of the floor. -/
theorem cadd_half {F : Flt} (hF : F.Low u η ρ) (x y : ℂ) : ‖F.cadd x y - (x + y)‖ ≤ u / 2 * (‖x + y‖ + 2 * η) := by
  have hu := hF.nonneg
  have hη := hF.eta
  have key : ∀ a b : ℝ, ‖(⟨F.rnd a, F.rnd b⟩ : ℂ) - ⟨a, b⟩‖ ≤ u / 2 * (‖(⟨a, b⟩ : ℂ)‖ + 2 * η) := by
    intro a b
    have ha := hF.rnd a
    have hb := hF.rnd b
    have e : ∀ x y : ℝ, ‖(⟨x, y⟩ : ℂ)‖ ^ 2 = x ^ 2 + y ^ 2 := fun x y => by rw [Complex.sq_norm, Complex.normSq_mk]; ring
    have e0 : (⟨F.rnd a, F.rnd b⟩ : ℂ) - ⟨a, b⟩ = ⟨F.rnd a - a, F.rnd b - b⟩ := rfl
    have hab := e a b
    have hn := norm_nonneg (⟨a, b⟩ : ℂ)
    have hA : |a| ≤ ‖(⟨a, b⟩ : ℂ)‖ := Complex.abs_re_le_norm (⟨a, b⟩ : ℂ)
    have hB : |b| ≤ ‖(⟨a, b⟩ : ℂ)‖ := Complex.abs_im_le_norm (⟨a, b⟩ : ℂ)
    have ha2 : (F.rnd a - a) ^ 2 ≤ (u / 2) ^ 2 * (a ^ 2 + η ^ 2 + 2 * |a| * η) := by
      have h1 : max |a| η ≤ |a| + η := max_le (by linarith [abs_nonneg a]) (by linarith [abs_nonneg a])
      have h2 := ha.trans (mul_le_mul_of_nonneg_left h1 (by linarith))
      have h3 := pow_le_pow_left₀ (abs_nonneg _) h2 2
      rw [sq_abs, mul_pow] at h3
      refine h3.trans (le_of_eq ?_)
      rw [add_sq, sq_abs]; ring
    have hb2 : (F.rnd b - b) ^ 2 ≤ (u / 2) ^ 2 * (b ^ 2 + η ^ 2 + 2 * |b| * η) := by
      have h1 : max |b| η ≤ |b| + η := max_le (by linarith [abs_nonneg b]) (by linarith [abs_nonneg b])
      have h2 := hb.trans (mul_le_mul_of_nonneg_left h1 (by linarith))
      have h3 := pow_le_pow_left₀ (abs_nonneg _) h2 2
      rw [sq_abs, mul_pow] at h3
      refine h3.trans (le_of_eq ?_)
      rw [add_sq, sq_abs]; ring
    rw [e0]
    refine le_of_sq_le_sq ?_ (by positivity)
    rw [e, mul_pow]
    have h4 : (a ^ 2 + η ^ 2 + 2 * |a| * η) + (b ^ 2 + η ^ 2 + 2 * |b| * η) ≤ (‖(⟨a, b⟩ : ℂ)‖ + 2 * η) ^ 2 := by
      have h5 := mul_le_mul_of_nonneg_right hA hη
      have h6 := mul_le_mul_of_nonneg_right hB hη
      nlinarith
    have := mul_le_mul_of_nonneg_left h4 (sq_nonneg (u / 2))
    linarith
  exact key _ _

theorem cadd_l2 {F : Flt} (hF : F.Low u η ρ) {j : ℕ} (x y : ℤ → ℂ) :
    l2 (Ir j) (fun i => F.cadd (x i) (y i) - (x i + y i)) ≤ u / 2 * (l2 (Ir j) (fun i => x i + y i) + 2 * Real.sqrt (2 * j + 1) * η) := by
  have hu := hF.nonneg
  have hη := hF.eta
  have b1 : l2 (Ir j) (fun i => F.cadd (x i) (y i) - (x i + y i)) ≤ l2 (Ir j) (fun i => u / 2 * (‖x i + y i‖ + 2 * η)) :=
    l2_mono fun i _ => by
      rw [Real.norm_of_nonneg (by positivity)]
      exact cadd_half hF _ _
  rw [l2_smulR _ (by linarith)] at b1
  refine b1.trans (mul_le_mul_of_nonneg_left ?_ (by linarith))
  have b2 := l2_add (Ir j) (fun i => ‖x i + y i‖) (fun _ => 2 * η)
  have b3 := l2_le_card (s := Ir j) (x := fun _ => 2 * η) (b := 2 * η) (by linarith) (fun _ _ => by rw [Real.norm_of_nonneg (by linarith)])
  rw [l2_norm] at b2
  rw [card_Ir] at b3
  push_cast at b3
  linarith

section
variable {κ : ℝ} {n m k : ℕ} {M N : ℝ} {s : Finset ℤ} {x' x y' y : ℤ → ℂ}

/-- Sum of two approximated vectors, computed. -/
theorem vcadd {F : Flt} (hF : F.Low u η ρ) (hκ : u ≤ κ) {j : ℕ} (hf : Flr (2 * Real.sqrt (2 * j + 1) * η) (M + N)) (hs : s = Ir j) (h : VAp κ n M s x' x) (h' : VAp κ m N s y' y) (hn : n + 1 ≤ k)
    (hm : m + 1 ≤ k) : VAp κ k (M + N) s (fun i => F.cadd (x' i) (y' i)) (fun i => x i + y i) := by
  have hκ0 := hF.nonneg.trans hκ
  obtain ⟨k, rfl⟩ : ∃ j, k = j + 1 := ⟨k - 1, by omega⟩
  have h := h.mono hκ0 (show n ≤ k by omega) le_rfl
  have h' := h'.mono hκ0 (show m ≤ k by omega) le_rfl
  refine ⟨?_, (l2_add _ _ _).trans (add_le_add h.2 h'.2)⟩
  have a1 := l2_tri s (fun i => F.cadd (x' i) (y' i)) (fun i => x' i + y' i) (fun i => x i + y i)
  have a2 : l2 s (fun i => F.cadd (x' i) (y' i) - (x' i + y' i)) ≤ κ * ((1 + κ) ^ k * M + (1 + κ) ^ k * N) := by
    have b2 := l2_add s x' y'
    have b3 := h.norm
    have b4 := h'.norm
    have b5 := cadd_l2 hF (j := j) x' y'
    rw [hs] at b2 b3 b4 ⊢
    have hM := h.nonneg
    have hN := h'.nonneg
    rcases hf with h0 | hf
    · have hM0 : M = 0 := by linarith
      have hN0 : N = 0 := by linarith
      rw [hM0, mul_zero] at b3
      rw [hN0, mul_zero] at b4
      have z : l2 (Ir j) (fun i => x' i + y' i) = 0 := le_antisymm (by linarith) (l2_nonneg _ _)
      rw [hM0, hN0, mul_zero, add_zero, mul_zero]
      have := l2_mono (s := Ir j) (x := fun i => F.cadd (x' i) (y' i) - (x' i + y' i)) (y := fun i => x' i + y' i) fun i hi => by
        have := norm_le_l2 (x := fun i => x' i + y' i) hi
        rw [z] at this
        have e : x' i + y' i = 0 := norm_le_zero_iff.mp this
        have e2 : F.cadd (x' i) (y' i) = 0 := hF.pair0 e
        rw [e2, e, sub_zero]
      linarith
    · have c1 : 2 * Real.sqrt (2 * j + 1) * η ≤ (1 + κ) ^ k * (M + N) :=
        hf.trans (le_mul_of_one_le_left (by linarith) (one_le_pow_u hκ0 k))
      have hu := hF.nonneg
      have c2 : l2 (Ir j) (fun i => x' i + y' i) + 2 * Real.sqrt (2 * j + 1) * η ≤ 2 * ((1 + κ) ^ k * M + (1 + κ) ^ k * N) := by
        have : (1 + κ) ^ k * (M + N) = (1 + κ) ^ k * M + (1 + κ) ^ k * N := by ring
        linarith
      have c3 := mul_le_mul_of_nonneg_left c2 (show 0 ≤ u / 2 by linarith)
      have c4 : 0 ≤ (1 + κ) ^ k * M + (1 + κ) ^ k * N := by positivity
      have c5 := mul_le_mul_of_nonneg_right hκ c4
      linarith
  have a3 : l2 s (fun i => (x' i + y' i) - (x i + y i)) ≤ ((1 + κ) ^ k - 1) * M + ((1 + κ) ^ k - 1) * N := by
    have : (fun i => (x' i + y' i) - (x i + y i)) = fun i => (x' i - x i) + (y' i - y i) := by funext i; ring
    rw [this]
    exact (l2_add _ _ _).trans (add_le_add h.1 h'.1)
  rw [pow_succ]
  nlinarith

end

section
variable {κ : ℝ} {n m k p : ℕ} {M N R : ℝ} {x' x y' y : ℕ → ℤ → ℂ}

theorem lcadd {F : Flt} (hF : F.Low u η ρ) (hκ : u ≤ κ) (hR : 0 < R)
    (hf : Flr (∑ j ∈ range (p + 1), R ^ j * (2 * Real.sqrt (2 * j + 1) * η)) (M + N)) (h : LAp κ n M p R x' x) (h' : LAp κ m N p R y' y)
    (hn : n + 1 ≤ k) (hm : m + 1 ≤ k) :
    LAp κ k (M + N) p R (fun i l => F.cadd (x' i l) (y' i l)) (fun i l => x i l + y i l) := by
  have hκ0 := hF.nonneg.trans hκ
  obtain ⟨k, rfl⟩ : ∃ j, k = j + 1 := ⟨k - 1, by omega⟩
  have h := h.mono hκ0 hR.le (show n ≤ k by omega) le_rfl
  have h' := h'.mono hκ0 hR.le (show m ≤ k by omega) le_rfl
  refine ⟨?_, (wl_add hR.le _ _).trans (add_le_add h.2 h'.2)⟩
  have a1 := wl_add hR.le (p := p) (fun i l => F.cadd (x' i l) (y' i l) - (x' i l + y' i l))
    (fun i l => (x' i l + y' i l) - (x i l + y i l))
  have e1 : (fun i l => F.cadd (x' i l) (y' i l) - (x' i l + y' i l) + (x' i l + y' i l - (x i l + y i l)))
      = fun i l => F.cadd (x' i l) (y' i l) - (x i l + y i l) := by funext i l; ring
  rw [e1] at a1
  have a2 : wl p R (fun i l => F.cadd (x' i l) (y' i l) - (x' i l + y' i l)) ≤ κ * ((1 + κ) ^ k * M + (1 + κ) ^ k * N) := by
    have b1 : wl p R (fun i l => F.cadd (x' i l) (y' i l) - (x' i l + y' i l))
        ≤ u / 2 * (wl p R (fun i l => x' i l + y' i l) + ∑ j ∈ range (p + 1), R ^ j * (2 * Real.sqrt (2 * j + 1) * η)) := by
      unfold wl
      rw [← sum_add_distrib, mul_sum]
      refine sum_le_sum fun j _ => ?_
      have c1 := cadd_l2 hF (j := j) (x' j) (y' j)
      have := mul_le_mul_of_nonneg_left c1 (pow_nonneg hR.le j)
      linarith
    have b2 := wl_add hR.le (p := p) x' y'
    have b3 := h.norm hR.le
    have b4 := h'.norm hR.le
    have hM := h.nonneg hR.le
    have hN := h'.nonneg hR.le
    have hu := hF.nonneg
    rcases hf with h0 | hf
    · have hM0 : M = 0 := by linarith
      have hN0 : N = 0 := by linarith
      rw [hM0, mul_zero] at b3
      rw [hN0, mul_zero] at b4
      have z : wl p R (fun i l => x' i l + y' i l) = 0 := le_antisymm (by linarith) (wl_nonneg hR.le _)
      rw [hM0, hN0, mul_zero, add_zero, mul_zero]
      refine le_trans (le_of_eq ?_) z.le
      refine wl_congr fun j hj l hl => ?_
      have z1 := (sum_eq_zero_iff_of_nonneg fun j _ => mul_nonneg (pow_nonneg hR.le j) (l2_nonneg _ _)).mp z j
        (mem_range.mpr (by omega))
      have z2 : l2 (Ir j) (fun l => x' j l + y' j l) = 0 := (mul_eq_zero.mp z1).resolve_left (pow_pos hR j).ne'
      have := norm_le_l2 (x := fun l => x' j l + y' j l) (mem_Ir.mpr hl)
      rw [z2] at this
      have e : x' j l + y' j l = 0 := norm_le_zero_iff.mp this
      have e2 : F.cadd (x' j l) (y' j l) = 0 := hF.pair0 e
      rw [e2, e, sub_zero]
    · have c1 := hf.trans (le_mul_of_one_le_left (by linarith) (one_le_pow_u hκ0 k))
      have c2 : wl p R (fun i l => x' i l + y' i l) + ∑ j ∈ range (p + 1), R ^ j * (2 * Real.sqrt (2 * j + 1) * η)
          ≤ 2 * ((1 + κ) ^ k * M + (1 + κ) ^ k * N) := by
        have : (1 + κ) ^ k * (M + N) = (1 + κ) ^ k * M + (1 + κ) ^ k * N := by ring
        linarith
      have c3 := mul_le_mul_of_nonneg_left c2 (show 0 ≤ u / 2 by linarith)
      have c4 : 0 ≤ (1 + κ) ^ k * M + (1 + κ) ^ k * N := by positivity
      have c5 := mul_le_mul_of_nonneg_right hκ c4
      linarith
  have a3 : wl p R (fun i l => (x' i l + y' i l) - (x i l + y i l)) ≤ ((1 + κ) ^ k - 1) * M + ((1 + κ) ^ k - 1) * N := by
    have : (fun i l => (x' i l + y' i l) - (x i l + y i l)) = fun i l => (x' i l - x i l) + (y' i l - y i l) := by
      funext i l; ring
    rw [this]
    exact (wl_add hR.le _ _).trans (add_le_add h.1 h'.1)
  rw [pow_succ]
  nlinarith

end

/-! ## Bilinear operations -/

/-- A computed bilinear operation with approximated second argument. -/
theorem bilinf (hu : 0 ≤ u) {ε : ℝ} (hε : 0 ≤ ε) {K K₁ : ℕ} {ι : Type*} (T : Finset ι) (s : Finset ℤ) (l : ι → ℕ)
    (B : ι → (ℤ → ℂ) → ℤ → ℂ) (Mj : ι → (ℤ → ℝ) → ℤ → ℝ) (C ζ : ι → ℝ) (β : ι → ℤ → ℝ) (z' z : ι → ℤ → ℂ) (w' : ℤ → ℂ)
    (hB : ∀ n ∈ T, ∀ k ∈ s, ‖B n (z' n) k - B n (z n) k‖ ≤ Mj n (fun m => ‖z' n m - z n m‖) k)
    (hM0 : ∀ n ∈ T, ∀ y k, 0 ≤ Mj n y k)
    (hM : ∀ n ∈ T, ∀ y, l2 s (Mj n y) ≤ C n * l2 (Ir (l n)) y) (hC : ∀ n ∈ T, 0 ≤ C n)
    (hz' : ∀ n ∈ T, l2 (Ir (l n)) (fun m => z' n m - z n m) ≤ ε * ζ n) (hβ : ∀ n ∈ T, l2 (Ir (l n)) (β n) ≤ (1 + u) ^ K₁ * (1 + ε) * ζ n)
    (hζ : ∀ n ∈ T, 0 ≤ ζ n)
    (hw : ∀ k ∈ s, ‖w' k - ∑ n ∈ T, B n (z' n) k‖ ≤ ((1 + u) ^ K - 1) * ∑ n ∈ T, Mj n (β n) k) :
    l2 s (fun k => w' k - ∑ n ∈ T, B n (z n) k) ≤ ((1 + u) ^ (K + K₁) * (1 + ε) - 1) * ∑ n ∈ T, C n * ζ n := by
  have hK := one_le_pow_u hu K
  have a1 := l2_tri s w' (fun k => ∑ n ∈ T, B n (z' n) k) (fun k => ∑ n ∈ T, B n (z n) k)
  have a2 : l2 s (fun k => w' k - ∑ n ∈ T, B n (z' n) k) ≤ ((1 + u) ^ K - 1) * ∑ n ∈ T, C n * ((1 + u) ^ K₁ * (1 + ε) * ζ n) := by
    have b1 : l2 s (fun k => w' k - ∑ n ∈ T, B n (z' n) k)
        ≤ l2 s (fun k => ((1 + u) ^ K - 1) * ∑ n ∈ T, Mj n (β n) k) := by
      refine l2_mono fun k hk => ?_
      rw [Real.norm_of_nonneg (mul_nonneg (by linarith) (sum_nonneg fun n hn => hM0 n hn _ _))]
      exact hw k hk
    rw [l2_smulR _ (by linarith)] at b1
    refine b1.trans (mul_le_mul_of_nonneg_left ?_ (by linarith))
    refine (l2_sum _ _ _).trans (sum_le_sum fun n hn => (hM n hn _).trans (mul_le_mul_of_nonneg_left ?_ (hC n hn)))
    exact hβ n hn
  have a3 : l2 s (fun k => ∑ n ∈ T, B n (z' n) k - ∑ n ∈ T, B n (z n) k) ≤ ∑ n ∈ T, C n * (ε * ζ n) := by
    have b1 : l2 s (fun k => ∑ n ∈ T, B n (z' n) k - ∑ n ∈ T, B n (z n) k)
        ≤ l2 s (fun k => ∑ n ∈ T, Mj n (fun m => ‖z' n m - z n m‖) k) := by
      refine l2_mono fun k hk => ?_
      rw [Real.norm_of_nonneg (sum_nonneg fun n hn => hM0 n hn _ _), ← sum_sub_distrib]
      exact (norm_sum_le _ _).trans (sum_le_sum fun n hn => hB n hn k hk)
    refine b1.trans ((l2_sum _ _ _).trans (sum_le_sum fun n hn => (hM n hn _).trans (mul_le_mul_of_nonneg_left ?_ (hC n hn))))
    rw [l2_norm]
    exact hz' n hn
  have e1 : ∑ n ∈ T, C n * ((1 + u) ^ K₁ * (1 + ε) * ζ n) = (1 + u) ^ K₁ * (1 + ε) * ∑ n ∈ T, C n * ζ n := by
    rw [mul_sum]; exact sum_congr rfl fun n _ => by ring
  have e2 : ∑ n ∈ T, C n * (ε * ζ n) = ε * ∑ n ∈ T, C n * ζ n := by
    rw [mul_sum]; exact sum_congr rfl fun n _ => by ring
  rw [e1] at a2
  rw [e2] at a3
  have hX : 0 ≤ ∑ n ∈ T, C n * ζ n := sum_nonneg fun n hn => mul_nonneg (hC n hn) (hζ n hn)
  have hK₁ := one_le_pow_u hu K₁
  refine a1.trans ((add_le_add a2 a3).trans ?_)
  generalize ∑ n ∈ T, C n * ζ n = X at hX
  rw [pow_add]
  generalize (1 + u) ^ K = a at hK
  generalize (1 + u) ^ K₁ = b at hK₁
  have : 0 ≤ ((b - 1) * (1 + ε)) * X := mul_nonneg (mul_nonneg (by linarith) (by linarith)) hX
  nlinarith

end Lo3
end FMM
