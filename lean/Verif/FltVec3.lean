import Verif.FltYlm

/-!
# Vector-valued rounding errors

`VAp`: approximation in the Euclidean norm of one degree of coefficients; `LAp`: approximation of all degrees in the weighted
sum of these norms.  Loops that accumulate computed terms, computed radii and powers.
-/

namespace FMM
open Finset

namespace Fl3
variable {F : Flt3} {u g : ℝ}

/-! ## Accumulating loops -/

theorem loopM_ap {F : Flt} (hF : F.Ok u) (n : ℕ) (f : ℕ → ℂ → Outcome ℂ) (t : ℕ → ℂ) (M : ℕ → ℝ) {c n0 : ℕ} {s' s : ℂ} {M0 : ℝ}
    (hs : Ap u n0 M0 s' s) (hc : c ≤ n0)
    (h : ∀ i < n, ∃ t', (∀ b, f i b = .ok (F.cadd b t')) ∧ Ap u c (M i) t' (t i)) :
    ∃ r, loopM n f s' = .ok r ∧ Ap u (n0 + n) (M0 + ∑ i ∈ range n, M i) r (s + ∑ i ∈ range n, t i) := by
  refine loopM_invariant (fun i r => Ap u (n0 + i) (M0 + ∑ i ∈ range i, M i) r (s + ∑ i ∈ range i, t i)) f s' n
    (by simpa using hs) (fun i hi b hb => ?_)
  obtain ⟨t', h1, h2⟩ := h i hi
  refine ⟨_, h1 b, ?_⟩
  rw [sum_range_succ, sum_range_succ, ← add_assoc M0, ← add_assoc s]
  have hb' : Ap u (n0 + i) (M0 + ∑ i ∈ range i, M i) b (s + ∑ i ∈ range i, t i) := hb
  exact hF.cadd' hb' h2 (by omega) (by omega)

theorem loopZ_ap {F : Flt} (hF : F.Ok u) (lo hi : ℤ) (f : ℤ → ℂ → Outcome ℂ) (t : ℤ → ℂ) (M : ℤ → ℝ) {c n0 : ℕ} {s' s : ℂ}
    {M0 : ℝ} (hs : Ap u n0 M0 s' s) (hc : c ≤ n0)
    (h : ∀ m, lo ≤ m → m ≤ hi → ∃ t', (∀ b, f m b = .ok (F.cadd b t')) ∧ Ap u c (M m) t' (t m)) :
    ∃ r, loopZ lo hi f s' = .ok r ∧
      Ap u (n0 + (hi + 1 - lo).toNat) (M0 + ∑ m ∈ Icc lo hi, M m) r (s + ∑ m ∈ Icc lo hi, t m) := by
  unfold loopZ
  have := loopM_ap hF (hi + 1 - lo).toNat (fun i => f (lo + i)) (fun i => t (lo + i)) (fun i => M (lo + i)) hs hc
    (fun i hi' => h _ (by omega) (by omega))
  rwa [sum_Icc_range lo hi M, sum_Icc_range lo hi t] at this

/-! ## Radii and powers -/

theorem vsub_close {F : Flt} (hF : F.Ok u) (a b : Vec 3) : len3 (F.vsub a b - (a - b)) ≤ u * len3 (a - b) := by
  have hu := hF.nonneg
  have h : ∀ i, (F.vsub a b i - (a i - b i)) ^ 2 ≤ u ^ 2 * (a i - b i) ^ 2 := fun i => by
    have := hF.rnd (a i - b i)
    have h2 := pow_le_pow_left₀ (abs_nonneg _) this 2
    rw [mul_pow, sq_abs, sq_abs] at h2
    exact h2
  unfold len3
  rw [← Real.sqrt_sq hu, ← Real.sqrt_mul (sq_nonneg _)]
  refine Real.sqrt_le_sqrt ?_
  unfold dot3
  simp only [Pi.sub_apply]
  have h0 := h 0; have h1 := h 1; have h2 := h 2
  nlinarith

theorem nrm3_ap (hF : F.Ok u g) {v v' : Vec 3} (hv : len3 (v' - v) ≤ u * len3 v) : Ap u 2 (len3 v) (F.nrm3 v') (len3 v) := by
  have h1 : Ap u 1 (len3 v) (len3 v') (len3 v) := by
    refine ⟨?_, by rw [Real.norm_of_nonneg (len3_nonneg v)]⟩
    rw [pow_one, add_sub_cancel_left, Real.norm_eq_abs]
    exact (abs_len3_sub _ _).trans hv
  refine h1.round hF.nonneg ?_
  have := hF.nrm3 v'
  rwa [← len3_eq_norm, Real.norm_eq_abs, Real.norm_of_nonneg (len3_nonneg v')] at *

theorem sph0 (F : Flt3) (v : Vec 3) : F.sph v 0 = F.nrm3 v := rfl

theorem pow_two_le (hF : F.Ok u g) : (1 + u) ^ 2 ≤ 3 / 2 := by
  have h1 := hF.nonneg
  have h2 := hF.small
  nlinarith

theorem nrm3_inv (hF : F.Ok u g) {v v' : Vec 3} (hv : len3 (v' - v) ≤ u * len3 v) (h0 : v ≠ 0) :
    F.nrm3 v' ≠ 0 ∧ Ap u 4 (len3 v)⁻¹ (F.nrm3 v')⁻¹ (len3 v)⁻¹ := by
  have h := nrm3_ap hF hv
  have := Ap.invk hF.nonneg 2 (pow_two_le hF) (len3_pos h0).ne' (by
    rw [Real.norm_of_nonneg (len3_nonneg v)]; exact h.1)
  rwa [Real.norm_of_nonneg (len3_nonneg v)] at this

/-- `a, a x, a x x, …` in floating point. -/
noncomputable def rpw (F : Flt3) (x a : ℝ) : ℕ → ℝ
  | 0 => a
  | i + 1 => F.rnd (rpw F x a i * x)

/-- `a, a / x, a / x / x, …` in floating point. -/
noncomputable def rdv (F : Flt3) (x a : ℝ) : ℕ → ℝ
  | 0 => a
  | i + 1 => F.rnd (rdv F x a i / x)

theorem rpw_ap (hF : F.Ok u g) {m n0 : ℕ} {D M : ℝ} {x' x a' a : ℝ} (hx : Ap u m D x' x) (ha : Ap u n0 M a' a) (i : ℕ) :
    Ap u (n0 + (m + 1) * i) (M * D ^ i) (rpw F x' a' i) (a * x ^ i) := by
  induction i with
  | zero => simpa [rpw] using ha
  | succ i ih =>
    have := hF.rrnd (ih.mul hF.nonneg hx)
    rw [pow_succ, pow_succ, ← mul_assoc, ← mul_assoc]
    exact this.mono hF.nonneg (by ring_nf; rfl) le_rfl

theorem rdv_ap (hF : F.Ok u g) {m n0 : ℕ} {D M : ℝ} {x' x a' a : ℝ} (hx : Ap u m D x'⁻¹ x⁻¹) (ha : Ap u n0 M a' a) (i : ℕ) :
    Ap u (n0 + (m + 1) * i) (M * D ^ i) (rdv F x' a' i) (a * x⁻¹ ^ i) := by
  induction i with
  | zero => simpa [rdv] using ha
  | succ i ih =>
    have := hF.rrnd (ih.mul hF.nonneg hx)
    rw [pow_succ, pow_succ, ← mul_assoc, ← mul_assoc]
    rw [← div_eq_mul_inv] at this
    exact this.mono hF.nonneg (by ring_nf; rfl) le_rfl

theorem powTable_ok (F : Flt3) (x : ℝ) (p : ℕ) :
    ∃ t, powTable F x p = .ok t ∧ t.size = p + 1 ∧ ∀ k ≤ p, t.val k = rpw F x 1 k := by
  refine ⟨⟨p + 1, fun k => if 0 ≤ k ∧ k < 0 + (p + 1) then rpw F x 1 (k - 0) else 0⟩, ?_, rfl, fun k hk => ?_⟩
  · unfold powTable
    rw [loopM_rmw (p + 1) 0 _ (fun _ y _ => y) (rpw F x 1) 1 rfl (Arr.new (p + 1)) (by simp [Arr.new]) ?_]
    · rfl
    · intro i hi c' hc'
      simp only [Arr.new] at hc'
      simp only
      rw [Arr.wr_ok _ (by omega), ok_bind]
      rfl
  · simp only; rw [if_pos (by omega)]; simp

/-- Powers of the computed radius. -/
theorem pw_r (hF : F.Ok u g) {v v' : Vec 3} (hv : len3 (v' - v) ≤ u * len3 v) (n : ℕ) :
    Ap u (3 * n) (len3 v ^ n) (rpw F (F.nrm3 v') 1 n) (len3 v ^ n) := by
  have := rpw_ap hF (nrm3_ap hF hv) (Ap.refl (u := u) (le_of_eq (norm_one (α := ℝ)))) n
  simpa using this

theorem rinv_ap (hF : F.Ok u g) {v v' : Vec 3} (hv : len3 (v' - v) ≤ u * len3 v) (h0 : v ≠ 0) :
    Ap u 5 (len3 v)⁻¹ (F.rnd (1 / F.nrm3 v')) (len3 v)⁻¹ := by
  have := hF.rrnd (nrm3_inv hF hv h0).2
  rwa [← one_div (F.nrm3 v')] at this

/-- Powers of the computed reciprocal of the radius. -/
theorem pw_rinv (hF : F.Ok u g) {v v' : Vec 3} (hv : len3 (v' - v) ≤ u * len3 v) (h0 : v ≠ 0) (n : ℕ) :
    Ap u (6 * n) ((len3 v)⁻¹ ^ n) (rpw F (F.rnd (1 / F.nrm3 v')) 1 n) ((len3 v)⁻¹ ^ n) := by
  have := rpw_ap hF (rinv_ap hF hv h0) (Ap.refl (u := u) (le_of_eq (norm_one (α := ℝ)))) n
  simpa using this

/-- Repeated division by the computed radius. -/
theorem dv_r (hF : F.Ok u g) {v v' : Vec 3} (hv : len3 (v' - v) ≤ u * len3 v) (h0 : v ≠ 0) (n : ℕ) :
    Ap u (5 + 5 * n) ((len3 v)⁻¹ ^ (n + 1)) (rdv F (F.nrm3 v') (F.rnd (1 / F.nrm3 v')) n) ((len3 v)⁻¹ ^ (n + 1)) := by
  have := rdv_ap hF (nrm3_inv hF hv h0).2 (rinv_ap hF hv h0) n
  rwa [← pow_succ'] at this

/-! ## Tables with their powers -/

/-- Error of the products of powers and harmonics used by the operations on expansions of order `p`. -/
noncomputable def eps (u g : ℝ) (p : ℕ) : ℝ := tEr u g (12 * p + 6) (2 * p)

theorem eps_nonneg (hu : 0 ≤ u) (hg : 0 ≤ g) (p : ℕ) : 0 ≤ eps u g p := tEr_nonneg hu hg _ _

/-- Computed power times computed harmonic: regular solid harmonics. -/
theorem tab_reg (hF : F.Ok u g) {p lmax l e : ℕ} {v v' : Vec 3} (hv : len3 (v' - v) ≤ u * len3 v) (hl : l ≤ lmax) (hp : l ≤ 2 * p)
    {P : ℝ} (he : e ≤ 12 * p + 6) (hP : Ap u e (len3 v ^ l) P (len3 v ^ l)) :
    l2 (Ir l) (fun m => (P : ℂ) * yv F lmax (F.rcos (F.sph v' 1)) (F.sph v' 2) l m - rY v l m) ≤ eps u g p * len3 v ^ l := by
  have h := yv_scale (g := g) (len3_dir v) (yv_l2 hF hv hl) hP
  have e1 : (fun m => (P : ℂ) * yv F lmax (F.rcos (F.sph v' 1)) (F.sph v' 2) l m - rY v l m)
      = fun m => (P : ℂ) * yv F lmax (F.rcos (F.sph v' 1)) (F.sph v' 2) l m - ((len3 v ^ l : ℝ) : ℂ) * rY (dir v) l m := by
    funext m; rw [rY_dir_pow]
  rw [e1]
  exact h.trans (mul_le_mul_of_nonneg_right (tEr_mono hF.nonneg hF.leg_nonneg he hp) (pow_nonneg (len3_nonneg v) _))

theorem rY_dir_inv {v : Vec 3} (h0 : v ≠ 0) (l : ℕ) (m : ℤ) :
    rY v l m / (len3 v : ℂ) ^ (2 * l + 1) = (((len3 v)⁻¹ ^ (l + 1) : ℝ) : ℂ) * rY (dir v) l m := by
  have := Exp3.rY_dir h0 l m
  rw [← this]
  unfold dir
  congr 2
  rw [inv_pow, one_div, div_eq_mul_inv, ← mul_inv, pow_succ']

/-- Computed power times computed harmonic: irregular solid harmonics. -/
theorem tab_irr (hF : F.Ok u g) {p lmax l e : ℕ} {v v' : Vec 3} (hv : len3 (v' - v) ≤ u * len3 v) (h0 : v ≠ 0) (hl : l ≤ lmax)
    (hp : l ≤ 2 * p) {P : ℝ} (he : e ≤ 12 * p + 6) (hP : Ap u e ((len3 v)⁻¹ ^ (l + 1)) P ((len3 v)⁻¹ ^ (l + 1))) :
    l2 (Ir l) (fun m => (P : ℂ) * yv F lmax (F.rcos (F.sph v' 1)) (F.sph v' 2) l m - rY v l m / (len3 v : ℂ) ^ (2 * l + 1))
      ≤ eps u g p * (len3 v)⁻¹ ^ (l + 1) := by
  have h := yv_scale (g := g) (len3_dir v) (yv_l2 hF hv hl) hP
  have e1 : (fun m => (P : ℂ) * yv F lmax (F.rcos (F.sph v' 1)) (F.sph v' 2) l m - rY v l m / (len3 v : ℂ) ^ (2 * l + 1))
      = fun m => (P : ℂ) * yv F lmax (F.rcos (F.sph v' 1)) (F.sph v' 2) l m - (((len3 v)⁻¹ ^ (l + 1) : ℝ) : ℂ) * rY (dir v) l m := by
    funext m; rw [rY_dir_inv h0]
  rw [e1]
  exact h.trans (mul_le_mul_of_nonneg_right (tEr_mono hF.nonneg hF.leg_nonneg he hp)
    (pow_nonneg (inv_nonneg.mpr (len3_nonneg v)) _))

/-! ## One degree of coefficients -/

/-- `x'` approximates `x` in the Euclidean norm over `s`. -/
def VAp (κ : ℝ) (n : ℕ) (M : ℝ) (s : Finset ℤ) (x' x : ℤ → ℂ) : Prop :=
  l2 s (fun i => x' i - x i) ≤ ((1 + κ) ^ n - 1) * M ∧ l2 s x ≤ M

section
variable {κ : ℝ} {n m k : ℕ} {M N : ℝ} {s : Finset ℤ} {x' x y' y : ℤ → ℂ}

theorem VAp.nonneg (h : VAp κ n M s x' x) : 0 ≤ M := (l2_nonneg _ _).trans h.2

theorem VAp.norm (h : VAp κ n M s x' x) : l2 s x' ≤ (1 + κ) ^ n * M := by
  have h1 := l2_le_add s x' x
  have h2 := h.1
  have h3 := h.2
  linarith

theorem VAp.mono (hκ : 0 ≤ κ) (h : VAp κ n M s x' x) (hn : n ≤ m) (hM : M ≤ N) : VAp κ m N s x' x := by
  refine ⟨h.1.trans ?_, h.2.trans hM⟩
  have h1 := one_le_pow_u hκ n
  have h2 : (1 + κ) ^ n ≤ (1 + κ) ^ m := pow_le_pow_right₀ (by linarith) hn
  exact mul_le_mul (by linarith) hM h.nonneg (by linarith)

theorem VAp.congr (h : VAp κ n M s x' x) (h1 : ∀ i ∈ s, x' i = y' i) (h2 : ∀ i ∈ s, x i = y i) : VAp κ n M s y' y := by
  refine ⟨?_, ?_⟩
  · rw [← l2_congr (x := fun i => x' i - x i) fun i hi => by rw [h1 i hi, h2 i hi]]; exact h.1
  · rw [← l2_congr h2]; exact h.2

theorem VAp.zero (hκ : 0 ≤ κ) (hM : 0 ≤ M) : VAp κ n M s (fun _ => 0) (fun _ => 0) := by
  have := one_le_pow_u hκ n
  refine ⟨?_, by rw [l2_zero]; exact hM⟩
  simp only [sub_self]
  rw [l2_zero]
  exact mul_nonneg (by linarith) hM

/-- Sum of two approximated vectors, computed. -/
theorem VAp.cadd {F : Flt} (hF : F.Ok u) (hκ : u ≤ κ) (h : VAp κ n M s x' x) (h' : VAp κ m N s y' y) (hn : n + 1 ≤ k)
    (hm : m + 1 ≤ k) : VAp κ k (M + N) s (fun i => F.cadd (x' i) (y' i)) (fun i => x i + y i) := by
  have hκ0 := hF.nonneg.trans hκ
  obtain ⟨k, rfl⟩ : ∃ j, k = j + 1 := ⟨k - 1, by omega⟩
  have h := h.mono hκ0 (show n ≤ k by omega) le_rfl
  have h' := h'.mono hκ0 (show m ≤ k by omega) le_rfl
  refine ⟨?_, (l2_add _ _ _).trans (add_le_add h.2 h'.2)⟩
  have a1 := l2_tri s (fun i => F.cadd (x' i) (y' i)) (fun i => x' i + y' i) (fun i => x i + y i)
  have a2 : l2 s (fun i => F.cadd (x' i) (y' i) - (x' i + y' i)) ≤ κ * ((1 + κ) ^ k * M + (1 + κ) ^ k * N) := by
    have b1 : l2 s (fun i => F.cadd (x' i) (y' i) - (x' i + y' i)) ≤ l2 s (fun i => u * ‖x' i + y' i‖) :=
      l2_mono fun i _ => by
        rw [Real.norm_of_nonneg (mul_nonneg hF.nonneg (norm_nonneg _))]
        exact hF.cadd_err _ _
    rw [l2_smulR _ hF.nonneg, l2_norm] at b1
    have b2 := l2_add s x' y'
    have b3 := h.norm
    have b4 := h'.norm
    exact b1.trans (mul_le_mul hκ (b2.trans (add_le_add b3 b4)) (l2_nonneg _ _) hκ0)
  have a3 : l2 s (fun i => (x' i + y' i) - (x i + y i)) ≤ ((1 + κ) ^ k - 1) * M + ((1 + κ) ^ k - 1) * N := by
    have : (fun i => (x' i + y' i) - (x i + y i)) = fun i => (x' i - x i) + (y' i - y i) := by funext i; ring
    rw [this]
    exact (l2_add _ _ _).trans (add_le_add h.1 h'.1)
  rw [pow_succ]
  nlinarith

end

/-! ## All degrees -/

/-- Weighted sum of the norms of the degrees up to `p`. -/
noncomputable def wl (p : ℕ) (R : ℝ) (x : ℕ → ℤ → ℂ) : ℝ := ∑ j ∈ range (p + 1), R ^ j * l2 (Ir j) (x j)

theorem wl_nonneg {p : ℕ} {R : ℝ} (hR : 0 ≤ R) (x : ℕ → ℤ → ℂ) : 0 ≤ wl p R x :=
  sum_nonneg fun _ _ => mul_nonneg (pow_nonneg hR _) (l2_nonneg _ _)

theorem wl_add {p : ℕ} {R : ℝ} (hR : 0 ≤ R) (x y : ℕ → ℤ → ℂ) :
    wl p R (fun j k => x j k + y j k) ≤ wl p R x + wl p R y := by
  unfold wl
  rw [← sum_add_distrib]
  refine sum_le_sum fun j _ => ?_
  rw [← mul_add]
  exact mul_le_mul_of_nonneg_left (l2_add _ _ _) (pow_nonneg hR _)

theorem wl_congr {p : ℕ} {R : ℝ} {x y : ℕ → ℤ → ℂ} (h : ∀ j ≤ p, ∀ k : ℤ, |k| ≤ j → x j k = y j k) : wl p R x = wl p R y := by
  unfold wl
  refine sum_congr rfl fun j hj => ?_
  rw [l2_congr fun k hk => h j (by rw [mem_range] at hj; omega) k (mem_Ir.mp hk)]

/-- The coefficients `x'` approximate `x` in the weighted norm. -/
def LAp (κ : ℝ) (n : ℕ) (M : ℝ) (p : ℕ) (R : ℝ) (x' x : ℕ → ℤ → ℂ) : Prop :=
  wl p R (fun j k => x' j k - x j k) ≤ ((1 + κ) ^ n - 1) * M ∧ wl p R x ≤ M

section
variable {κ : ℝ} {n m k p : ℕ} {M N R : ℝ} {x' x y' y : ℕ → ℤ → ℂ}

theorem LAp.nonneg (hR : 0 ≤ R) (h : LAp κ n M p R x' x) : 0 ≤ M := (wl_nonneg hR _).trans h.2

theorem LAp.norm (hR : 0 ≤ R) (h : LAp κ n M p R x' x) : wl p R x' ≤ (1 + κ) ^ n * M := by
  have h1 := wl_add hR (p := p) (fun j k => x' j k - x j k) x
  have e : (fun j k => x' j k - x j k + x j k) = x' := by funext j k; ring
  rw [e] at h1
  have h2 := h.1
  have h3 := h.2
  linarith

theorem LAp.mono (hκ : 0 ≤ κ) (hR : 0 ≤ R) (h : LAp κ n M p R x' x) (hn : n ≤ m) (hM : M ≤ N) : LAp κ m N p R x' x := by
  refine ⟨h.1.trans ?_, h.2.trans hM⟩
  have h1 := one_le_pow_u hκ n
  have h2 : (1 + κ) ^ n ≤ (1 + κ) ^ m := pow_le_pow_right₀ (by linarith) hn
  exact mul_le_mul (by linarith) hM (h.nonneg hR) (by linarith)

theorem LAp.congr (h : LAp κ n M p R x' x) (h1 : ∀ j ≤ p, ∀ k : ℤ, |k| ≤ j → x' j k = y' j k)
    (h2 : ∀ j ≤ p, ∀ k : ℤ, |k| ≤ j → x j k = y j k) : LAp κ n M p R y' y := by
  refine ⟨?_, ?_⟩
  · rw [← wl_congr (x := fun j k => x' j k - x j k) fun j hj k hk => by rw [h1 j hj k hk, h2 j hj k hk]]; exact h.1
  · rw [← wl_congr h2]; exact h.2

theorem LAp.zero (hκ : 0 ≤ κ) (hM : 0 ≤ M) : LAp κ n M p R (fun _ _ => 0) (fun _ _ => 0) := by
  have := one_le_pow_u hκ n
  have e : wl p R (fun _ _ => 0) = 0 := by unfold wl; simp [l2_zero]
  refine ⟨?_, by rw [e]; exact hM⟩
  simp only [sub_self]
  rw [e]
  exact mul_nonneg (by linarith) hM

theorem LAp.cadd {F : Flt} (hF : F.Ok u) (hκ : u ≤ κ) (hR : 0 ≤ R) (h : LAp κ n M p R x' x) (h' : LAp κ m N p R y' y)
    (hn : n + 1 ≤ k) (hm : m + 1 ≤ k) :
    LAp κ k (M + N) p R (fun i l => F.cadd (x' i l) (y' i l)) (fun i l => x i l + y i l) := by
  have hκ0 := hF.nonneg.trans hκ
  obtain ⟨k, rfl⟩ : ∃ j, k = j + 1 := ⟨k - 1, by omega⟩
  have h := h.mono hκ0 hR (show n ≤ k by omega) le_rfl
  have h' := h'.mono hκ0 hR (show m ≤ k by omega) le_rfl
  refine ⟨?_, (wl_add hR _ _).trans (add_le_add h.2 h'.2)⟩
  have a1 := wl_add hR (p := p) (fun i l => F.cadd (x' i l) (y' i l) - (x' i l + y' i l))
    (fun i l => (x' i l + y' i l) - (x i l + y i l))
  have e1 : (fun i l => F.cadd (x' i l) (y' i l) - (x' i l + y' i l) + (x' i l + y' i l - (x i l + y i l)))
      = fun i l => F.cadd (x' i l) (y' i l) - (x i l + y i l) := by funext i l; ring
  rw [e1] at a1
  have a2 : wl p R (fun i l => F.cadd (x' i l) (y' i l) - (x' i l + y' i l)) ≤ κ * ((1 + κ) ^ k * M + (1 + κ) ^ k * N) := by
    have b1 : wl p R (fun i l => F.cadd (x' i l) (y' i l) - (x' i l + y' i l)) ≤ u * wl p R (fun i l => x' i l + y' i l) := by
      unfold wl
      rw [mul_sum]
      refine sum_le_sum fun j _ => ?_
      have c1 : l2 (Ir j) (fun l => F.cadd (x' j l) (y' j l) - (x' j l + y' j l)) ≤ l2 (Ir j) (fun l => u * ‖x' j l + y' j l‖) :=
        l2_mono fun i _ => by
          rw [Real.norm_of_nonneg (mul_nonneg hF.nonneg (norm_nonneg _))]
          exact hF.cadd_err _ _
      rw [l2_smulR _ hF.nonneg, l2_norm] at c1
      have := mul_le_mul_of_nonneg_left c1 (pow_nonneg hR j)
      linarith
    have b2 := wl_add hR (p := p) x' y'
    have b3 := h.norm hR
    have b4 := h'.norm hR
    exact b1.trans (mul_le_mul hκ (b2.trans (add_le_add b3 b4)) (wl_nonneg hR _) hκ0)
  have a3 : wl p R (fun i l => (x' i l + y' i l) - (x i l + y i l)) ≤ ((1 + κ) ^ k - 1) * M + ((1 + κ) ^ k - 1) * N := by
    have : (fun i l => (x' i l + y' i l) - (x i l + y i l)) = fun i l => (x' i l - x i l) + (y' i l - y i l) := by
      funext i l; ring
    rw [this]
    exact (wl_add hR _ _).trans (add_le_add h.1 h'.1)
  rw [pow_succ]
  nlinarith

end

/-! ## Bilinear operations -/

/-- A computed bilinear operation with approximated second argument. -/
theorem bilin (hu : 0 ≤ u) {ε : ℝ} {K : ℕ} {ι : Type*} (T : Finset ι) (s : Finset ℤ) (l : ι → ℕ)
    (B : ι → (ℤ → ℂ) → ℤ → ℂ) (Mj : ι → (ℤ → ℝ) → ℤ → ℝ) (C ζ : ι → ℝ) (z' z : ι → ℤ → ℂ) (w' : ℤ → ℂ)
    (hB : ∀ n ∈ T, ∀ k ∈ s, ‖B n (z' n) k - B n (z n) k‖ ≤ Mj n (fun m => ‖z' n m - z n m‖) k)
    (hM0 : ∀ n ∈ T, ∀ y k, 0 ≤ Mj n y k)
    (hM : ∀ n ∈ T, ∀ y, l2 s (Mj n y) ≤ C n * l2 (Ir (l n)) y) (hC : ∀ n ∈ T, 0 ≤ C n)
    (hz' : ∀ n ∈ T, l2 (Ir (l n)) (fun m => z' n m - z n m) ≤ ε * ζ n) (hz : ∀ n ∈ T, l2 (Ir (l n)) (z n) ≤ ζ n)
    (hw : ∀ k ∈ s, ‖w' k - ∑ n ∈ T, B n (z' n) k‖ ≤ ((1 + u) ^ K - 1) * ∑ n ∈ T, Mj n (fun m => ‖z' n m‖) k) :
    l2 s (fun k => w' k - ∑ n ∈ T, B n (z n) k) ≤ ((1 + u) ^ K * (1 + ε) - 1) * ∑ n ∈ T, C n * ζ n := by
  have hK := one_le_pow_u hu K
  have a1 := l2_tri s w' (fun k => ∑ n ∈ T, B n (z' n) k) (fun k => ∑ n ∈ T, B n (z n) k)
  have a2 : l2 s (fun k => w' k - ∑ n ∈ T, B n (z' n) k) ≤ ((1 + u) ^ K - 1) * ∑ n ∈ T, C n * ((1 + ε) * ζ n) := by
    have b1 : l2 s (fun k => w' k - ∑ n ∈ T, B n (z' n) k)
        ≤ l2 s (fun k => ((1 + u) ^ K - 1) * ∑ n ∈ T, Mj n (fun m => ‖z' n m‖) k) := by
      refine l2_mono fun k hk => ?_
      rw [Real.norm_of_nonneg (mul_nonneg (by linarith) (sum_nonneg fun n hn => hM0 n hn _ _))]
      exact hw k hk
    rw [l2_smulR _ (by linarith)] at b1
    refine b1.trans (mul_le_mul_of_nonneg_left ?_ (by linarith))
    refine (l2_sum _ _ _).trans (sum_le_sum fun n hn => (hM n hn _).trans (mul_le_mul_of_nonneg_left ?_ (hC n hn)))
    rw [l2_norm]
    have c1 := l2_le_add (Ir (l n)) (z' n) (z n)
    have c2 := hz' n hn
    have c3 := hz n hn
    linarith
  have a3 : l2 s (fun k => ∑ n ∈ T, B n (z' n) k - ∑ n ∈ T, B n (z n) k) ≤ ∑ n ∈ T, C n * (ε * ζ n) := by
    have b1 : l2 s (fun k => ∑ n ∈ T, B n (z' n) k - ∑ n ∈ T, B n (z n) k)
        ≤ l2 s (fun k => ∑ n ∈ T, Mj n (fun m => ‖z' n m - z n m‖) k) := by
      refine l2_mono fun k hk => ?_
      rw [Real.norm_of_nonneg (sum_nonneg fun n hn => hM0 n hn _ _), ← sum_sub_distrib]
      exact (norm_sum_le _ _).trans (sum_le_sum fun n hn => hB n hn k hk)
    refine b1.trans ((l2_sum _ _ _).trans (sum_le_sum fun n hn => (hM n hn _).trans (mul_le_mul_of_nonneg_left ?_ (hC n hn))))
    rw [l2_norm]
    exact hz' n hn
  have e1 : ∑ n ∈ T, C n * ((1 + ε) * ζ n) = (1 + ε) * ∑ n ∈ T, C n * ζ n := by
    rw [mul_sum]; exact sum_congr rfl fun n _ => by ring
  have e2 : ∑ n ∈ T, C n * (ε * ζ n) = ε * ∑ n ∈ T, C n * ζ n := by
    rw [mul_sum]; exact sum_congr rfl fun n _ => by ring
  rw [e1] at a2
  rw [e2] at a3
  nlinarith

end Fl3
end FMM
