import Verif.Basic
import Mathlib.Analysis.InnerProductSpace.PiL2
import Mathlib.Analysis.Complex.Basic

/-!
# Euclidean norms of finite families
-/

namespace FMM
open Finset

section
variable {ι κ : Type*} {E : Type*} [NormedAddCommGroup E]

/-- Euclidean norm of a family over a finite set. -/
noncomputable def l2 (s : Finset ι) (x : ι → E) : ℝ := Real.sqrt (∑ i ∈ s, ‖x i‖ ^ 2)

theorem l2_nonneg (s : Finset ι) (x : ι → E) : 0 ≤ l2 s x := Real.sqrt_nonneg _

theorem l2_sq (s : Finset ι) (x : ι → E) : l2 s x ^ 2 = ∑ i ∈ s, ‖x i‖ ^ 2 :=
  Real.sq_sqrt (sum_nonneg fun _ _ => sq_nonneg _)

theorem l2_norm (s : Finset ι) (x : ι → E) : l2 s (fun i => ‖x i‖) = l2 s x := by
  unfold l2; simp only [norm_norm]

theorem l2_zero (s : Finset ι) : l2 s (fun _ => (0 : E)) = 0 := by
  unfold l2; simp

theorem l2_congr {s : Finset ι} {x y : ι → E} (h : ∀ i ∈ s, x i = y i) : l2 s x = l2 s y := by
  unfold l2
  rw [sum_congr rfl fun i hi => by rw [h i hi]]

theorem l2_mono {F : Type*} [NormedAddCommGroup F] {s : Finset ι} {x : ι → E} {y : ι → F} (h : ∀ i ∈ s, ‖x i‖ ≤ ‖y i‖) :
    l2 s x ≤ l2 s y :=
  Real.sqrt_le_sqrt (sum_le_sum fun i hi => pow_le_pow_left₀ (norm_nonneg _) (h i hi) 2)

theorem l2_add (s : Finset ι) (x y : ι → E) : l2 s (fun i => x i + y i) ≤ l2 s x + l2 s y := by
  have h := norm_add_le (WithLp.toLp 2 (fun i : s => ‖x i‖) : EuclideanSpace ℝ s) (WithLp.toLp 2 (fun i : s => ‖y i‖))
  rw [EuclideanSpace.norm_eq, EuclideanSpace.norm_eq, EuclideanSpace.norm_eq] at h
  simp only [PiLp.add_apply, Real.norm_eq_abs, abs_norm] at h
  have e : ∀ g : ι → ℝ, ∑ i : s, g i = ∑ i ∈ s, g i := fun g => sum_coe_sort s g
  rw [e fun i => ‖x i‖ ^ 2, e fun i => ‖y i‖ ^ 2, e fun i => |‖x i‖ + ‖y i‖| ^ 2] at h
  refine le_trans ?_ h
  refine Real.sqrt_le_sqrt (sum_le_sum fun i _ => ?_)
  exact pow_le_pow_left₀ (norm_nonneg _) ((norm_add_le _ _).trans (le_abs_self _)) 2

theorem l2_neg (s : Finset ι) (x : ι → E) : l2 s (fun i => -x i) = l2 s x := by
  unfold l2; simp only [norm_neg]

theorem l2_tri (s : Finset ι) (x y z : ι → E) :
    l2 s (fun i => x i - z i) ≤ l2 s (fun i => x i - y i) + l2 s (fun i => y i - z i) := by
  refine le_trans (le_of_eq ?_) (l2_add s _ _)
  exact l2_congr fun i _ => by abel

theorem l2_le_add (s : Finset ι) (x y : ι → E) : l2 s x ≤ l2 s y + l2 s (fun i => x i - y i) := by
  refine le_trans (le_of_eq ?_) (l2_add s _ _)
  exact l2_congr fun i _ => by abel

theorem l2_sum {κ : Type*} (s : Finset ι) (t : Finset κ) (x : κ → ι → E) :
    l2 s (fun i => ∑ k ∈ t, x k i) ≤ ∑ k ∈ t, l2 s (x k) := by
  classical
  induction t using Finset.induction_on with
  | empty => simp [l2_zero]
  | insert a t ha ih =>
    rw [sum_insert ha]
    refine le_trans (le_of_eq (l2_congr fun i _ => by rw [sum_insert ha])) ((l2_add s _ _).trans ?_)
    exact add_le_add_right ih _

theorem l2_list {β : Type*} (s : Finset ι) (L : List β) (x : β → ι → E) :
    l2 s (fun i => (L.map fun b => x b i).sum) ≤ (L.map fun b => l2 s (x b)).sum := by
  induction L with
  | nil => simp [l2_zero]
  | cons b L ih =>
    simp only [List.map_cons, List.sum_cons]
    exact (l2_add s _ _).trans (add_le_add_right ih _)

theorem l2_smul (s : Finset ι) (c : ℂ) (x : ι → ℂ) : l2 s (fun i => c * x i) = ‖c‖ * l2 s x := by
  unfold l2
  simp only [norm_mul, mul_pow, ← mul_sum]
  rw [Real.sqrt_mul (sq_nonneg _), Real.sqrt_sq (norm_nonneg _)]

theorem l2_smulR (s : Finset ι) {c : ℝ} (hc : 0 ≤ c) (x : ι → ℝ) : l2 s (fun i => c * x i) = c * l2 s x := by
  unfold l2
  simp only [norm_mul, mul_pow, ← mul_sum]
  rw [Real.sqrt_mul (sq_nonneg _), Real.sqrt_sq (norm_nonneg _), Real.norm_of_nonneg hc]

theorem le_l2 {s : Finset ι} (x : ι → E) {i : ι} (hi : i ∈ s) : ‖x i‖ ≤ l2 s x := by
  apply Real.le_sqrt_of_sq_le
  exact single_le_sum (f := fun i => ‖x i‖ ^ 2) (fun _ _ => sq_nonneg _) hi

theorem l2_le_card {s : Finset ι} {x : ι → E} {b : ℝ} (hb : 0 ≤ b) (h : ∀ i ∈ s, ‖x i‖ ≤ b) :
    l2 s x ≤ Real.sqrt s.card * b := by
  unfold l2
  refine (Real.sqrt_le_sqrt (sum_le_sum fun i hi => pow_le_pow_left₀ (norm_nonneg _) (h i hi) 2)).trans (le_of_eq ?_)
  rw [sum_const, nsmul_eq_mul, Real.sqrt_mul (Nat.cast_nonneg _), Real.sqrt_sq hb]

/-- Cauchy-Schwarz for nonnegative families. -/
theorem sum_mul_le_l2 (s : Finset ι) (x y : ι → ℝ) : ∑ i ∈ s, x i * y i ≤ l2 s x * l2 s y := by
  unfold l2
  simp only [Real.norm_eq_abs, sq_abs]
  exact Real.sum_mul_le_sqrt_mul_sqrt s x y

theorem norm_sum_mul_le (s : Finset ι) (x y : ι → ℂ) : ‖∑ i ∈ s, x i * y i‖ ≤ l2 s x * l2 s y := by
  rw [← l2_norm s x, ← l2_norm s y]
  refine le_trans ?_ (sum_mul_le_l2 s _ _)
  refine (norm_sum_le _ _).trans (le_of_eq (sum_congr rfl fun i _ => norm_mul _ _))

/-- A bound on all pairings bounds the norm. -/
theorem l2_le_of_pair {s : Finset ι} {x : ι → E} {K : ℝ} (hK : 0 ≤ K)
    (h : ∀ g : ι → ℝ, (∀ i, 0 ≤ g i) → ∑ i ∈ s, ‖x i‖ * g i ≤ K * l2 s g) : l2 s x ≤ K := by
  have h1 := h (fun i => ‖x i‖) fun i => norm_nonneg _
  rw [l2_norm] at h1
  have h2 : ∑ i ∈ s, ‖x i‖ * ‖x i‖ = l2 s x ^ 2 := by
    rw [l2_sq]; exact sum_congr rfl fun i _ => by ring
  rw [h2, pow_two] at h1
  rcases (l2_nonneg s x).eq_or_lt with h0 | h0
  · rw [← h0]; exact hK
  · exact le_of_mul_le_mul_right h1 h0

/-- The transpose of a matrix has the same norm. -/
theorem l2_transpose {s : Finset ι} {t : Finset κ} (B : ι → κ → ℂ) {K : ℝ} (hK : 0 ≤ K)
    (h : ∀ x : ι → ℂ, l2 t (fun m => ∑ k ∈ s, B k m * x k) ≤ K * l2 s x) (a : κ → ℂ) :
    l2 s (fun k => ∑ m ∈ t, B k m * a m) ≤ K * l2 t a := by
  set r := fun k => ∑ m ∈ t, B k m * a m with hr
  have h1 : ((l2 s r ^ 2 : ℝ) : ℂ) = ∑ m ∈ t, (∑ k ∈ s, B k m * (starRingEnd ℂ) (r k)) * a m := by
    rw [l2_sq]
    push_cast
    simp only [sum_mul]
    rw [sum_comm]
    refine sum_congr rfl fun k _ => ?_
    rw [← Complex.mul_conj', show r k = ∑ m ∈ t, B k m * a m from rfl, sum_mul]
    exact sum_congr rfl fun m _ => by ring
  have h2 := norm_sum_mul_le t (fun m => ∑ k ∈ s, B k m * (starRingEnd ℂ) (r k)) a
  rw [← h1, Complex.norm_real, Real.norm_of_nonneg (sq_nonneg _)] at h2
  have h3 := h fun k => (starRingEnd ℂ) (r k)
  have h4 : l2 s (fun k => (starRingEnd ℂ) (r k)) = l2 s r := by
    unfold l2; simp only [RCLike.norm_conj]
  rw [h4] at h3
  have h5 : l2 s r ^ 2 ≤ K * l2 s r * l2 t a := h2.trans (mul_le_mul_of_nonneg_right h3 (l2_nonneg _ _))
  rcases (l2_nonneg s r).eq_or_lt with h0 | h0
  · rw [← h0]; exact mul_nonneg hK (l2_nonneg _ _)
  · refine le_of_mul_le_mul_right ?_ h0
    calc l2 s r * l2 s r = l2 s r ^ 2 := by ring
      _ ≤ _ := h5
      _ = _ := by ring

end

end FMM
