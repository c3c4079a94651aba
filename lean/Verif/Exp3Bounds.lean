import Verif.Exp3Lemmas
import Verif.PropsFields
import Verif.Exp2Bounds

/-!
# Error bounds of the 3D expansions
-/

namespace FMM
open Finset

theorem len3_eq_dist2 (x y : Vec 3) : len3 (x - y) = dist2 x y := by
  rw [len3, dot3, dist2, Fin.sum_univ_three]; congr 1; simp only [Pi.sub_apply]; ring

theorem len3_neg (v : Vec 3) : len3 (-v) = len3 v := by
  unfold len3 dot3; congr 1; simp

theorem dist2_triangle3 (x y z : Vec 3) : dist2 x z ≤ dist2 x y + dist2 y z := by
  rw [← len3_eq_dist2, ← len3_eq_dist2, ← len3_eq_dist2]
  refine le_trans (le_of_eq ?_) (len3_add_le _ _)
  congr 1; abel

theorem directPotential_three (S : List (Source 3)) (x : Vec 3) (h : ∀ s ∈ S, s.pos ≠ x) :
    directPotential true S x = (S.map fun s => s.q * -(1 / dist2 s.pos x)).sum := by
  unfold directPotential
  congr 1
  refine List.map_congr_left fun s hs => ?_
  unfold directTerm kernelSpec sgn
  rw [if_neg (h s hs)]
  simp
  ring

/-- A list of approximations, one for each source. -/
theorem list_bound (S : List (Source 3)) (F : Source 3 → ℂ) (G : Source 3 → ℝ) (B : ℝ)
    (h : ∀ s ∈ S, ‖((G s : ℝ) : ℂ) - F s‖ ≤ B) :
    |-((S.map fun s => (s.q : ℂ) * F s).sum).re - (S.map fun s => s.q * -(G s)).sum| ≤ totalStrength S * B := by
  induction S with
  | nil => simp [totalStrength_eq]
  | cons s S ih =>
    have h1 := ih fun t ht => h t (by simp [ht])
    have h2 := h s (by simp)
    rw [List.map_cons, List.sum_cons, List.map_cons, List.sum_cons, totalStrength_cons, add_mul, Complex.add_re]
    have h3 : |(F s).re - G s| ≤ B := by
      refine le_trans ?_ h2
      rw [← norm_neg, neg_sub]
      refine le_trans (le_of_eq ?_) (Complex.abs_re_le_norm _)
      simp
    have h4 : ((s.q : ℂ) * F s).re = s.q * (F s).re := by simp
    rw [h4]
    have : ∀ a b c d : ℝ, -(a + b) - (c + d) = -(a + c) + (-b - d) := fun a b c d => by ring
    rw [this]
    refine (abs_add_le _ _).trans (add_le_add ?_ h1)
    rw [abs_neg, show s.q * (F s).re + s.q * -(G s) = s.q * ((F s).re - G s) by ring, abs_mul]
    exact mul_le_mul_of_nonneg_left h3 (abs_nonneg _)

theorem cut_mono {u v r R : ℝ} (p : ℕ) (hu : 0 ≤ u) (huR : u ≤ R) (hrv : r ≤ v) (hRr : R < r) :
    (u / v) ^ (p + 1) / (v - u) ≤ (R / r) ^ (p + 1) / (r - R) := by
  have hr : 0 < r := lt_of_le_of_lt (hu.trans huR) hRr
  have hv : 0 < v := hr.trans_le hrv
  refine div_le_div₀ ?_ ?_ (by linarith) (by linarith)
  · have := hu.trans huR; positivity
  · refine pow_le_pow_left₀ (by positivity) ?_ _
    exact div_le_div₀ (hu.trans huR) huR hr hrv

/-- Multipole expansion. -/
theorem me_bound3 (c x : Vec 3) (p : ℕ) (S : List (Source 3)) {R r : ℝ} (hS : ∀ s ∈ S, dist2 s.pos c ≤ R)
    (hRr : R < r) (hx : r ≤ dist2 x c) :
    |-(meSum3 (meCoeff3 c S) p (x - c)).re - directPotential true S x| ≤ totalStrength S * ((R / r) ^ (p + 1) / (r - R)) := by
  rw [directPotential_three S x fun s hs h => by have := hS s hs; rw [h] at this; linarith, meSum3_sources]
  refine list_bound S _ (fun s => 1 / dist2 s.pos x) _ fun s hs => ?_
  have h1 := hS s hs
  rw [← len3_eq_dist2] at h1 hx
  have := multipole_cut (x - c) (s.pos - c) (by linarith) (p + 1)
  rw [show x - c - (s.pos - c) = x - s.pos by abel, len3_eq_dist2, dist2_comm] at this
  exact this.trans (cut_mono p (len3_nonneg _) h1 hx hRr)

/-- Local expansion of sources. -/
theorem le_bound3 (c y : Vec 3) (p : ℕ) (S : List (Source 3)) {r D : ℝ} (hy : dist2 y c ≤ r) (hrD : r < D)
    (hS : ∀ s ∈ S, D ≤ dist2 s.pos c) :
    |-(leSum3 (leCoeff3 c S) p (y - c)).re - directPotential true S y| ≤ totalStrength S * ((r / D) ^ (p + 1) / (D - r)) := by
  rw [directPotential_three S y fun s hs h => by have := hS s hs; rw [h] at this; linarith, leSum3_sources]
  refine list_bound S _ (fun s => 1 / dist2 s.pos y) _ fun s hs => ?_
  have h1 := hS s hs
  rw [← len3_eq_dist2] at h1 hy
  have := multipole_cut (s.pos - c) (y - c) (by linarith) (p + 1)
  rw [show s.pos - c - (y - c) = s.pos - y by abel, len3_eq_dist2 s.pos y] at this
  exact this.trans (cut_mono p (len3_nonneg _) hy h1 hrD)

/-- Conversion. -/
theorem m2l_bound3 (c c' y : Vec 3) (p : ℕ) (S : List (Source 3)) {R r D : ℝ} (hS : ∀ s ∈ S, dist2 s.pos c ≤ R)
    (hy : dist2 y c' ≤ r) (hD : D ≤ dist2 c c') (h : r + R < D) :
    |-(leSum3 (m2lC p (meCoeff3 c S) (c - c')) p (y - c')).re - directPotential true S y|
      ≤ totalStrength S * (((r + R) / D) ^ (p + 1) / (D - (r + R))) := by
  have hne : ∀ s ∈ S, s.pos ≠ y := by
    intro s hs he
    have h1 := hS s hs
    rw [he] at h1
    have h2 := dist2_triangle3 c y c'
    rw [dist2_comm c y] at h2
    linarith
  rw [directPotential_three S y hne, m2lC_sources]
  refine list_bound S _ (fun s => 1 / dist2 s.pos y) _ fun s hs => ?_
  have h1 := hS s hs
  rw [← len3_eq_dist2] at h1 hy hD
  have := double_cut (y - c') (-(s.pos - c)) (c - c') (by rw [len3_neg]; linarith) (p + 1) (range (p + 1) ×ˢ range (p + 1)) (by
    intro j n hjn
    rw [mem_product, mem_range, mem_range]
    omega)
  rw [show c - c' - (y - c' + -(s.pos - c)) = s.pos - y by abel, len3_eq_dist2 s.pos y, len3_neg] at this
  exact this.trans (cut_mono p (add_nonneg (len3_nonneg _) (len3_nonneg _)) (add_le_add hy h1) hD h)

theorem leSum3_add (a b : ℕ → ℤ → ℂ) (p : ℕ) (v : Vec 3) :
    leSum3 (fun n m => a n m + b n m) p v = leSum3 a p v + leSum3 b p v := by
  unfold leSum3
  rw [← sum_add_distrib]
  refine sum_congr rfl fun n _ => ?_
  rw [← sum_add_distrib]
  exact sum_congr rfl fun m _ => by ring

theorem leSum3_list {α : Type} (L : List α) (F : α → ℕ → ℤ → ℂ) (p : ℕ) (v : Vec 3) :
    leSum3 (fun n m => (L.map fun x => F x n m).sum) p v = (L.map fun x => leSum3 (F x) p v).sum := by
  induction L with
  | nil => simp [leSum3]
  | cons x L ih =>
    simp only [List.map_cons, List.sum_cons]
    rw [leSum3_add, ih]

theorem meCoeff3_append (c : Vec 3) (S T : List (Source 3)) (n : ℕ) (m : ℤ) :
    meCoeff3 c (S ++ T) n m = meCoeff3 c S n m + meCoeff3 c T n m := by
  simp [meCoeff3]

theorem meCoeff3_perm (c : Vec 3) {S T : List (Source 3)} (h : S.Perm T) (n : ℕ) (m : ℤ) : meCoeff3 c S n m = meCoeff3 c T n m :=
  (h.map _).sum_eq

theorem meCoeff3_flatMap {α : Type} (c : Vec 3) (L : List α) (f : α → List (Source 3)) (n : ℕ) (m : ℤ) :
    meCoeff3 c (L.flatMap f) n m = (L.map fun x => meCoeff3 c (f x) n m).sum := by
  induction L with
  | nil => simp [meCoeff3]
  | cons x L ih => rw [List.flatMap_cons, meCoeff3_append, ih, List.map_cons, List.sum_cons]

end FMM
