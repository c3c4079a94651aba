import Verif.PropsFields
import Verif.Geometry

/-!
# Distances from the centre of a box; unguarded direct sums; permutations of sources
-/

namespace FMM
variable {d : ℕ}

theorem dist2_box {b : Box d} {x : Vec d} (hb : 0 ≤ b.len) (h : b.contains x) :
    dist2 x b.center ≤ Real.sqrt d / 2 * b.len := by
  rw [Box.contains_iff] at h
  unfold dist2
  have h1 : ∑ j, (x j - b.center j) ^ 2 ≤ ∑ _j : Fin d, (b.len / 2) ^ 2 := by
    refine Finset.sum_le_sum fun j _ => ?_
    have := h j
    exact sq_le_sq' (by linarith [this.1]) (by linarith [this.2])
  calc _ ≤ Real.sqrt (∑ _j : Fin d, (b.len / 2) ^ 2) := Real.sqrt_le_sqrt h1
    _ = _ := by
      rw [Finset.sum_const, Finset.card_univ, Fintype.card_fin, nsmul_eq_mul, Real.sqrt_mul (by positivity),
        Real.sqrt_sq (by positivity)]
      ring

theorem abs_le_dist2 (x y : Vec d) (j : Fin d) : |x j - y j| ≤ dist2 x y := by
  unfold dist2
  rw [← Real.sqrt_sq_eq_abs]
  exact Real.sqrt_le_sqrt (Finset.single_le_sum (f := fun j => (x j - y j) ^ 2) (fun _ _ => sq_nonneg _)
    (Finset.mem_univ j))

theorem forcefieldSum_unsafe (grav : Bool) (sources : List (Source d)) (x : Vec d) (eps : ℝ) (he : 0 ≤ eps)
    (h : ∀ s ∈ sources, s.pos ≠ x) :
    forcefieldSum grav false sources x eps = .ok (directField grav sources x eps) := by
  rw [← forcefieldSum_safe grav sources x eps he]
  unfold forcefieldSum
  rw [foldlM_ok (fun frc src => (do
      let f ← forcefield grav false src x eps
      .ok (Vec.add frc f) : Outcome (Vec d))) (fun frc src => frc + directFieldTerm grav x eps src) _ _ (by
    intro a ha s
    rw [forcefield_of_ne _ _ _ _ _ he (h a ha)]
    unfold directFieldTerm; rw [if_neg (h a ha)]; rfl)]
  rw [foldlM_ok _ (fun frc src => frc + directFieldTerm grav x eps src) _ _ (by
      intro a _ s; rw [forcefield_safe _ _ _ _ he]; rfl)]

theorem directPotential_append (grav : Bool) (S T : List (Source d)) (x : Vec d) :
    directPotential grav (S ++ T) x = directPotential grav S x + directPotential grav T x := by
  simp [directPotential]

theorem directPotential_perm (grav : Bool) {S T : List (Source d)} (x : Vec d) (h : S.Perm T) :
    directPotential grav S x = directPotential grav T x := (h.map _).sum_eq

theorem directField_append (grav : Bool) (S T : List (Source d)) (x : Vec d) (eps : ℝ) :
    directField grav (S ++ T) x eps = directField grav S x eps + directField grav T x eps := by
  simp [directField]

theorem directField_perm (grav : Bool) {S T : List (Source d)} (x : Vec d) (eps : ℝ) (h : S.Perm T) :
    directField grav S x eps = directField grav T x eps := (h.map _).sum_eq

theorem directTerm_neg (x : Vec d) (s : Source d) : directTerm false x s = -directTerm true x s := by
  unfold directTerm
  split_ifs
  · simp
  · unfold kernelSpec sgn; split_ifs <;> simp_all

theorem directPotential_neg (S : List (Source d)) (x : Vec d) :
    directPotential false S x = -directPotential true S x := by
  unfold directPotential
  rw [List.sum_neg, List.map_map]
  congr 1
  exact List.map_congr_left fun s _ => directTerm_neg x s

theorem directFieldTerm_neg (x : Vec d) (eps : ℝ) (s : Source d) :
    directFieldTerm false x eps s = -directFieldTerm true x eps s := by
  unfold directFieldTerm
  split_ifs
  · simp
  · unfold fieldSpec sgn; funext j; simp

theorem directField_neg (S : List (Source d)) (x : Vec d) (eps : ℝ) :
    directField false S x eps = -directField true S x eps := by
  unfold directField
  rw [List.sum_neg, List.map_map]
  congr 1
  exact List.map_congr_left fun s _ => directFieldTerm_neg x eps s

end FMM
