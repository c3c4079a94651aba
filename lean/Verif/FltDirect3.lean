import Verif.FltRun3
import Verif.FltDirect

/-!
# Rounding errors of the direct sums in space
-/

namespace FMM

/-- Absolute value of the potential of one source. -/
noncomputable def absTerm3 (x : Vec 3) (s : Source 3) : ℝ :=
  open Classical in if s.pos = x then 0 else |s.q| / dist2 s.pos x

/-- Sum of the absolute values of the potentials. -/
noncomputable def absPotential3 (S : List (Source 3)) (x : Vec 3) : ℝ := (S.map (absTerm3 x)).sum

/-- Absolute value of a component of the force of one source. -/
noncomputable def absFieldTerm3 (x : Vec 3) (eps : ℝ) (j : Fin 3) (s : Source 3) : ℝ :=
  open Classical in if s.pos = x then 0 else |s.q| / (dist2 s.pos x ^ 3 + eps) * |s.pos j - x j|

/-- Sum of the absolute values of a component of the forces of the sources. -/
noncomputable def absField3 (S : List (Source 3)) (x : Vec 3) (eps : ℝ) (j : Fin 3) : ℝ := (S.map (absFieldTerm3 x eps j)).sum

theorem absTerm3_nonneg (x : Vec 3) (s : Source 3) : 0 ≤ absTerm3 x s := by
  unfold absTerm3
  have := dist2_nonneg s.pos x
  split_ifs <;> positivity

theorem absFieldTerm3_nonneg (x : Vec 3) {eps : ℝ} (he : 0 ≤ eps) (j : Fin 3) (s : Source 3) : 0 ≤ absFieldTerm3 x eps j s := by
  unfold absFieldTerm3
  have := dist2_nonneg s.pos x
  split_ifs <;> positivity

namespace Fl3
variable {F : Flt3} {u g : ℝ} (hF : F.Ok u g)
include hF

theorem dist_ap (a b : Vec 3) : Ap u 2 (dist2 a b) (F.nrm3 (F.vsub a b)) (dist2 a b) := by
  rw [← len3_eq_dist2]; exact nrm3_ap hF (vsub_close hF.toOk a b)

theorem dist_inv {a b : Vec 3} (h : a ≠ b) :
    F.nrm3 (F.vsub a b) ≠ 0 ∧ Ap u 4 (dist2 a b)⁻¹ (F.nrm3 (F.vsub a b))⁻¹ (dist2 a b)⁻¹ := by
  rw [← len3_eq_dist2]; exact nrm3_inv hF (vsub_close hF.toOk a b) (sub_ne_zero.mpr h)

theorem dist_zero (a : Vec 3) : F.nrm3 (F.vsub a a) = 0 := by
  have h := (dist_ap hF a a).1
  rw [(dist2_eq_zero_iff a a).mpr rfl, mul_zero, sub_zero] at h
  exact norm_le_zero_iff.mp h

/-- One source away from the point of evaluation. -/
theorem potential_ne (grav safe : Bool) (s : Source 3) (x : Vec 3) (h : s.pos ≠ x) :
    ∃ v, potential F grav safe s x = .ok v ∧ Ap u 5 (absTerm3 x s) v (directTerm grav x s) := by
  obtain ⟨h1, h2⟩ := dist_inv hF h
  refine ⟨_, by unfold potential; simp only; rw [if_neg (by simp [h1]), if_neg h1], ?_⟩
  unfold directTerm absTerm3 kernelSpec
  rw [if_neg h, if_neg h, if_neg (show ¬ (3 = 2) by norm_num)]
  refine Ap.sign grav ?_
  have h5 : Ap u 0 |s.q| (-s.q) (-s.q) := Ap.refl (by rw [Real.norm_eq_abs, abs_neg])
  have := hF.rrnd (h5.mul hF.nonneg h2)
  rw [← div_eq_mul_inv |s.q|, ← div_eq_mul_inv (-s.q), ← div_eq_mul_inv (-s.q)] at this
  rw [← neg_div]; exact this

theorem potential_safe (grav : Bool) (s : Source 3) (x : Vec 3) :
    ∃ v, potential F grav true s x = .ok v ∧ Ap u 5 (absTerm3 x s) v (directTerm grav x s) := by
  by_cases h : s.pos = x
  · refine ⟨0, ?_, ?_⟩
    · unfold potential
      rw [h, dist_zero hF]; simp
    · unfold directTerm absTerm3
      rw [if_pos h, if_pos h]
      exact Ap.zero le_rfl hF.nonneg
  · exact potential_ne hF grav true s x h

theorem potentialSum_safe (grav : Bool) (S : List (Source 3)) (x : Vec 3) :
    ∃ v, potentialSum F grav true S x = .ok v ∧
      Ap u (S.length + 5) (absPotential3 S x) v (directPotential grav S x) := by
  obtain ⟨v, hv, hv'⟩ := Fl.fold_ap hF.toOk (fun s => potential F grav true s x) (directTerm grav x) (absTerm3 x) 5 S
    (fun s _ => potential_safe hF grav s x) 5 le_rfl 0 0 0 (Ap.zero le_rfl hF.nonneg)
  refine ⟨v, hv, ?_⟩
  rw [zero_add, zero_add, add_comm 5] at hv'
  exact hv'

theorem potentialSum_unsafe (grav : Bool) (S : List (Source 3)) (x : Vec 3) (hS : ∀ s ∈ S, s.pos ≠ x) :
    ∃ v, potentialSum F grav false S x = .ok v ∧
      Ap u (S.length + 5) (absPotential3 S x) v (directPotential grav S x) := by
  obtain ⟨v, hv, hv'⟩ := Fl.fold_ap hF.toOk (fun s => potential F grav false s x) (directTerm grav x) (absTerm3 x) 5 S
    (fun s hs => potential_ne hF grav false s x (hS s hs)) 5 le_rfl 0 0 0 (Ap.zero le_rfl hF.nonneg)
  refine ⟨v, hv, ?_⟩
  rw [zero_add, zero_add, add_comm 5] at hv'
  exact hv'

/-! ## Forces -/

theorem pow_nine_le (hu : u ≤ 1 / 32) : (1 + u) ^ 9 ≤ 3 / 2 := by
  have h1 := hF.nonneg
  calc (1 + u) ^ 9 ≤ (33 / 32) ^ 9 := pow_le_pow_left₀ (by linarith) (by linarith) 9
    _ ≤ 3 / 2 := by norm_num

/-- The computed denominator of the force. -/
theorem denom_ap (a b : Vec 3) {eps : ℝ} (he : 0 ≤ eps) :
    Ap u 9 (dist2 a b ^ 3 + eps)
      (F.rnd (F.rnd (F.rnd (F.nrm3 (F.vsub a b) * F.nrm3 (F.vsub a b)) * F.nrm3 (F.vsub a b)) + eps)) (dist2 a b ^ 3 + eps) := by
  have h1 := dist_ap hF a b
  have h2 := hF.rrnd (h1.mul hF.nonneg h1)
  have h3 := hF.rrnd (h2.mul hF.nonneg h1)
  have h4 := hF.rrnd (h3.add ((Ap.refl (u := u) (x := eps) (by rw [Real.norm_eq_abs, abs_of_nonneg he])).mono hF.nonneg
    (Nat.zero_le _) le_rfl))
  have e : dist2 a b * dist2 a b * dist2 a b = dist2 a b ^ 3 := by ring
  rw [e] at h4
  exact h4

theorem forcefield_ne (hu : u ≤ 1 / 32) (grav safe : Bool) (s : Source 3) (x : Vec 3) (eps : ℝ) (he : 0 ≤ eps) (h : s.pos ≠ x) :
    ∃ v, forcefield F grav safe s x eps = .ok v ∧
      ∀ j, Ap u 21 (absFieldTerm3 x eps j s) (v j) (directFieldTerm grav x eps s j) := by
  have hr := dist2_pos h
  have hD : 0 < dist2 s.pos x ^ 3 + eps := by positivity
  have h1 := denom_ap hF s.pos x he
  obtain ⟨h3, h4⟩ := Ap.invk hF.nonneg 9 (pow_nine_le hF hu) hD.ne' (by
    have := h1.1
    rwa [Real.norm_eq_abs (dist2 s.pos x ^ 3 + eps), abs_of_pos hD])
  rw [Real.norm_eq_abs, abs_of_pos hD] at h4
  have h5 := hF.rrnd ((Ap.refl (u := u) (x := s.q) (M := |s.q|) le_rfl).mul hF.nonneg h4)
  rw [← div_eq_mul_inv s.q (F.rnd _)] at h5
  refine ⟨_, by unfold forcefield; simp only; rw [if_neg (by simp [(dist_inv hF h).1]), if_neg h3], fun j => ?_⟩
  have hd : Ap u 1 |s.pos j - x j| (F.vsub s.pos x j) (s.pos j - x j) := by
    have := hF.rrnd (Ap.refl (u := u) (x := s.pos j - x j) le_rfl)
    simpa [Flt.vsub] using this
  have h6 := hF.rrnd (hd.mul hF.nonneg h5)
  have h7 := Ap.sign grav h6
  unfold directFieldTerm absFieldTerm3
  rw [if_neg h, if_neg h, div_eq_mul_inv, mul_comm]
  convert h7 using 1
  · cases grav <;> simp [Vec.neg, Vec.scale, Flt.vscale]
  · unfold fieldSpec forceDenom
    rw [if_neg (by norm_num), div_eq_mul_inv]
    ring

theorem forcefield_safe (hu : u ≤ 1 / 32) (grav : Bool) (s : Source 3) (x : Vec 3) (eps : ℝ) (he : 0 ≤ eps) :
    ∃ v, forcefield F grav true s x eps = .ok v ∧
      ∀ j, Ap u 21 (absFieldTerm3 x eps j s) (v j) (directFieldTerm grav x eps s j) := by
  by_cases h : s.pos = x
  · refine ⟨Vec.fill 0, ?_, fun j => ?_⟩
    · unfold forcefield
      rw [h]
      simp [dist_zero hF]
    · unfold directFieldTerm absFieldTerm3
      rw [if_pos h, if_pos h]
      exact Ap.zero le_rfl hF.nonneg
  · exact forcefield_ne hF hu grav true s x eps he h

theorem foldV_ap {α : Type} (f : α → Outcome (Vec 3)) (t : α → Vec 3) (M : Fin 3 → α → ℝ) (m : ℕ) (S : List α)
    (h : ∀ s ∈ S, ∃ v, f s = .ok v ∧ ∀ j, Ap u m (M j s) (v j) (t s j)) (n : ℕ) (hn : m ≤ n) (A : Fin 3 → ℝ) (a' a : Vec 3)
    (ha : ∀ j, Ap u n (A j) (a' j) (a j)) :
    ∃ v, S.foldlM (fun frc s => do
      let p ← f s
      .ok (F.vadd frc p)) a' = .ok v ∧
      ∀ j, Ap u (n + S.length) (A j + (S.map (M j)).sum) (v j) ((a + (S.map t).sum) j) := by
  induction S generalizing n A a' a with
  | nil => exact ⟨a', rfl, by simpa using ha⟩
  | cons s S ih =>
    obtain ⟨v, hv, hv'⟩ := h s (by simp)
    have h1 : ∀ j, Ap u (n + 1) (A j + M j s) (F.vadd a' v j) ((a + t s) j) := fun j =>
      hF.rrnd ((ha j).add ((hv' j).mono hF.nonneg hn le_rfl))
    obtain ⟨w, hw, hw'⟩ := ih (fun s hs => h s (by simp [hs])) (n + 1) (by omega) _ _ _ h1
    refine ⟨w, ?_, fun j => ?_⟩
    · rw [List.foldlM_cons, hv, ok_bind, ok_bind, hw]
    · rw [List.map_cons, List.sum_cons, List.map_cons, List.sum_cons, ← add_assoc, ← add_assoc, List.length_cons]
      have : n + (S.length + 1) = n + 1 + S.length := by omega
      rw [this]; exact hw' j

theorem forcefieldSum_safe (hu : u ≤ 1 / 32) (grav : Bool) (S : List (Source 3)) (x : Vec 3) (eps : ℝ) (he : 0 ≤ eps) :
    ∃ v, forcefieldSum F grav true S x eps = .ok v ∧
      ∀ j, Ap u (S.length + 21) (absField3 S x eps j) (v j) (directField grav S x eps j) := by
  obtain ⟨v, hv, hv'⟩ := foldV_ap hF (fun s => forcefield F grav true s x eps) (directFieldTerm grav x eps)
    (absFieldTerm3 x eps) 21 S (fun s _ => forcefield_safe hF hu grav s x eps he) 21 le_rfl (fun _ => 0) (Vec.fill 0) 0
    (fun _ => Ap.zero le_rfl hF.nonneg)
  refine ⟨v, hv, fun j => ?_⟩
  have := hv' j
  rw [zero_add, zero_add, add_comm 21] at this
  exact this

theorem forcefieldSum_unsafe (hu : u ≤ 1 / 32) (grav : Bool) (S : List (Source 3)) (x : Vec 3) (eps : ℝ) (he : 0 ≤ eps)
    (hS : ∀ s ∈ S, s.pos ≠ x) :
    ∃ v, forcefieldSum F grav false S x eps = .ok v ∧
      ∀ j, Ap u (S.length + 21) (absField3 S x eps j) (v j) (directField grav S x eps j) := by
  obtain ⟨v, hv, hv'⟩ := foldV_ap hF (fun s => forcefield F grav false s x eps) (directFieldTerm grav x eps)
    (absFieldTerm3 x eps) 21 S (fun s hs => forcefield_ne hF hu grav false s x eps he (hS s hs)) 21 le_rfl (fun _ => 0)
    (Vec.fill 0) 0 (fun _ => Ap.zero le_rfl hF.nonneg)
  refine ⟨v, hv, fun j => ?_⟩
  have := hv' j
  rw [zero_add, zero_add, add_comm 21] at this
  exact this

end Fl3
end FMM
