import Verif.FltCalc

/-!
# Rounding errors of the direct sums
-/

namespace FMM

/-- Majorant of the potential of one source. -/
noncomputable def absTerm (x : Vec 2) (s : Source 2) : ℝ :=
  open Classical in if s.pos = x then 0 else |s.q| * (|Real.log (dist2 s.pos x)| + 1)

/-- Majorant of the direct sum of the potentials. -/
noncomputable def absPotential (S : List (Source 2)) (x : Vec 2) : ℝ := (S.map (absTerm x)).sum

/-- Norm of the force of one source. -/
noncomputable def absFieldTerm (x : Vec 2) (eps : ℝ) (s : Source 2) : ℝ :=
  open Classical in if s.pos = x then 0 else |s.q| / (dist2 s.pos x ^ 2 + eps) * dist2 s.pos x

/-- Sum of the norms of the forces of the sources. -/
noncomputable def absField (S : List (Source 2)) (x : Vec 2) (eps : ℝ) : ℝ := (S.map (absFieldTerm x eps)).sum

theorem absTerm_nonneg (x : Vec 2) (s : Source 2) : 0 ≤ absTerm x s := by
  unfold absTerm; split_ifs <;> positivity

theorem absFieldTerm_nonneg (x : Vec 2) {eps : ℝ} (he : 0 ≤ eps) (s : Source 2) : 0 ≤ absFieldTerm x eps s := by
  unfold absFieldTerm
  have := dist2_nonneg s.pos x
  split_ifs <;> positivity

theorem Ap.sign {u : ℝ} {n : ℕ} {M x' x : ℝ} (grav : Bool) (h : Ap u n M x' x) :
    Ap u n M (if grav then x' else -x') (sgn grav * x) := by
  cases grav
  · simpa [sgn] using h.neg
  · simpa [sgn] using h

theorem norm_eq_toC (v : Vec 2) : Vec.norm v = ‖toC v‖ := by
  have := norm_sub_eq_dist2 v 0
  rw [← norm_toC_sub] at this
  have e1 : Vec.sub v 0 = v := by rw [Vec.sub_eq, sub_zero]
  have e2 : toC (0 : Vec 2) = 0 := rfl
  rw [e1, e2, sub_zero] at this
  exact this

theorem toC_vsub (F : Flt) (v w : Vec 2) : toC (F.vsub v w) = F.csub (toC v) (toC w) := rfl
theorem toC_vadd (F : Flt) (v w : Vec 2) : toC (F.vadd v w) = F.cadd (toC v) (toC w) := rfl
theorem toC_vscale (F : Flt) (v : Vec 2) (r : ℝ) : toC (F.vscale v r) = F.rsc r (toC v) := by
  unfold toC Flt.vscale Flt.rsc
  rw [mul_comm (v 0), mul_comm (v 1)]

namespace Fl
variable {F : Flt} {u : ℝ} (hF : F.Ok u)
include hF

/-- The computed distance. -/
theorem dist_ap (a b : Vec 2) : Ap u 2 (dist2 a b) (F.nrm (F.vsub a b)) (dist2 a b) := by
  have h1 : Ap u 1 (dist2 a b) (Vec.norm (F.vsub a b)) (dist2 a b) := by
    refine ⟨?_, by rw [Real.norm_eq_abs, abs_of_nonneg (dist2_nonneg a b)]⟩
    rw [pow_one, add_sub_cancel_left, norm_eq_toC, toC_vsub, ← norm_toC_sub, Real.norm_eq_abs]
    exact (abs_norm_sub_norm_le _ _).trans (hF.csub_err _ _)
  refine h1.round hF.nonneg ?_
  rw [Real.norm_eq_abs, Real.norm_eq_abs]
  refine (hF.nrm _).trans (le_of_eq ?_)
  rw [norm_eq_toC, abs_norm]

theorem dist_zero (a : Vec 2) : F.nrm (F.vsub a a) = 0 := by
  have h := (dist_ap hF a a).1
  rw [(dist2_eq_zero_iff a a).mpr rfl, mul_zero, sub_zero] at h
  exact norm_le_zero_iff.mp h

theorem pow_small {k : ℕ} (hk : k ≤ 5) : (1 + u) ^ k ≤ 3 / 2 := by
  have h1 : (1 + u) ^ k ≤ (1 + 1 / 16) ^ k := pow_le_pow_left₀ (by linarith [hF.nonneg]) (by linarith [hF.small]) k
  have h2 : (1 + 1 / 16 : ℝ) ^ k ≤ (1 + 1 / 16) ^ 5 := pow_le_pow_right₀ (by norm_num) hk
  refine h1.trans (h2.trans ?_)
  norm_num

theorem dist_ne {a b : Vec 2} (h : a ≠ b) : 0 < F.nrm (F.vsub a b) ∧
    |Real.log (F.nrm (F.vsub a b)) - Real.log (dist2 a b)| ≤ (1 + u) ^ 4 - 1 :=
  Flt.Ok.log_ratio hF.nonneg hF.small (dist2_pos h) 2 (pow_small hF (by omega)) (dist_ap hF a b).1

/-- One source away from the point of evaluation. -/
theorem potential_ne (grav safe : Bool) (s : Source 2) (x : Vec 2) (h : s.pos ≠ x) :
    ∃ v, potential F grav safe s x = .ok v ∧ Ap u 6 (absTerm x s) v (directTerm grav x s) := by
  obtain ⟨h1, h2⟩ := dist_ne hF h
  refine ⟨_, by unfold potential; simp only; rw [if_neg (by simp [h1.ne']), if_neg h1.ne'], ?_⟩
  unfold directTerm absTerm kernelSpec
  rw [if_neg h, if_neg h, if_pos rfl]
  refine Ap.sign grav ?_
  have h3 : Ap u 4 (|Real.log (dist2 s.pos x)| + 1) (Real.log (F.nrm (F.vsub s.pos x))) (Real.log (dist2 s.pos x)) := by
    refine ⟨?_, by rw [Real.norm_eq_abs]; linarith⟩
    rw [Real.norm_eq_abs]
    refine h2.trans ?_
    have := one_le_pow_u hF.nonneg 4
    exact le_mul_of_one_le_right (by linarith) (by linarith [abs_nonneg (Real.log (dist2 s.pos x))])
  have h4 := h3.round hF.nonneg (y' := F.rlog (F.nrm (F.vsub s.pos x))) (hF.rlog _ h1)
  have h5 : Ap u 0 |s.q| s.q s.q := Ap.refl le_rfl
  exact hF.rrnd (h5.mul hF.nonneg h4)

theorem potential_safe (grav : Bool) (s : Source 2) (x : Vec 2) :
    ∃ v, potential F grav true s x = .ok v ∧ Ap u 6 (absTerm x s) v (directTerm grav x s) := by
  by_cases h : s.pos = x
  · refine ⟨0, ?_, ?_⟩
    · unfold potential
      rw [h, dist_zero hF]; simp
    · unfold directTerm absTerm
      rw [if_pos h, if_pos h]
      exact Ap.zero le_rfl hF.nonneg
  · exact potential_ne hF grav true s x h

/-- Sequential summation. -/
theorem fold_ap {α : Type} (f : α → Outcome ℝ) (t M : α → ℝ) (m : ℕ) (S : List α)
    (h : ∀ s ∈ S, ∃ v, f s = .ok v ∧ Ap u m (M s) v (t s)) (n : ℕ) (hn : m ≤ n) (A a' a : ℝ) (ha : Ap u n A a' a) :
    ∃ v, S.foldlM (fun pot s => do
      let p ← f s
      .ok (F.rnd (pot + p))) a' = .ok v ∧ Ap u (n + S.length) (A + (S.map M).sum) v (a + (S.map t).sum) := by
  induction S generalizing n A a' a with
  | nil => exact ⟨a', rfl, by simpa using ha⟩
  | cons s S ih =>
    obtain ⟨v, hv, hv'⟩ := h s (by simp)
    have h1 := hF.rrnd (ha.add (hv'.mono hF.nonneg hn le_rfl))
    obtain ⟨w, hw, hw'⟩ := ih (fun s hs => h s (by simp [hs])) (n + 1) (by omega) _ _ _ h1
    refine ⟨w, ?_, ?_⟩
    · rw [List.foldlM_cons, hv, ok_bind, ok_bind, hw]
    · rw [List.map_cons, List.sum_cons, List.map_cons, List.sum_cons, ← add_assoc, ← add_assoc, List.length_cons]
      have : n + (S.length + 1) = n + 1 + S.length := by omega
      rw [this]; exact hw'

theorem potentialSum_safe (grav : Bool) (S : List (Source 2)) (x : Vec 2) :
    ∃ v, potentialSum F grav true S x = .ok v ∧
      Ap u (S.length + 6) (absPotential S x) v (directPotential grav S x) := by
  obtain ⟨v, hv, hv'⟩ := fold_ap hF (fun s => potential F grav true s x) (directTerm grav x) (absTerm x) 6 S
    (fun s _ => potential_safe hF grav s x) 6 le_rfl 0 0 0 (Ap.zero le_rfl hF.nonneg)
  refine ⟨v, hv, ?_⟩
  rw [zero_add, zero_add, add_comm 6] at hv'
  exact hv'

theorem potentialSum_unsafe (grav : Bool) (S : List (Source 2)) (x : Vec 2) (hS : ∀ s ∈ S, s.pos ≠ x) :
    ∃ v, potentialSum F grav false S x = .ok v ∧
      Ap u (S.length + 6) (absPotential S x) v (directPotential grav S x) := by
  obtain ⟨v, hv, hv'⟩ := fold_ap hF (fun s => potential F grav false s x) (directTerm grav x) (absTerm x) 6 S
    (fun s hs => potential_ne hF grav false s x (hS s hs)) 6 le_rfl 0 0 0 (Ap.zero le_rfl hF.nonneg)
  refine ⟨v, hv, ?_⟩
  rw [zero_add, zero_add, add_comm 6] at hv'
  exact hv'

/-! ## Forces -/

/-- The computed square of the distance. -/
theorem normSq_ap (a b : Vec 2) : Ap u 4 (dist2 a b ^ 2) (F.normSq (F.vsub a b)) (dist2 a b ^ 2) := by
  have hd : ∀ i, Ap u 1 |a i - b i| (F.vsub a b i) (a i - b i) := fun i => by
    have := hF.rrnd (Ap.refl (u := u) (x := a i - b i) le_rfl)
    simpa [Flt.vsub] using this
  have hsq : ∀ i, Ap u 3 ((a i - b i) ^ 2) (F.rnd (F.vsub a b i * F.vsub a b i)) ((a i - b i) ^ 2) := fun i => by
    have := hF.rrnd ((hd i).mul hF.nonneg (hd i))
    rwa [abs_mul_abs_self, ← pow_two] at this
  have h := hF.rrnd ((hsq 0).add (hsq 1))
  have e : dist2 a b ^ 2 = (a 0 - b 0) ^ 2 + (a 1 - b 1) ^ 2 := by
    unfold dist2
    rw [Real.sq_sqrt (Finset.sum_nonneg fun j _ => sq_nonneg _), Fin.sum_univ_two]
  rw [e]; exact h

theorem Ap_sub {a b : Vec 2} : Ap u 1 (dist2 a b) (toC (F.vsub a b)) (toC a - toC b) := by
  rw [toC_vsub]; exact hF.diff _ _ (by rw [norm_toC_sub])

theorem toC_sign {u : ℝ} {n : ℕ} {M : ℝ} {v : Vec 2} {z : ℂ} (grav : Bool) (h : Ap u n M (toC v) z) :
    Ap u n M (toC (if grav then v else Vec.neg v)) (sgn grav * z) := by
  cases grav
  · have e : toC (Vec.neg v) = -toC v := by
      apply Complex.ext <;> simp [toC, Vec.neg, Vec.scale]
    have h1 := h.neg
    rw [← e] at h1
    simpa only [sgn, Bool.false_eq_true, if_false, Complex.ofReal_neg, Complex.ofReal_one, neg_mul, one_mul] using h1
  · simpa [sgn] using h

theorem forcefield_ne (grav safe : Bool) (s : Source 2) (x : Vec 2) (eps : ℝ) (he : 0 ≤ eps) (h : s.pos ≠ x) :
    ∃ v, forcefield F grav safe s x eps = .ok v ∧
      Ap u 13 (absFieldTerm x eps s) (toC v) (toC (directFieldTerm grav x eps s)) := by
  have hr := dist2_pos h
  have h1 := normSq_ap hF s.pos x
  have hr2 : 0 < dist2 s.pos x ^ 2 := by positivity
  have h1' : F.normSq (F.vsub s.pos x) ≠ 0 := (Ap.invk hF.nonneg 4 (pow_small hF (by omega)) hr2.ne' (by
    have := h1.1
    rwa [Real.norm_eq_abs (dist2 s.pos x ^ 2), abs_of_pos hr2])).1
  have h2 : Ap u 5 (dist2 s.pos x ^ 2 + eps) (F.rnd (F.normSq (F.vsub s.pos x) + eps)) (dist2 s.pos x ^ 2 + eps) :=
    hF.rrnd (h1.add ((Ap.refl (u := u) (by rw [Real.norm_eq_abs, abs_of_nonneg he])).mono hF.nonneg (by omega) le_rfl))
  have hD : 0 < dist2 s.pos x ^ 2 + eps := by linarith
  obtain ⟨h3, h4⟩ := Ap.invk hF.nonneg 5 (pow_small hF (by omega)) hD.ne' (by
    have := h2.1
    rwa [Real.norm_eq_abs (dist2 s.pos x ^ 2 + eps), abs_of_pos hD])
  rw [Real.norm_eq_abs, abs_of_pos hD] at h4
  have h5 : Ap u 11 (|s.q| * (dist2 s.pos x ^ 2 + eps)⁻¹)
      (F.rnd (s.q / F.rnd (F.normSq (F.vsub s.pos x) + eps))) (s.q * (dist2 s.pos x ^ 2 + eps)⁻¹) := by
    have h0 : Ap u 0 |s.q| s.q s.q := Ap.refl le_rfl
    have := hF.rrnd (h0.mul hF.nonneg h4)
    rwa [← div_eq_mul_inv s.q (F.rnd _)] at this
  have h6 := hF.rsc h5 (Ap_sub hF (a := s.pos) (b := x))
  rw [← toC_vscale] at h6
  refine ⟨_, by unfold forcefield; simp only; rw [if_neg (by simp [h1']), if_neg h3], ?_⟩
  have h7 := toC_sign hF grav h6
  unfold directFieldTerm absFieldTerm
  rw [if_neg h, if_neg h, div_eq_mul_inv]
  convert h7 using 1
  unfold fieldSpec forceDenom
  rw [if_pos rfl, div_eq_mul_inv]
  generalize s.q * (dist2 s.pos x ^ 2 + eps)⁻¹ = w
  apply Complex.ext <;> simp [toC, mul_assoc]

theorem forcefield_safe (grav : Bool) (s : Source 2) (x : Vec 2) (eps : ℝ) (he : 0 ≤ eps) :
    ∃ v, forcefield F grav true s x eps = .ok v ∧
      Ap u 13 (absFieldTerm x eps s) (toC v) (toC (directFieldTerm grav x eps s)) := by
  by_cases h : s.pos = x
  · refine ⟨Vec.fill 0, ?_, ?_⟩
    · have h1 := (normSq_ap hF x x).1
      rw [(dist2_eq_zero_iff x x).mpr rfl] at h1
      have h2 : F.normSq (F.vsub x x) = 0 := by simpa using h1
      unfold forcefield
      rw [h]
      simp [h2]
    · unfold directFieldTerm absFieldTerm
      rw [if_pos h, if_pos h]
      exact Ap.zero le_rfl hF.nonneg
  · exact forcefield_ne hF grav true s x eps he h

theorem foldC_ap {α : Type} (f : α → Outcome (Vec 2)) (t : α → Vec 2) (M : α → ℝ) (m : ℕ) (S : List α)
    (h : ∀ s ∈ S, ∃ v, f s = .ok v ∧ Ap u m (M s) (toC v) (toC (t s))) (n : ℕ) (hn : m ≤ n) (A : ℝ) (a' a : Vec 2)
    (ha : Ap u n A (toC a') (toC a)) :
    ∃ v, S.foldlM (fun frc s => do
      let p ← f s
      .ok (F.vadd frc p)) a' = .ok v ∧
      Ap u (n + S.length) (A + (S.map M).sum) (toC v) (toC (a + (S.map t).sum)) := by
  induction S generalizing n A a' a with
  | nil => exact ⟨a', rfl, by simpa using ha⟩
  | cons s S ih =>
    obtain ⟨v, hv, hv'⟩ := h s (by simp)
    have h1 := hF.cadd ha (hv'.mono hF.nonneg hn le_rfl)
    rw [← toC_vadd] at h1
    have e : toC a + toC (t s) = toC (a + t s) := by apply Complex.ext <;> simp [toC]
    rw [e] at h1
    obtain ⟨w, hw, hw'⟩ := ih (fun s hs => h s (by simp [hs])) (n + 1) (by omega) _ _ _ h1
    refine ⟨w, ?_, ?_⟩
    · rw [List.foldlM_cons, hv, ok_bind, ok_bind, hw]
    · rw [List.map_cons, List.sum_cons, List.map_cons, List.sum_cons, ← add_assoc, ← add_assoc, List.length_cons]
      have : n + (S.length + 1) = n + 1 + S.length := by omega
      rw [this]; exact hw'

theorem forcefieldSum_safe (grav : Bool) (S : List (Source 2)) (x : Vec 2) (eps : ℝ) (he : 0 ≤ eps) :
    ∃ v, forcefieldSum F grav true S x eps = .ok v ∧
      Ap u (S.length + 13) (absField S x eps) (toC v) (toC (directField grav S x eps)) := by
  obtain ⟨v, hv, hv'⟩ := foldC_ap hF (fun s => forcefield F grav true s x eps) (directFieldTerm grav x eps)
    (absFieldTerm x eps) 13 S (fun s _ => forcefield_safe hF grav s x eps he) 13 le_rfl 0 (Vec.fill 0) 0
    (Ap.zero le_rfl hF.nonneg)
  refine ⟨v, hv, ?_⟩
  rw [zero_add, zero_add, add_comm 13] at hv'
  exact hv'

theorem forcefieldSum_unsafe (grav : Bool) (S : List (Source 2)) (x : Vec 2) (eps : ℝ) (he : 0 ≤ eps)
    (hS : ∀ s ∈ S, s.pos ≠ x) :
    ∃ v, forcefieldSum F grav false S x eps = .ok v ∧
      Ap u (S.length + 13) (absField S x eps) (toC v) (toC (directField grav S x eps)) := by
  obtain ⟨v, hv, hv'⟩ := foldC_ap hF (fun s => forcefield F grav false s x eps) (directFieldTerm grav x eps)
    (absFieldTerm x eps) 13 S (fun s hs => forcefield_ne hF grav false s x eps he (hS s hs)) 13 le_rfl 0 (Vec.fill 0) 0
    (Ap.zero le_rfl hF.nonneg)
  refine ⟨v, hv, ?_⟩
  rw [zero_add, zero_add, add_comm 13] at hv'
  exact hv'

end Fl
end FMM
