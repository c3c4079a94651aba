import Verif.LowDirect3
import Verif.LowForceRun3

/-!
# Direct sums of the forces in space, with gradual underflow

Components of the force of a source can be arbitrarily small, so that they are compared with the norm of the force.
-/

namespace FMM

/-- Norm of the force of one source. -/
noncomputable def absNormTerm3 (x : Vec 3) (eps : ℝ) (s : Source 3) : ℝ :=
  open Classical in if s.pos = x then 0 else |s.q| / (dist2 s.pos x ^ 3 + eps) * dist2 s.pos x

/-- Sum of the norms of the forces of the sources. -/
noncomputable def absNorm3 (S : List (Source 3)) (x : Vec 3) (eps : ℝ) : ℝ := (S.map (absNormTerm3 x eps)).sum

theorem absNormTerm3_nonneg (x : Vec 3) {eps : ℝ} (he : 0 ≤ eps) (s : Source 3) : 0 ≤ absNormTerm3 x eps s := by
  unfold absNormTerm3
  have := dist2_nonneg s.pos x
  split_ifs <;> positivity

theorem absNorm3_nonneg (S : List (Source 3)) (x : Vec 3) {eps : ℝ} (he : 0 ≤ eps) : 0 ≤ absNorm3 S x eps :=
  List.sum_nonneg fun a ha => by
    obtain ⟨s, -, rfl⟩ := List.mem_map.mp ha
    exact absNormTerm3_nonneg x he s

namespace Lo3
open Fl3 hiding loopM_ap loopZ_ap alm_ap alm_inv cdr_ap divR_ap nrm3_ap

section
variable {F : Flt3} {u g η ρ θ τ ν : ℝ} {p : ℕ} (hF : F.Low u g η ρ) (hs : Scale3 u η θ τ ν p)
include hF hs

omit hF in
/-- The quotient in the force of a source. -/
theorem quot_ge {D eps : ℝ} (hD : 0 < D) (h : θ ≤ D⁻¹) (he : 0 ≤ eps) (he' : eps ≤ 1 / θ ^ 3) : ν * θ ^ 3 ≤ (D ^ 3 + eps)⁻¹ := by
  have h0 := hs.th0
  have hν : ν ≤ 1 / 2 := hs.nu_le.trans (hs.u1.trans (by norm_num))
  have h1 : D ^ 3 ≤ 1 / θ ^ 3 := by
    rw [le_inv_comm₀ h0 hD] at h
    have := pow_le_pow_left₀ hD.le h 3
    rwa [inv_pow, ← one_div] at this
  have h2 : (2 / θ ^ 3)⁻¹ ≤ (D ^ 3 + eps)⁻¹ := inv_anti₀ (by positivity) (by rw [show (2 : ℝ) / θ ^ 3 = 1 / θ ^ 3 + 1 / θ ^ 3 by ring]; linarith)
  refine le_trans ?_ h2
  rw [inv_div]
  have h3 := mul_le_mul_of_nonneg_right hν (pow_nonneg h0.le 3)
  linarith

omit hF in
theorem absNormTerm_flr (hp0 : 0 < p) (x : Vec 3) {s : Source 3} (hc : Clear θ x s) (hq : Flr τ |s.q|) {eps : ℝ}
    (he : 0 ≤ eps) (he' : eps ≤ 1 / θ ^ 3) : Flr η (absNormTerm3 x eps s) := by
  unfold absNormTerm3
  by_cases h : s.pos = x
  · rw [if_pos h]; exact Flr.zero
  · rw [if_neg h]
    obtain ⟨h1, h2⟩ := hc.resolve_left h
    rw [len3_eq_dist2] at h1 h2
    have h3 := quot_ge hs (hs.th0.trans_le h1) h2 he he'
    have h4 := (hq.mulge h3 hs.tau0.le (mul_nonneg hs.nu0 (pow_nonneg hs.th0.le 3))).mulge h1
      (mul_nonneg hs.tau0.le (mul_nonneg hs.nu0 (pow_nonneg hs.th0.le 3))) hs.th0.le
    rw [div_eq_mul_inv]
    refine h4.mono ?_
    have := hs.fl1 (i := 1) (k := 4) (by omega) (by omega)
    refine this.trans (le_of_eq (by ring))

omit hF in
theorem absNorm_flr (hp0 : 0 < p) (x : Vec 3) {S : List (Source 3)} (hc : ∀ s ∈ S, Clear θ x s)
    (hq : ∀ s ∈ S, Flr τ |s.q|) {eps : ℝ} (he : 0 ≤ eps) (he' : eps ≤ 1 / θ ^ 3) : Flr η (absNorm3 S x eps) :=
  Lo.Flr.listSum _ _ (fun s h => absNormTerm_flr hs hp0 x (hc s h) (hq s h) he he') fun s _ => absNormTerm3_nonneg x he s

omit hs in
theorem pow_nine_le (hu : u ≤ 1 / 32) : (1 + u) ^ 9 ≤ 3 / 2 := by
  have h1 := hF.nonneg
  calc (1 + u) ^ 9 ≤ (33 / 32) ^ 9 := pow_le_pow_left₀ (by linarith) (by linarith) 9
    _ ≤ 3 / 2 := by norm_num

/-- The computed denominator of the force. -/
theorem denom_ap {a b : Vec 3} (h : Far θ (a - b)) (hp0 : 0 < p) {eps : ℝ} (he : 0 ≤ eps) :
    Ap u 9 (dist2 a b ^ 3 + eps)
      (F.rnd (F.rnd (F.rnd (F.nrm3 (F.vsub a b) * F.nrm3 (F.vsub a b)) * F.nrm3 (F.vsub a b)) + eps)) (dist2 a b ^ 3 + eps) := by
  have h0 := h.1
  have h1 := nrm3_ap hF (vsub_len hF.toLow a b le_rfl (hs.le h.1)) le_rfl (hs.le h.1)
  rw [len3_eq_dist2] at h1 h0
  have g2 := hs.powle h0 (k := 2) (by omega)
  have g3 := hs.powle h0 (k := 3) (by omega)
  have e2 : dist2 a b * dist2 a b = dist2 a b ^ 2 := by ring
  have e : dist2 a b * dist2 a b * dist2 a b = dist2 a b ^ 3 := by ring
  have h2 := hF.rrnd (h1.mul hF.nonneg h1) (Or.inr (by rw [e2]; exact g2))
  have h3 := hF.rrnd (h2.mul hF.nonneg h1) (Or.inr (by rw [e]; exact g3))
  have h4 := hF.rrnd (h3.add ((Ap.refl (u := u) (x := eps) (by rw [Real.norm_eq_abs, abs_of_nonneg he])).mono hF.nonneg
    (Nat.zero_le _) le_rfl)) (Or.inr (by rw [e]; linarith))
  rw [e] at h4
  exact h4

omit hs in
/-- Components of a difference, relative to its length. -/
theorem vsub_comp (a b : Vec 3) (j : Fin 3) (h : η ≤ dist2 a b) : Ap u 1 (dist2 a b) (F.vsub a b j) (a j - b j) := by
  refine hF.rrnd (Ap.refl (u := u) ?_) (Or.inr h)
  rw [Real.norm_eq_abs, ← Real.sqrt_sq_eq_abs]
  unfold dist2
  exact Real.sqrt_le_sqrt (Finset.single_le_sum (f := fun k => (a k - b k) ^ 2) (fun k _ => sq_nonneg _) (Finset.mem_univ j))

theorem forcefield_ne (hu : u ≤ 1 / 32) (hp0 : 0 < p) (grav safe : Bool) (s : Source 3) (x : Vec 3) (eps : ℝ) (he : 0 ≤ eps)
    (he' : eps ≤ 1 / θ ^ 3) (h : Far θ (s.pos - x)) (hq : Flr τ |s.q|) :
    ∃ v, Fl3.forcefield F grav safe s x eps = .ok v ∧
      ∀ j, Ap u 21 (absNormTerm3 x eps s) (v j) (directFieldTerm grav x eps s j) := by
  have hne := Far.ne hs h
  have hfl := absNormTerm_flr hs hp0 x (Or.inr h) hq he he'
  have hr := dist2_pos hne
  have hD : 0 < dist2 s.pos x ^ 3 + eps := by positivity
  have h1 := denom_ap hF hs h hp0 he
  obtain ⟨h3, h4⟩ := Ap.invk hF.nonneg 9 (pow_nine_le hF hu) hD.ne' (by
    have := h1.1
    rwa [Real.norm_eq_abs (dist2 s.pos x ^ 3 + eps), abs_of_pos hD])
  rw [Real.norm_eq_abs, abs_of_pos hD] at h4
  have hl := h.1
  have hl' := h.2
  rw [len3_eq_dist2] at hl hl'
  have h5 := hF.rrnd ((Ap.refl (u := u) (x := s.q) (M := |s.q|) le_rfl).mul hF.nonneg h4) (by
    have := hq.mulge (quot_ge hs hr hl' he he') hs.tau0.le (mul_nonneg hs.nu0 (pow_nonneg hs.th0.le 3))
    refine this.mono ((hs.fl1 (i := 1) (k := 3) (by omega) (by omega)).trans (le_of_eq (by ring))))
  rw [← div_eq_mul_inv s.q (F.rnd _)] at h5
  refine ⟨_, by unfold Fl3.forcefield; simp only; rw [if_neg (by simp [(far_inv hF hs h).1]), if_neg h3], fun j => ?_⟩
  have hd := vsub_comp hF s.pos x j (hs.le hl)
  unfold absNormTerm3 at hfl
  rw [if_neg hne, div_eq_mul_inv, mul_comm] at hfl
  have h6 := hF.rrnd (hd.mul hF.nonneg h5) hfl
  have h7 := Ap.sign grav h6
  unfold directFieldTerm absNormTerm3
  rw [if_neg hne, if_neg hne, div_eq_mul_inv, mul_comm]
  convert h7 using 1
  · cases grav <;> simp [Vec.neg, Vec.scale, Flt.vscale]
  · unfold fieldSpec forceDenom
    rw [if_neg (by norm_num), div_eq_mul_inv]
    ring

theorem forcefield_safe (hu : u ≤ 1 / 32) (hp0 : 0 < p) (grav : Bool) (s : Source 3) (x : Vec 3) (eps : ℝ) (he : 0 ≤ eps)
    (he' : eps ≤ 1 / θ ^ 3) (hc : Clear θ x s) (hq : Flr τ |s.q|) :
    ∃ v, Fl3.forcefield F grav true s x eps = .ok v ∧
      ∀ j, Ap u 21 (absNormTerm3 x eps s) (v j) (directFieldTerm grav x eps s j) := by
  by_cases h : s.pos = x
  · refine ⟨Vec.fill 0, ?_, fun j => ?_⟩
    · unfold Fl3.forcefield
      rw [h]
      simp [dist_zero hF]
    · unfold directFieldTerm absNormTerm3
      rw [if_pos h, if_pos h]
      exact Ap.zero le_rfl hF.nonneg
  · exact forcefield_ne hF hs hu hp0 grav true s x eps he he' (hc.resolve_left h) hq

omit hs in
theorem foldV_ap {α : Type} (f : α → Outcome (Vec 3)) (t : α → Vec 3) (M : α → ℝ) (m : ℕ) (S : List α)
    (h : ∀ s ∈ S, ∃ v, f s = .ok v ∧ (∀ j, Ap u m (M s) (v j) (t s j)) ∧ Flr η (M s)) (n : ℕ) (hn : m ≤ n) (A : ℝ) (a' a : Vec 3)
    (ha : ∀ j, Ap u n A (a' j) (a j)) (hA : Flr η A) :
    ∃ v, S.foldlM (fun frc s => do
      let p ← f s
      .ok (F.vadd frc p)) a' = .ok v ∧
      ∀ j, Ap u (n + S.length) (A + (S.map M).sum) (v j) ((a + (S.map t).sum) j) := by
  induction S generalizing n A a' a with
  | nil => exact ⟨a', rfl, by simpa using ha⟩
  | cons s S ih =>
    obtain ⟨v, hv, hv', hf⟩ := h s (by simp)
    have hf' := hA.add hf (ha 0).nonneg (hv' 0).nonneg
    have h1 : ∀ j, Ap u (n + 1) (A + M s) (F.vadd a' v j) ((a + t s) j) := fun j =>
      hF.rrnd ((ha j).add ((hv' j).mono hF.nonneg hn le_rfl)) hf'
    obtain ⟨w, hw, hw'⟩ := ih (fun s hs => h s (by simp [hs])) (n + 1) (by omega) _ _ _ h1 hf'
    refine ⟨w, ?_, fun j => ?_⟩
    · rw [List.foldlM_cons, hv, ok_bind, ok_bind, hw]
    · rw [List.map_cons, List.sum_cons, List.map_cons, List.sum_cons, ← add_assoc, ← add_assoc, List.length_cons]
      have : n + (S.length + 1) = n + 1 + S.length := by omega
      rw [this]; exact hw' j

theorem forcefieldSum_safe (hu : u ≤ 1 / 32) (hp0 : 0 < p) (grav : Bool) (S : List (Source 3)) (x : Vec 3) (eps : ℝ) (he : 0 ≤ eps)
    (he' : eps ≤ 1 / θ ^ 3) (hc : ∀ s ∈ S, Clear θ x s) (hq : ∀ s ∈ S, Flr τ |s.q|) :
    ∃ v, Fl3.forcefieldSum F grav true S x eps = .ok v ∧
      ∀ j, Ap u (S.length + 21) (absNorm3 S x eps) (v j) (directField grav S x eps j) := by
  obtain ⟨v, hv, hv'⟩ := foldV_ap hF (fun s => Fl3.forcefield F grav true s x eps) (directFieldTerm grav x eps)
    (absNormTerm3 x eps) 21 S (fun s h => by
      obtain ⟨v, a, b⟩ := forcefield_safe hF hs hu hp0 grav s x eps he he' (hc s h) (hq s h)
      exact ⟨v, a, b, absNormTerm_flr hs hp0 x (hc s h) (hq s h) he he'⟩) 21 le_rfl 0 (Vec.fill 0) 0
    (fun _ => Ap.zero le_rfl hF.nonneg) Flr.zero
  refine ⟨v, hv, fun j => ?_⟩
  have := hv' j
  rw [zero_add, zero_add, add_comm 21] at this
  exact this

theorem forcefieldSum_unsafe (hu : u ≤ 1 / 32) (hp0 : 0 < p) (grav : Bool) (S : List (Source 3)) (x : Vec 3) (eps : ℝ) (he : 0 ≤ eps)
    (he' : eps ≤ 1 / θ ^ 3) (hc : ∀ s ∈ S, Clear θ x s) (hq : ∀ s ∈ S, Flr τ |s.q|) (hS : ∀ s ∈ S, s.pos ≠ x) :
    ∃ v, Fl3.forcefieldSum F grav false S x eps = .ok v ∧
      ∀ j, Ap u (S.length + 21) (absNorm3 S x eps) (v j) (directField grav S x eps j) := by
  obtain ⟨v, hv, hv'⟩ := foldV_ap hF (fun s => Fl3.forcefield F grav false s x eps) (directFieldTerm grav x eps)
    (absNormTerm3 x eps) 21 S (fun s h => by
      obtain ⟨v, a, b⟩ := forcefield_ne hF hs hu hp0 grav false s x eps he he' ((hc s h).resolve_left (hS s h)) (hq s h)
      exact ⟨v, a, b, absNormTerm_flr hs hp0 x (hc s h) (hq s h) he he'⟩) 21 le_rfl 0 (Vec.fill 0) 0
    (fun _ => Ap.zero le_rfl hF.nonneg) Flr.zero
  refine ⟨v, hv, fun j => ?_⟩
  have := hv' j
  rw [zero_add, zero_add, add_comm 21] at this
  exact this

end
end Lo3
end FMM
