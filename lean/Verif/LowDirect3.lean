import Verif.LowLaws3
import Verif.FltDirect3

/-!
# Direct sums of the potential in space, with gradual underflow

The error bounds of `FltDirect3`, for operations with a floor: every source is at the point of evaluation or at a distance
between `θ` and `1 / θ`.
-/

namespace FMM.Lo3
open Fl3

/-- The source is at `x`, or its distance is in the range of the scale. -/
def Clear (θ : ℝ) (x : Vec 3) (s : Source 3) : Prop := s.pos = x ∨ Far θ (s.pos - x)

section
variable {F : Flt3} {u g η ρ θ τ ν : ℝ} {p : ℕ} (hF : F.Low u g η ρ) (hs : Scale3 u η θ τ ν p)
include hF hs

omit hs in
theorem vsub_self (a : Vec 3) : F.vsub a a = 0 := by
  funext i
  show F.rnd (a i - a i) = 0
  rw [sub_self, hF.rnd0]

omit hs in
theorem dist_zero (a : Vec 3) : F.nrm3 (F.vsub a a) = 0 := by rw [vsub_self hF, hF.nrm30]

omit hF in
theorem Far.ne {a b : Vec 3} (h : Far θ (a - b)) : a ≠ b := fun e => by
  have h1 := hs.th0.trans_le h.1
  rw [len3_eq_dist2, (dist2_eq_zero_iff a b).mpr e] at h1
  exact lt_irrefl _ h1

omit hF in
/-- Majorants of the potentials are not below the floor. -/
theorem absTerm_flr (x : Vec 3) {s : Source 3} (hc : Clear θ x s) (hq : Flr τ |s.q|) : Flr η (absTerm3 x s) := by
  unfold absTerm3
  by_cases h : s.pos = x
  · rw [if_pos h]; exact Flr.zero
  · rw [if_neg h, div_eq_mul_inv, ← len3_eq_dist2]
    have hf := hc.resolve_left h
    refine (hq.mulge hf.2 hs.tau0.le hs.th0.le).mono ?_
    have := hs.fl1 (i := 0) (k := 1) (by omega) (by omega)
    rwa [pow_zero, pow_one, mul_one] at this

omit hF in
theorem absPotential_flr (x : Vec 3) {S : List (Source 3)} (hc : ∀ s ∈ S, Clear θ x s) (hq : ∀ s ∈ S, Flr τ |s.q|) :
    Flr η (absPotential3 S x) :=
  Lo.Flr.listSum _ _ (fun s h => absTerm_flr hs x (hc s h) (hq s h)) fun s _ => absTerm3_nonneg x s

/-- One source away from the point of evaluation. -/
theorem potential_ne (grav safe : Bool) (s : Source 3) (x : Vec 3) (h : Far θ (s.pos - x)) (hq : Flr τ |s.q|) :
    ∃ v, Fl3.potential F grav safe s x = .ok v ∧ Ap u 5 (absTerm3 x s) v (directTerm grav x s) := by
  obtain ⟨h1, h2⟩ := far_inv hF hs h
  rw [len3_eq_dist2] at h2
  have hne := Far.ne hs h
  have hfl := absTerm_flr hs x (Or.inr h) hq
  refine ⟨_, by unfold Fl3.potential; simp only; rw [if_neg (by simp [h1]), if_neg h1], ?_⟩
  unfold directTerm kernelSpec
  unfold absTerm3 at hfl ⊢
  rw [if_neg hne] at hfl ⊢
  rw [if_neg hne, if_neg (show ¬ (3 = 2) by norm_num)]
  refine Ap.sign grav ?_
  have h5 : Ap u 0 |s.q| (-s.q) (-s.q) := Ap.refl (by rw [Real.norm_eq_abs, abs_neg])
  rw [div_eq_mul_inv] at hfl
  have := hF.rrnd (h5.mul hF.nonneg h2) hfl
  rw [← div_eq_mul_inv |s.q|, ← div_eq_mul_inv (-s.q), ← div_eq_mul_inv (-s.q)] at this
  rw [← neg_div]; exact this

theorem potential_safe (grav : Bool) (s : Source 3) (x : Vec 3) (hc : Clear θ x s) (hq : Flr τ |s.q|) :
    ∃ v, Fl3.potential F grav true s x = .ok v ∧ Ap u 5 (absTerm3 x s) v (directTerm grav x s) := by
  by_cases h : s.pos = x
  · refine ⟨0, ?_, ?_⟩
    · unfold Fl3.potential
      rw [h, dist_zero hF]; simp
    · unfold directTerm absTerm3
      rw [if_pos h, if_pos h]
      exact Ap.zero le_rfl hF.nonneg
  · exact potential_ne hF hs grav true s x (hc.resolve_left h) hq

theorem potentialSum_safe (grav : Bool) (S : List (Source 3)) (x : Vec 3) (hc : ∀ s ∈ S, Clear θ x s)
    (hq : ∀ s ∈ S, Flr τ |s.q|) :
    ∃ v, Fl3.potentialSum F grav true S x = .ok v ∧
      Ap u (S.length + 5) (absPotential3 S x) v (directPotential grav S x) := by
  obtain ⟨v, hv, hv'⟩ := Lo.fold_ap hF.toLow (fun s => Fl3.potential F grav true s x) (directTerm grav x) (absTerm3 x) 5 S
    (fun s h => by
      obtain ⟨v, a, b⟩ := potential_safe hF hs grav s x (hc s h) (hq s h)
      exact ⟨v, a, b, absTerm_flr hs x (hc s h) (hq s h)⟩) 5 le_rfl 0 0 0 (Ap.zero le_rfl hF.nonneg) Flr.zero
  refine ⟨v, hv, ?_⟩
  rw [zero_add, zero_add, add_comm 5] at hv'
  exact hv'

theorem potentialSum_unsafe (grav : Bool) (S : List (Source 3)) (x : Vec 3) (hc : ∀ s ∈ S, Clear θ x s)
    (hq : ∀ s ∈ S, Flr τ |s.q|) (hS : ∀ s ∈ S, s.pos ≠ x) :
    ∃ v, Fl3.potentialSum F grav false S x = .ok v ∧
      Ap u (S.length + 5) (absPotential3 S x) v (directPotential grav S x) := by
  obtain ⟨v, hv, hv'⟩ := Lo.fold_ap hF.toLow (fun s => Fl3.potential F grav false s x) (directTerm grav x) (absTerm3 x) 5 S
    (fun s h => by
      obtain ⟨v, a, b⟩ := potential_ne hF hs grav false s x ((hc s h).resolve_left (hS s h)) (hq s h)
      exact ⟨v, a, b, absTerm_flr hs x (hc s h) (hq s h)⟩) 5 le_rfl 0 0 0 (Ap.zero le_rfl hF.nonneg) Flr.zero
  refine ⟨v, hv, ?_⟩
  rw [zero_add, zero_add, add_comm 5] at hv'
  exact hv'

end
end FMM.Lo3
