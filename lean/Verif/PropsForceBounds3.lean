import Verif.PropsExp3
import Verif.Exp3ForceBounds

/-!
# Truncation errors of the force field of 3D expansions: C59

`errGrad k b D` is the tail `∑_{n ≥ k} (n+1) b^n / D^(n+2)`. The multipole series is cut after degree `p`, the gradient of
its first neglected term has `n = p + 1`; the gradient of a local series loses one power of the distance, so that its tail
starts with `n = p`.
-/

namespace FMM

/-- `(k+1) (b/D)^k / (D (D-b)) + (b/D)^(k+1) / (D-b)²`. -/
noncomputable def errGrad (k : ℕ) (b D : ℝ) : ℝ := (k + 1) * (b / D) ^ k / (D * (D - b)) + (b / D) ^ (k + 1) / (D - b) ^ 2

theorem errGrad_eq (k : ℕ) (b D : ℝ) : gB k b D = errGrad k b D := rfl

/-- **C59** The closed form is the tail of the series. -/
theorem C59_tail (k : ℕ) {b D : ℝ} (hb : 0 ≤ b) (hD : b < D) :
    HasSum (fun n : ℕ => ((n + k : ℕ) + 1 : ℝ) * b ^ (n + k) / D ^ (n + k + 2)) (errGrad k b D) := by
  have := gB_hasSum k hb hD
  refine this.congr_fun fun n => ?_
  push_cast
  ring

/-- **C59** Multipole expansion of a list of sources, for every state of the tables. -/
theorem C59_multipole_force_bound (st : Stat3) (hst : Reachable3 st) (center : Vec 3) (p : ℕ) (hp : p ≤ 42)
    (S : List (Source 3)) (R r : ℝ) (hR0 : 0 ≤ R) (hR : ∀ s ∈ S, dist2 s.pos center ≤ R) (hRr : R < r) (x : Vec 3)
    (hx : r ≤ dist2 x center) (hA : ¬ (x 0 = center 0 ∧ x 1 = center 1)) :
    ∃ st' e F, Exp3.meOfSources st center p S = .ok (st', e) ∧ Exp3.meForce e x = .ok F ∧
      dist2 F (directField true S x 0) ≤ (S.map fun s => |s.q|).sum * errGrad (p + 1) R r := by
  obtain ⟨st', e, h1, _, _, _, h2⟩ := Exp3.meOfSources_ok st hst.good.1 center p hp S
  have hA' : ¬ OnAxis (x - center) := fun h => hA ⟨sub_eq_zero.mp h.1, sub_eq_zero.mp h.2⟩
  refine ⟨st', e, _, h1, Exp3.meForce_ok h2 x hA', ?_⟩
  rw [totalStrength_sum, ← errGrad_eq]
  exact me_force_bound3 center x p S hR0 hR hRr hx

/-- **C59** Local expansion of a list of sources. -/
theorem C59_s2l_force_bound (st : Stat3) (hst : Reachable3 st) (center : Vec 3) (p : ℕ) (hp : p ≤ 42) (S : List (Source 3))
    (r D : ℝ) (hD : ∀ s ∈ S, D ≤ dist2 s.pos center) (hrD : r < D) (x : Vec 3) (hx : dist2 x center ≤ r)
    (hA : ¬ (x 0 = center 0 ∧ x 1 = center 1)) :
    ∃ st' e F, Exp3.leOfSources st center p S = .ok (st', e) ∧ Exp3.leForce e x = .ok F ∧
      dist2 F (directField true S x 0) ≤ (S.map fun s => |s.q|).sum * errGrad p r D := by
  have hr : 0 ≤ r := (dist2_nonneg _ _).trans hx
  have hA' : ¬ OnAxis (x - center) := fun h => hA ⟨sub_eq_zero.mp h.1, sub_eq_zero.mp h.2⟩
  obtain ⟨st', e, h1, _, _, _, h2⟩ := Exp3.leOfSources_ok st hst.good.1 center p hp S (by
    intro s hs h
    have := hD s hs
    rw [h, (dist2_eq_zero_iff _ _).mpr rfl] at this
    linarith)
  refine ⟨st', e, _, h1, Exp3.leForce_ok h2 x hA', ?_⟩
  rw [totalStrength_sum, ← errGrad_eq]
  exact le_force_bound3 center x p S hx hrD hD

/-- **C59** Multipole expansion to local expansion, for every state of the tables when the multipole expansion is built
(`st`) and when it is converted (`st2`). -/
theorem C59_m2l_force_bound (st st2 : Stat3) (hst : Reachable3 st) (hst2 : Reachable3 st2) (center center' : Vec 3) (p : ℕ)
    (hp : p ≤ 42) (hp0 : 0 < p) (S : List (Source 3)) (R r D : ℝ) (hS : ∀ s ∈ S, dist2 s.pos center ≤ R) (hR : 0 ≤ R)
    (hD : D ≤ dist2 center center') (hrD : r + R < D) (x : Vec 3) (hx : dist2 x center' ≤ r)
    (hA : ¬ (x 0 = center' 0 ∧ x 1 = center' 1)) :
    ∃ st' e st2' f F, Exp3.meOfSources st center p S = .ok (st', e) ∧ Exp3.leOfMe st2 center' e = .ok (st2', f) ∧
      Exp3.leForce f x = .ok F ∧
      dist2 F (directField true S x 0) ≤ (S.map fun s => |s.q|).sum * errGrad p (r + R) D := by
  have hr : 0 ≤ r := (dist2_nonneg _ _).trans hx
  have hA' : ¬ OnAxis (x - center') := fun h => hA ⟨sub_eq_zero.mp h.1, sub_eq_zero.mp h.2⟩
  obtain ⟨st', e, h1, _, _, _, h2⟩ := Exp3.meOfSources_ok st hst.good.1 center p hp S
  obtain ⟨st2', f, k1, -, -, -, k5⟩ := Exp3.leOfMe_ok st2 hst2.good.1 h2 hp (Or.inl hp0) center' (by
    intro h
    rw [h, (dist2_eq_zero_iff _ _).mpr rfl] at hD
    linarith)
  refine ⟨st', e, st2', f, _, h1, k1, Exp3.leForce_ok k5 x hA', ?_⟩
  rw [totalStrength_sum, ← errGrad_eq]
  exact m2l_force_bound3 center center' x p S hR hS hx hD hrD

/-- Two sources, evaluated at a distance of four times the radius. -/
example : ∃ st' e F, Exp3.meOfSources (Stat3.init 0 0 0) ![0, 0, 0] 5 [⟨![1, 0, 0], 1⟩, ⟨![0, 0, -1], 2⟩] = .ok (st', e) ∧
    Exp3.meForce e ![0, 4, 0] = .ok F ∧
    dist2 F (directField true [⟨![1, 0, 0], 1⟩, ⟨![0, 0, -1], 2⟩] ![0, 4, 0] 0) ≤ 1 / 2000 := by
  obtain ⟨st', e, F, h1, h2, h3⟩ := C59_multipole_force_bound _ reachable3_init ![0, 0, 0] 5 (by norm_num)
    [⟨![1, 0, 0], 1⟩, ⟨![0, 0, -1], 2⟩] 1 4 (by norm_num) (by
      intro s hs
      simp only [List.mem_cons, List.not_mem_nil, or_false] at hs
      rcases hs with rfl | rfl <;> simp [dist2, Fin.sum_univ_three]) (by norm_num) ![0, 4, 0]
    (by
      have : Real.sqrt (4 ^ 2) = 4 := Real.sqrt_sq (by norm_num)
      simp [dist2, Fin.sum_univ_three, this]) (by norm_num)
  refine ⟨st', e, F, h1, h2, h3.trans ?_⟩
  norm_num [errGrad]

end FMM
