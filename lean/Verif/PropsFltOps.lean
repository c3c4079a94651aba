import Verif.FltOpsLE
import Verif.FltIeee
import Verif.PropsFmm2D

/-!
# C75, C76: the expansions and their translations in floating-point arithmetic

Every bound is the sum of the truncation error (exact arithmetic) and a multiple `(1 + u)^n - 1` of a majorant of the terms
that are summed up; `u` is the accuracy of a single operation.
-/

namespace FMM
open Finset

/-- Every operation of the chain, one after the other: multipole expansions of the groups `G` of sources about their own
centres. -/
noncomputable def groupMEs (F : Flt) (order : ℕ) :
    List (Vec 2 × List (Source 2)) → BinomialTable → Outcome (BinomialTable × List Exp2)
  | [], bt => .ok (bt, [])
  | g :: G, bt => do
      let (bt, e) ← Fl.meOfSources F bt g.1 order g.2
      let (bt, es) ← groupMEs F order G bt
      .ok (bt, e :: es)

theorem mePotMaj_le {A R r Λ : ℝ} (hA : 0 ≤ A) (hR : 0 ≤ R) (hr : R < r) (p : ℕ) :
    Fl.mePotMaj A R r⁻¹ Λ p ≤ A * (Λ + Real.pi + R / (r - R)) := by
  have hr0 : 0 < r := lt_of_le_of_lt hR hr
  have hx : R * r⁻¹ < 1 := by rw [← div_eq_mul_inv, div_lt_one hr0]; exact hr
  have h := Fl.sum_geom_le (by positivity : 0 ≤ R * r⁻¹) hx p
  unfold Fl.mePotMaj
  have e : ∑ i ∈ range p, A * R ^ (i + 1) * r⁻¹ ^ (i + 1) = A * ∑ i ∈ range p, (R * r⁻¹) ^ (i + 1) := by
    rw [mul_sum]; exact sum_congr rfl fun i _ => by rw [mul_pow]; ring
  have e2 : R * r⁻¹ / (1 - R * r⁻¹) = R / (r - R) := by
    have h1 : r - R ≠ 0 := by linarith
    have h2 : 1 - R * r⁻¹ ≠ 0 := by linarith
    field_simp
  rw [e2] at h
  rw [e, mul_add A (Λ + Real.pi)]
  have := mul_le_mul_of_nonneg_left h hA
  linarith

theorem meForceMaj_le {A R r : ℝ} (hA : 0 ≤ A) (hR : 0 ≤ R) (hr : R < r) (p : ℕ) :
    Fl.meForceMaj A R r⁻¹ p ≤ A * (1 / r + R / (r - R) ^ 2) := by
  have hr0 : 0 < r := lt_of_le_of_lt hR hr
  have hx : R * r⁻¹ < 1 := by rw [← div_eq_mul_inv, div_lt_one hr0]; exact hr
  have h := Fl.sum_geom_deriv_le (by positivity : 0 ≤ R * r⁻¹) hx p
  unfold Fl.meForceMaj
  have e : ∑ i ∈ range p, ((i + 1 : ℕ) : ℝ) * (A * R ^ (i + 1)) * r⁻¹ ^ (i + 2)
      = A * (R * r⁻¹ ^ 2) * ∑ i ∈ range p, ((i + 1 : ℕ) : ℝ) * (R * r⁻¹) ^ i := by
    rw [mul_sum]; exact sum_congr rfl fun i _ => by rw [mul_pow]; ring
  have e2 : A * (R * r⁻¹ ^ 2) * (1 / (1 - R * r⁻¹) ^ 2) = A * (R / (r - R) ^ 2) := by
    have h1 : r - R ≠ 0 := by linarith
    have h2 : 1 - R * r⁻¹ ≠ 0 := by linarith
    field_simp
  rw [e, mul_add, one_div, ← e2]
  have : A * (R * r⁻¹ ^ 2) * ∑ i ∈ range p, ((i + 1 : ℕ) : ℝ) * (R * r⁻¹) ^ i
      ≤ A * (R * r⁻¹ ^ 2) * (1 / (1 - R * r⁻¹) ^ 2) :=
    mul_le_mul_of_nonneg_left h (by positivity)
  linarith

theorem totalStrength_nn (S : List (Source 2)) : 0 ≤ totalStrength S := totalStrength_nonneg S

theorem ne_of_norm_far {S : List (Source 2)} {c : ℂ} {x : Vec 2} {R r : ℝ} (hS : ∀ s ∈ S, ‖toC s.pos - c‖ ≤ R) (hr : R < r)
    (hx : r ≤ ‖toC x - c‖) : ∀ s ∈ S, s.pos ≠ x := by
  intro s hs h
  have := hS s hs
  rw [h] at this
  linarith

theorem pow_sub_nonneg {u : ℝ} (hu : 0 ≤ u) (n : ℕ) : 0 ≤ (1 + u) ^ n - 1 := by
  have := one_le_pow_u hu n; linarith

/-- Evaluation of a computed multipole expansion. -/
theorem AppM.eval {F : Flt} {u : ℝ} (hF : F.Ok u) {n p : ℕ} {e : Exp2} {c : ℂ} {S : List (Source 2)} {R r : ℝ} (hR : 0 ≤ R)
    (he : Fl.AppM u n e c p (meCoeff c S) (totalStrength S) R) (hS : ∀ s ∈ S, ‖toC s.pos - c‖ ≤ R) {x : Vec 2} (hr : R < r)
    (hx : r ≤ ‖toC x - c‖) :
    (∃ v, Fl.mePot F e x = .ok v ∧ |v - directPotential true S x| ≤ totalStrength S * tailBound p (R / r)
      + ((1 + u) ^ (n + 4 * p + 4) - 1) * (totalStrength S * (|Real.log ‖toC x - c‖| + Real.pi + R / (r - R)))) ∧
    ∃ w, Fl.meForce F e x = .ok w ∧ dist2 w (directField true S x 0) ≤ totalStrength S * ((R / r) ^ (p + 1) / (r - R))
      + ((1 + u) ^ (n + 4 * p + 9) - 1) * (totalStrength S * (1 / r + R / (r - R) ^ 2)) := by
  have hr0 : 0 < r := lt_of_le_of_lt hR hr
  have hA := totalStrength_nn S
  have hx0 : toC x - c ≠ 0 := by
    intro h; rw [h, norm_zero] at hx; linarith
  have hζ : ‖toC x - c‖⁻¹ ≤ r⁻¹ := inv_anti₀ hr0 hx
  have hne := ne_of_norm_far hS hr hx
  constructor
  · obtain ⟨v, h1, h2, -⟩ := Fl.mePot_ap hF he x hx0 hζ le_rfl
    refine ⟨v, h1, ?_⟩
    have h3 := me_bound c (toC x) p S hS hr hx
    rw [← directPotential_two S x hne] at h3
    have h4 := mul_le_mul_of_nonneg_left (mePotMaj_le (Λ := |Real.log ‖toC x - c‖|) hA hR hr p)
      (pow_sub_nonneg hF.nonneg (n + 4 * p + 4))
    rw [Real.norm_eq_abs] at h2
    have := abs_sub_le v (meSum (meCoeff c S) p (toC x - c)).re (directPotential true S x)
    linarith
  · obtain ⟨f, h1, h2, -⟩ := Fl.meForce_ap hF he x hx0 hζ
    refine ⟨_, h1, ?_⟩
    rw [directField_two S x hne, dist2_fieldOf]
    have h3 := me_field_bound c (toC x) p S hS hr hx
    have h4 := mul_le_mul_of_nonneg_left (meForceMaj_le hA hR hr p) (pow_sub_nonneg hF.nonneg (n + 4 * p + 9))
    have := norm_sub_le_norm_sub_add_norm_sub f (meDeriv (meCoeff c S) p (toC x - c)) (cField S (toC x))
    linarith

/-- **C75** Potential and field of the computed multipole expansion of sources within distance `R` of its centre, at a
point at distance at least `r > R`. -/
theorem C75_multipole {F : Flt} {u : ℝ} (hF : F.Ok u) (bt : BinomialTable) (hbt : bt.Good) (center : Vec 2) (p : ℕ)
    (hp : p ≤ 1029) (S : List (Source 2)) (x : Vec 2) {R r : ℝ} (hR : 0 ≤ R) (hS : ∀ s ∈ S, dist2 s.pos center ≤ R)
    (hr : R < r) (hx : r ≤ dist2 x center) :
    ∃ bt' e v w, Fl.meOfSources F bt center p S = .ok (bt', e) ∧ Fl.mePot F e x = .ok v ∧ Fl.meForce F e x = .ok w ∧
      |v - directPotential true S x| ≤ strength S * ((R / r) ^ (p + 1) / ((p + 1) * (1 - R / r)))
        + ((1 + u) ^ (6 * p + S.length + 5) - 1) * (strength S * (|Real.log (dist2 x center)| + Real.pi + R / (r - R))) ∧
      dist2 w (directField true S x 0) ≤ strength S * ((R / r) ^ (p + 1) / (r - R))
        + ((1 + u) ^ (6 * p + S.length + 10) - 1) * (strength S * (1 / r + R / (r - R) ^ 2)) := by
  have hS' : ∀ s ∈ S, ‖toC s.pos - toC center‖ ≤ R := fun s hs => by rw [norm_toC_sub]; exact hS s hs
  obtain ⟨bt', e, h1, -, -, -, h2⟩ := Fl.meOfSources_ap hF bt hbt center p hp S hS'
  obtain ⟨⟨v, h3, h4⟩, w, h5, h6⟩ := AppM.eval hF hR h2 hS' hr (x := x) (by rw [norm_toC_sub]; exact hx)
  rw [totalStrength_eq_strength] at h4 h6
  rw [norm_toC_sub] at h4
  rw [show 2 * p + S.length + 1 + 4 * p + 4 = 6 * p + S.length + 5 by omega] at h4
  rw [show 2 * p + S.length + 1 + 4 * p + 9 = 6 * p + S.length + 10 by omega] at h6
  exact ⟨bt', e, v, w, h1, h3, h5, h4, h6⟩

/-- The multipole expansions of groups of sources. -/
theorem groupMEs_ap {F : Flt} {u : ℝ} (hF : F.Ok u) {p : ℕ} (hp : p ≤ 1029) {R : ℝ} {N : ℕ}
    (G : List (Vec 2 × List (Source 2))) (hG : ∀ g ∈ G, g.2.length ≤ N ∧ ∀ s ∈ g.2, ‖toC s.pos - toC g.1‖ ≤ R)
    (bt : BinomialTable) (hbt : bt.Good) :
    ∃ bt' es, groupMEs F p G bt = .ok (bt', es) ∧ bt'.Good ∧ List.Forall₂ (fun g e =>
      Fl.AppM u (2 * p + N + 1) e (toC g.1) p (meCoeff (toC g.1) g.2) (totalStrength g.2) R) G es := by
  induction G generalizing bt with
  | nil => exact ⟨bt, [], rfl, hbt, .nil⟩
  | cons g G ih =>
    obtain ⟨hn, hs⟩ := hG g (by simp)
    obtain ⟨bt1, e, h1, h2, -, -, h3⟩ := Fl.meOfSources_ap hF bt hbt g.1 p hp g.2 hs
    obtain ⟨bt2, es, h4, h5, h6⟩ := ih (fun g' hg' => hG g' (by simp [hg'])) bt1 h2
    refine ⟨bt2, e :: es, ?_, h5, .cons ⟨h3.order, h3.center, h3.size, h3.im, h3.im', fun k hk =>
      (h3.ap k hk).mono hF.nonneg (by omega) le_rfl⟩ h6⟩
    rw [groupMEs, h1, ok_bind]
    simp only
    rw [h4, ok_bind]

/-- **C75** The same after translation: groups of at most `N` sources, each within `R` of the centre of its group, whose
expansions are translated to a common centre at distance at most `σ` from the centres of the groups and added up. -/
theorem C75_translated {F : Flt} {u : ℝ} (hF : F.Ok u) (bt : BinomialTable) (hbt : bt.Good) (center : Vec 2) (p : ℕ)
    (hp : p ≤ 1029) (G : List (Vec 2 × List (Source 2))) (hne : G ≠ []) {N : ℕ} (x : Vec 2) {R σ r : ℝ} (hR : 0 ≤ R)
    (hG : ∀ g ∈ G, g.2.length ≤ N ∧ (∀ s ∈ g.2, dist2 s.pos g.1 ≤ R) ∧ dist2 g.1 center ≤ σ) (hr : R + σ < r)
    (hx : r ≤ dist2 x center) :
    ∃ bt' es bt'' e v w, groupMEs F p G bt = .ok (bt', es) ∧ Fl.meOfMes F bt' center es = .ok (bt'', e) ∧
      Fl.mePot F e x = .ok v ∧ Fl.meForce F e x = .ok w ∧
      |v - directPotential true (G.flatMap (·.2)) x| ≤ strength (G.flatMap (·.2)) *
          (((R + σ) / r) ^ (p + 1) / ((p + 1) * (1 - (R + σ) / r)))
        + ((1 + u) ^ (9 * p + N + G.length + 8) - 1) *
          (strength (G.flatMap (·.2)) * (|Real.log (dist2 x center)| + Real.pi + (R + σ) / (r - (R + σ)))) ∧
      dist2 w (directField true (G.flatMap (·.2)) x 0) ≤ strength (G.flatMap (·.2)) *
          (((R + σ) / r) ^ (p + 1) / (r - (R + σ)))
        + ((1 + u) ^ (9 * p + N + G.length + 13) - 1) *
          (strength (G.flatMap (·.2)) * (1 / r + (R + σ) / (r - (R + σ)) ^ 2)) := by
  have hσ : 0 ≤ σ := by
    obtain ⟨g, hg⟩ := List.exists_mem_of_ne_nil G hne
    refine le_trans ?_ (hG g hg).2.2
    rw [← norm_toC_sub]; exact norm_nonneg _
  obtain ⟨bt', es, h1, h2, h3⟩ := groupMEs_ap hF hp G (R := R) (N := N) (fun g hg => ⟨(hG g hg).1, fun s hs => by
    rw [norm_toC_sub]; exact (hG g hg).2.1 s hs⟩) bt hbt
  have hlen := h3.length_eq
  let L : List (Exp2 × ℂ × List (Source 2)) := (List.zip G es).map fun y => (y.2, toC y.1.1, y.1.2)
  have hL1 : L.map (·.1) = es := by
    simp only [L, List.map_map]
    exact List.map_snd_zip hlen.ge
  have hL2 : L.flatMap (·.2.2) = G.flatMap (·.2) := by
    have : G = (List.zip G es).map Prod.fst := (List.map_fst_zip hlen.le).symm
    conv_rhs => rw [this]
    simp only [L, List.flatMap_map]
  have hL3 : L.length = G.length := by simp [L, ← hlen]
  obtain ⟨bt'', e, h4, -, -, -, h5⟩ := Fl.meOfMes_ap hF bt' h2 center p hp (n := 2 * p + N + 1) (σ := σ) hR L (by
      intro h; rw [h] at hL3; exact hne (List.eq_nil_of_length_eq_zero hL3.symm)) (by
    intro y hy
    obtain ⟨⟨g, e⟩, hz, rfl⟩ := List.mem_map.mp hy
    refine ⟨(List.forall₂_iff_zip.mp h3).2 hz, ?_⟩
    rw [norm_toC_sub]
    exact (hG g (List.of_mem_zip hz).1).2.2)
  rw [hL1] at h4
  rw [hL2, hL3] at h5
  have hS' : ∀ s ∈ G.flatMap (·.2), ‖toC s.pos - toC center‖ ≤ R + σ := by
    intro s hs
    obtain ⟨g, hg, hsg⟩ := List.mem_flatMap.mp hs
    have a := (hG g hg).2.1 s hsg
    have b := (hG g hg).2.2
    rw [← norm_toC_sub] at a b
    have := norm_add_le (toC s.pos - toC g.1) (toC g.1 - toC center)
    rw [sub_add_sub_cancel] at this
    linarith
  obtain ⟨⟨v, h6, h7⟩, w, h8, h9⟩ := AppM.eval hF (add_nonneg hR hσ) h5 hS' hr (x := x) (by rw [norm_toC_sub]; exact hx)
  rw [totalStrength_eq_strength] at h7 h9
  rw [norm_toC_sub] at h7
  rw [show 2 * p + N + 1 + 3 * p + 3 + G.length + 4 * p + 4 = 9 * p + N + G.length + 8 by omega] at h7
  rw [show 2 * p + N + 1 + 3 * p + 3 + G.length + 4 * p + 9 = 9 * p + N + G.length + 13 by omega] at h9
  exact ⟨bt', es, bt'', e, v, w, h1, h4, h6, h8, h7, h9⟩

/-! ## Local expansions -/

/-- Evaluation of a computed local expansion. -/
theorem AppL.eval {F : Flt} {u : ℝ} (hF : F.Ok u) {n p : ℕ} {e : Exp2} {c : ℂ} {b : ℕ → ℂ} {R Mj Dj : ℝ}
    (he : Fl.AppL u n e c p b R Mj Dj) {x : Vec 2} (hx : ‖toC x - c‖ ≤ R) {S : List (Source 2)} {B B' : ℝ}
    (hS : ∀ s ∈ S, s.pos ≠ x)
    (hB : |(leSum b p (toC x - c)).re - (S.map fun s => s.q * Real.log ‖toC x - toC s.pos‖).sum| ≤ B)
    (hB' : ‖leDeriv b p (toC x - c) - cField S (toC x)‖ ≤ B') :
    (∃ v, Fl.lePot F e x = .ok v ∧ |v - directPotential true S x| ≤ B + ((1 + u) ^ (n + 3 * p + 2) - 1) * Mj) ∧
    ∃ w, Fl.leForce F e x = .ok w ∧ dist2 w (directField true S x 0) ≤ B' + ((1 + u) ^ (n + 3 * p + 3) - 1) * Dj := by
  constructor
  · obtain ⟨v, h1, h2, -⟩ := Fl.lePot_ap hF he x hx
    refine ⟨v, h1, ?_⟩
    rw [← directPotential_two S x hS] at hB
    rw [Real.norm_eq_abs] at h2
    have := abs_sub_le v (leSum b p (toC x - c)).re (directPotential true S x)
    linarith
  · obtain ⟨f, h1, h2, -⟩ := Fl.leForce_ap hF he x hx
    refine ⟨_, h1, ?_⟩
    rw [directField_two S x hS, dist2_fieldOf]
    have := norm_sub_le_norm_sub_add_norm_sub f (leDeriv b p (toC x - c)) (cField S (toC x))
    linarith

/-- **C76** Potential and field of the computed local expansion of sources at distance at least `D` from its
centre, at a point at distance at most `r < D`. -/
theorem C76_sources {F : Flt} {u : ℝ} (hF : F.Ok u) (bt : BinomialTable) (hbt : bt.Good) (center : Vec 2) (p : ℕ)
    (hp : p ≤ 1029) (S : List (Source 2)) (x : Vec 2) {r D Λ : ℝ} (hr : 0 ≤ r) (hrD : r < D)
    (hS : ∀ s ∈ S, D ≤ dist2 s.pos center ∧ |Real.log (dist2 s.pos center)| ≤ Λ) (hx : dist2 x center ≤ r) :
    ∃ bt' e v w, Fl.leOfSources F bt center p S = .ok (bt', e) ∧ Fl.lePot F e x = .ok v ∧ Fl.leForce F e x = .ok w ∧
      |v - directPotential true S x| ≤ strength S * ((r / D) ^ (p + 1) / ((p + 1) * (1 - r / D)))
        + ((1 + u) ^ (6 * p + S.length + 7) - 1) * (strength S * (Λ + Real.pi + r / (D - r))) ∧
      dist2 w (directField true S x 0) ≤ strength S * ((r / D) ^ p / (D - r))
        + ((1 + u) ^ (6 * p + S.length + 8) - 1) * (strength S * (D / (D - r) ^ 2)) := by
  have hD : 0 < D := lt_of_le_of_lt hr hrD
  have hS' : ∀ s ∈ S, D ≤ ‖toC s.pos - toC center‖ := fun s hs => by rw [norm_toC_sub]; exact (hS s hs).1
  have hx' : ‖toC x - toC center‖ ≤ r := by rw [norm_toC_sub]; exact hx
  have hθ : r * D⁻¹ < 1 := by rw [← div_eq_mul_inv, div_lt_one hD]; exact hrD
  obtain ⟨bt', e, h1, -, -, -, h2⟩ := Fl.leOfSources_ap hF bt hbt center p hp (R := r) (ζ := D⁻¹) (Λ := Λ) hr (by positivity) hθ
    S (by
      intro s hs
      refine ⟨fun h => ?_, inv_anti₀ hD (hS' s hs), by rw [norm_toC_sub]; exact (hS s hs).2⟩
      have := hS' s hs
      rw [h, norm_zero] at this; linarith)
  have e1 : r * D⁻¹ / (1 - r * D⁻¹) = r / (D - r) := by
    have h1 : D - r ≠ 0 := by linarith
    have h2 : 1 - r * D⁻¹ ≠ 0 := by linarith
    field_simp
  have e2 : D⁻¹ / (1 - r * D⁻¹) ^ 2 = D / (D - r) ^ 2 := by
    have h1 : D - r ≠ 0 := by linarith
    have h2 : 1 - r * D⁻¹ ≠ 0 := by linarith
    field_simp
  rw [e1, e2] at h2
  have hne : ∀ s ∈ S, s.pos ≠ x := by
    intro s hs h
    have := hS' s hs
    rw [h] at this; linarith
  obtain ⟨⟨v, h3, h4⟩, w, h5, h6⟩ := AppL.eval hF h2 hx' hne (le_bound _ _ p S hx' hrD hS') (le_field_bound _ _ p S hx' hrD hS')
  rw [totalStrength_eq_strength] at h4 h6
  rw [show 3 * p + S.length + 5 + 3 * p + 2 = 6 * p + S.length + 7 by omega] at h4
  rw [show 3 * p + S.length + 5 + 3 * p + 3 = 6 * p + S.length + 8 by omega] at h6
  exact ⟨bt', e, v, w, h1, h3, h5, h4, h6⟩

/-- **C76** The whole chain: multipole expansion about `c`, conversion to a local expansion about `c'`, translation to
`c''`, evaluation at `x`. -/
theorem C76_chain {F : Flt} {u : ℝ} (hF : F.Ok u) (bt : BinomialTable) (hbt : bt.Good) (c c' c'' : Vec 2) (p : ℕ)
    (hp0 : 0 < p) (hp : p ≤ 1029) (S : List (Source 2)) (x : Vec 2) {R D : ℝ} (hS : ∀ s ∈ S, dist2 s.pos c ≤ R)
    (hx : dist2 x c'' + dist2 c' c'' ≤ R) (hD : D ≤ dist2 c c') (hRD : 2 * R < D) :
    ∃ bt1 e bt2 f bt3 g v w, Fl.meOfSources F bt c p S = .ok (bt1, e) ∧ Fl.leOfMe F bt1 c' e = .ok (bt2, f) ∧
      Fl.leOfLe F bt2 c'' f = .ok (bt3, g) ∧ Fl.lePot F g x = .ok v ∧ Fl.leForce F g x = .ok w ∧
      |v - directPotential true S x| ≤ strength S * ((2 * R / D) ^ (p + 1) / ((p + 1) * (1 - 2 * R / D)))
        + ((1 + u) ^ (17 * p + S.length + 8) - 1) * (strength S *
          (|Real.log (dist2 c c')| + Real.pi + 2 * R / (D - 2 * R) + R * D / (D - 2 * R) ^ 2)) ∧
      dist2 w (directField true S x 0) ≤ strength S * ((2 * R / D) ^ p / (D - 2 * R))
        + ((1 + u) ^ (17 * p + S.length + 9) - 1) * (strength S * (D ^ 2 / (D - 2 * R) ^ 3)) := by
  have hS' : ∀ s ∈ S, ‖toC s.pos - toC c‖ ≤ R := fun s hs => by rw [norm_toC_sub]; exact hS s hs
  simp only [← norm_toC_sub] at hx hD
  have hR : 0 ≤ R := le_trans (by positivity) hx
  have hD0 : 0 < D := by linarith
  have hc : toC c - toC c' ≠ 0 := fun h => by rw [h, norm_zero] at hD; linarith
  have hρ : 2 * (R * D⁻¹) < 1 := by
    rw [← div_eq_mul_inv, ← mul_div_assoc, div_lt_one hD0]; exact hRD
  obtain ⟨bt1, e, h1, h2, -, -, h3⟩ := Fl.meOfSources_ap hF bt hbt c p hp S hS'
  obtain ⟨bt2, f, h4, h5, h6, -, h7⟩ := Fl.leOfMe_ap hF bt1 h2 h3 hp hp0 c' hc (inv_anti₀ hD0 hD) le_rfl hR hρ
  obtain ⟨bt3, g, b', h8, -, -, -, h9, h10⟩ := Fl.leOfLe_ap hF bt2 h5 h7 hp hp0 c'' le_rfl (norm_nonneg (toC x - toC c'')) hx
  have hxc' : ‖toC x - toC c'‖ ≤ R := by
    have := norm_sub_le_norm_sub_add_norm_sub (toC x) (toC c'') (toC c')
    rw [norm_sub_rev (toC c'')] at this
    linarith
  have hM : p ≤ bt2.maxOrder := by rw [h6]; omega
  have hne : ∀ s ∈ S, s.pos ≠ x := by
    intro s hs h
    have a := hS' s hs
    rw [h] at a
    have := norm_sub_le_norm_sub_add_norm_sub (toC c) (toC x) (toC c')
    rw [norm_sub_rev (toC c) (toC x)] at this
    linarith
  have k1 := m2l_bound bt2.maxOrder p hM (toC c) (toC c') (toC x) S hS' hxc' hD (by linarith)
  have k2 := m2l_field_bound bt2.maxOrder p hM (toC c) (toC c') (toC x) S hS' hxc' hD (by linarith)
  rw [← h10] at k1
  rw [← leDeriv_of_leSum h10 (toC x), ← two_mul] at k2
  rw [← two_mul] at k1
  obtain ⟨⟨v, q1, q2⟩, w, q3, q4⟩ := AppL.eval hF h9 le_rfl hne k1 k2
  rw [totalStrength_eq_strength] at q2 q4
  rw [show 2 * p + S.length + 1 + 9 * p + 5 + 3 * p + 3 * p + 2 = 17 * p + S.length + 8 by omega] at q2
  rw [show 2 * p + S.length + 1 + 9 * p + 5 + 3 * p + 3 * p + 3 = 17 * p + S.length + 9 by omega] at q4
  have hd1 : D - 2 * R ≠ 0 := by linarith
  have hd2 : 1 - 2 * (R * D⁻¹) ≠ 0 := by linarith
  have e1 : Fl.m2lC (2 * (R * D⁻¹)) |Real.log ‖toC c - toC c'‖|
      = |Real.log (dist2 c c')| + Real.pi + 2 * R / (D - 2 * R) + R * D / (D - 2 * R) ^ 2 := by
    rw [norm_toC_sub]
    unfold Fl.m2lC
    field_simp
  have e2 : D⁻¹ / (1 - 2 * (R * D⁻¹)) ^ 3 = D ^ 2 / (D - 2 * R) ^ 3 := by
    field_simp
  rw [e1] at q2
  rw [e2] at q4
  exact ⟨bt1, e, bt2, f, bt3, g, v, w, h1, h4, h8, q1, q3, q2, q4⟩

/-- Non-vacuity: `double`s, two sources near the origin, a point at distance 2, order 20. -/
example : ∃ v, (∃ bt' e, Fl.meOfSources Flt.ieee BinomialTable.init 0 20
      [(⟨![1 / 2, 0], 1⟩ : Source 2), ⟨![0, 1 / 2], -2⟩] = .ok (bt', e) ∧ Fl.mePot Flt.ieee e ![2, 0] = .ok v) ∧
    |v - directPotential true [(⟨![1 / 2, 0], 1⟩ : Source 2), ⟨![0, 1 / 2], -2⟩] ![2, 0]| ≤ 1 / 10 ^ 11 := by
  have hs : ∀ s ∈ [(⟨![1 / 2, 0], 1⟩ : Source 2), ⟨![0, 1 / 2], -2⟩], dist2 s.pos 0 ≤ 1 / 2 := by
    intro s hs
    simp only [List.mem_cons, List.not_mem_nil, or_false] at hs
    unfold dist2
    rcases hs with rfl | rfl <;> simp [Fin.sum_univ_two]
  have hd : dist2 (![2, 0] : Vec 2) 0 = 2 := by unfold dist2; simp [Fin.sum_univ_two]
  obtain ⟨bt', e, v, w, h1, h2, -, h3, -⟩ := C75_multipole Flt.ieee_ok BinomialTable.init BinomialTable.good_init 0 20
    (by norm_num) _ ![2, 0] (R := 1 / 2) (r := 2) (by norm_num) hs (by norm_num) hd.ge
  refine ⟨v, ⟨bt', e, h1, h2⟩, h3.trans ?_⟩
  rw [hd]
  have hst : strength [(⟨![1 / 2, 0], 1⟩ : Source 2), ⟨![0, 1 / 2], -2⟩] = 3 := by
    unfold strength; simp; norm_num
  rw [hst]
  have hlog : |Real.log 2| ≤ 1 := by
    rw [abs_of_pos (Real.log_pos (by norm_num))]
    have := Real.log_le_sub_one_of_pos (x := 2) (by norm_num)
    linarith
  have hpi := Real.pi_le_four
  have hpow : ((1 : ℝ) + 1 / 2 ^ 49) ^ 127 - 1 ≤ 3 / 10 ^ 13 := by norm_num
  have hpow0 : 0 ≤ ((1 : ℝ) + 1 / 2 ^ 49) ^ 127 - 1 := by norm_num
  show _ + (((1 : ℝ) + 1 / 2 ^ 49) ^ 127 - 1) * _ ≤ _
  generalize ((1 : ℝ) + 1 / 2 ^ 49) ^ 127 - 1 = t at hpow hpow0 ⊢
  have h5 : 3 * (|Real.log 2| + Real.pi + 1 / 2 / (2 - 1 / 2)) ≤ 16 := by norm_num; linarith
  have h6 : t * (3 * (|Real.log 2| + Real.pi + 1 / 2 / (2 - 1 / 2))) ≤ 3 / 10 ^ 13 * 16 :=
    mul_le_mul hpow h5 (by positivity) (by norm_num)
  refine (add_le_add le_rfl h6).trans ?_
  norm_num

/-- Non-vacuity of the chain: there are sources, centres and a point that satisfy the requirements. -/
example : ∃ (S : List (Source 2)) (c c' c'' x : Vec 2) (R D : ℝ), S ≠ [] ∧ (∀ s ∈ S, dist2 s.pos c ≤ R) ∧
    dist2 x c'' + dist2 c' c'' ≤ R ∧ D ≤ dist2 c c' ∧ 2 * R < D := by
  refine ⟨[⟨![1, 0], 1⟩], 0, ![4, 0], ![4, 1 / 2], ![4, 1], 1, 4, by simp, ?_, ?_, ?_, by norm_num⟩
  · simp [dist2, Fin.sum_univ_two]
  · have h1 : dist2 (![4, 1] : Vec 2) ![4, 1 / 2] = 1 / 2 := by
      unfold dist2; simp [Fin.sum_univ_two]; rw [Real.sqrt_eq_iff_mul_self_eq] <;> norm_num
    have h2 : dist2 (![4, 0] : Vec 2) ![4, 1 / 2] = 1 / 2 := by
      unfold dist2; simp [Fin.sum_univ_two]
    rw [h1, h2]; norm_num
  · unfold dist2; simp [Fin.sum_univ_two]

end FMM
