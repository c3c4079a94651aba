import Verif.FltForceEval3
import Verif.FltForceIeee3
import Verif.PropsFltOps3
import Verif.PropsForceBounds3

/-!
# C88: forces of the expansions in space in floating-point arithmetic

In a cone around the vertical through the centre the evaluation aborts (C87).  At an angle with the vertical whose sine is at
least `s` it succeeds, and its error is the truncation error of C59, plus the change of the field over the distance by which
rounding displaces the point on its sphere (of order `u / s`), plus `(1 + u)^n - 1` times a majorant of the terms.
-/

namespace FMM

/-- The sine of the angle between `x - c` and the vertical is at least `s`. -/
def OffAxis (s : ℝ) (c x : Vec 3) : Prop := x ≠ c ∧ s * dist2 x c ≤ Real.sqrt ((x 0 - c 0) ^ 2 + (x 1 - c 1) ^ 2)

/-- `κ` roundings are as much as the evaluation of the angles of a point at angle `s`, and of the Legendre functions and their
derivatives there. -/
def AngleCost (u g s : ℝ) (p κ : ℕ) : Prop :=
  0 < s ∧ s ≤ 1 ∧ 32 ≤ κ * s ^ 2 ∧ κ * u ≤ 1 / 4 ∧ 1 + Real.sqrt (2 * p + 1) * (2 * g / s) ≤ (1 + u) ^ κ

/-- Number of roundings of the evaluation of the force of an expansion of order `p`. -/
def forceRoundings (p κ : ℕ) : ℕ := (p + 1) ^ 2 + 11 * p + 3 * κ + 28

theorem AngleCost.frame {u g s : ℝ} {p κ : ℕ} (h : AngleCost u g s p κ) : Fl3.FrameCost u g s p κ :=
  ⟨h.1, h.2.1, h.2.2.1, h.2.2.2.1, h.2.2.2.2⟩

theorem OffAxis.clear {s : ℝ} {c x : Vec 3} (h : OffAxis s c x) : Fl3.Clear s c x where
  ne := sub_ne_zero.mpr h.1
  ang := by rw [len3_eq_dist2]; exact h.2

/-- For `double`s, angles of at least `2 ^ -k` cost `2 ^ (2 k + 5)` roundings. -/
theorem double_angle {p k : ℕ} (hp : p ≤ 42) (hk : k ≤ 21) : AngleCost (1 / 2 ^ 49) (1 / 2 ^ 52) (1 / 2 ^ k) p (2 ^ (2 * k + 5)) :=
  have h := ieee_frame hp hk
  ⟨h.pos, h.le_one, h.le, h.small, h.tab⟩

variable {F : Flt3} {u g s : ℝ} {p κ κ' : ℕ}

/-- Evaluation at the displaced point. -/
theorem force_close {f t : Vec 3} {z x : Vec 3} {S : List (Source 3)} {δ B M q : ℝ} {n : ℕ} (hδ : 0 < δ)
    (h1 : ∀ j, Ap u n M (f j) (t j)) (h2 : dist2 t (directField true S z 0) ≤ B) (hz : ∀ s ∈ S, δ ≤ len3 (s.pos - z))
    (hx : ∀ s ∈ S, δ ≤ len3 (s.pos - x)) (hq : len3 (z - x) ≤ q) (j : Fin 3) :
    |f j - directField true S x 0 j| ≤ B + totalStrength S * (4 * q / δ ^ 3) + ((1 + u) ^ n - 1) * M := by
  have a1 := Fl3.field_move (eps := 0) hδ le_rfl hz hx
  have a2 := dist2_triangle3 t (directField true S z 0) (directField true S x 0)
  have a3 := abs_le_dist2 t (directField true S x 0) j
  have a4 := (h1 j).1
  rw [Real.norm_eq_abs] at a4
  have a5 := abs_sub_le (f j) (t j) (directField true S x 0 j)
  have a6 : totalStrength S * (4 * len3 (z - x) / δ ^ 3 + 0 / δ ^ 5) ≤ totalStrength S * (4 * q / δ ^ 3) := by
    refine mul_le_mul_of_nonneg_left ?_ (totalStrength_nonneg S)
    rw [zero_div, add_zero]
    exact div_le_div_of_nonneg_right (by linarith) (by positivity)
  linarith

theorem ratio_cube {R r L : ℝ} (hR : 0 ≤ R) (h : R < r) (hL : r ≤ L) : L / (L - R) ^ 3 ≤ r / (r - R) ^ 3 := by
  have h1 : 0 < r - R := by linarith
  have h2 : 0 < L - R := by linarith
  have h3 : L / (L - R) ≤ r / (r - R) := by
    rw [div_le_div_iff₀ h2 h1]; nlinarith
  have h4 : ((L - R) ^ 2)⁻¹ ≤ ((r - R) ^ 2)⁻¹ := inv_anti₀ (by positivity) (pow_le_pow_left₀ h1.le (by linarith) 2)
  have h5 := mul_le_mul h3 h4 (by positivity) (by have : 0 ≤ r := by linarith
                                                  positivity)
  have e : ∀ a b : ℝ, b ≠ 0 → a / b ^ 3 = a / b * (b ^ 2)⁻¹ := fun a b hb => by field_simp
  rw [e _ _ h1.ne', e _ _ h2.ne']
  exact h5

/-- **C88** Force of the computed multipole expansion of sources within distance `R` of its centre, at a point at distance at
least `r > R` and at an angle of at least `s` with the vertical: every component. -/
theorem C88_multipole (hF : F.OkD u g) (hκ : OpCost u g p κ) (ha : AngleCost u g s p κ') (st : Stat3) (hst : Reachable3 st)
    (center : Vec 3) (hp : p ≤ 42) (S : List (Source 3)) (x : Vec 3) {R r : ℝ} (hR : 0 ≤ R) (hS : ∀ s ∈ S, dist2 s.pos center ≤ R)
    (hr : R < r) (hx : r ≤ dist2 x center) (hA : OffAxis s center x) :
    ∃ st' e f, Fl3.meOfSources F st center p S = .ok (st', e) ∧ Fl3.meForce F e x = .ok f ∧
      ∀ j, |f j - directField true S x 0 j| ≤ (S.map fun s => |s.q|).sum *
        (errGrad (p + 1) R r + 80 * (u / s) * (r / (r - R) ^ 3) + ((1 + u) ^ (S.length + κ + forceRoundings p κ') - 1) * (3 / (r - R) ^ 2)) := by
  have hAn := totalStrength_nonneg S
  have hu := hF.nonneg
  have hs0 := ha.1
  obtain ⟨st', e, h1, -, -, -, h2⟩ := Fl3.meOfSources_ap hF.toOk3 hκ.cost st hst.good.1 center hp (R := R) S
    fun s hs => by rw [len3_eq_dist2]; exact hS s hs
  have hxl : r ≤ len3 (x - center) := by rw [len3_eq_dist2]; exact hx
  obtain ⟨f, h3, h4⟩ := Fl3.meForce_ap hF ha.frame h2 hAn hR hr hxl hA.clear.ang
  refine ⟨st', e, f, h1, h3, fun j => ?_⟩
  have hzl := Fl3.zpt_len F x center
  have h5 := me_force_bound3 center (Fl3.zpt F x center) p S hR hS hr (by rw [← len3_eq_dist2, hzl]; exact hxl)
  have h6 := Fl3.zpt_close hF ha.frame hA.clear.ne hA.clear.ang
  set L := len3 (x - center)
  have hd : ∀ y, len3 (y - center) = L → ∀ s ∈ S, L - R ≤ len3 (s.pos - y) := fun y hy s hs' => by
    have k1 := hS s hs'
    rw [← len3_eq_dist2] at k1
    have k2 := Fl3.len3_tri y s.pos center
    rw [Fl3.len3_sub_comm y s.pos] at k2
    linarith
  have h7 := force_close (t := fun i => (meGrad3 (meCoeff3 center S) p (Fl3.zpt F x center - center) (unitV i)).re)
    (δ := L - R) (by linarith) h4 h5 (hd _ hzl) (hd x rfl) h6 j
  have h8 : totalStrength S * (4 * (20 * u / s * L) / (L - R) ^ 3) ≤ totalStrength S * (80 * (u / s) * (r / (r - R) ^ 3)) := by
    refine mul_le_mul_of_nonneg_left ?_ hAn
    have e1 : 4 * (20 * u / s * L) / (L - R) ^ 3 = 80 * (u / s) * (L / (L - R) ^ 3) := by ring
    rw [e1]
    exact mul_le_mul_of_nonneg_left (ratio_cube hR hr hxl) (by positivity)
  have e2 : 3 * (totalStrength S * (r - R)⁻¹ ^ 2) = totalStrength S * (3 / (r - R) ^ 2) := by
    rw [inv_pow]; ring
  rw [e2] at h7
  rw [totalStrength_sum, ← errGrad_eq]
  have e3 : S.length + κ + Fl3.fcost p κ' = S.length + κ + forceRoundings p κ' := rfl
  rw [e3] at h7
  rw [mul_add, mul_add]
  linarith

/-- **C88** Force of the computed local expansion of sources at distance at least `D` of its centre, at a point within `r < D`
and at an angle of at least `s` with the vertical. -/
theorem C88_local (hF : F.OkD u g) (hκ : OpCost u g p κ) (ha : AngleCost u g s p κ') (st : Stat3) (hst : Reachable3 st)
    (center : Vec 3) (hp : p ≤ 42) (S : List (Source 3)) (x : Vec 3) {r D : ℝ} (hrD : r < D)
    (hS : ∀ s ∈ S, D ≤ dist2 s.pos center) (hx : dist2 x center ≤ r) (hA : OffAxis s center x) :
    ∃ st' e f, Fl3.leOfSources F st center p S = .ok (st', e) ∧ Fl3.leForce F e x = .ok f ∧
      ∀ j, |f j - directField true S x 0 j| ≤ (S.map fun s => |s.q|).sum *
        (errGrad p r D + 80 * (u / s) * (r / (D - r) ^ 3)
          + ((1 + u) ^ (S.length + κ + forceRoundings p κ') - 1) * (3 * p / (r * (D - r)))) := by
  have hAn := totalStrength_nonneg S
  have hu := hF.nonneg
  have hs0 := ha.1
  have hr : 0 ≤ r := (dist2_nonneg _ _).trans hx
  obtain ⟨st', e, h1, -, -, -, h2⟩ := Fl3.leOfSources_ap hF.toOk3 hκ.cost st hst.good.1 center hp hr hrD S
    fun s hs => by rw [len3_eq_dist2]; exact hS s hs
  have hxl : len3 (x - center) ≤ r := by rw [len3_eq_dist2]; exact hx
  obtain ⟨f, h3, h4⟩ := Fl3.leForce_ap hF ha.frame h2 hxl hA.clear.ne hA.clear.ang
  refine ⟨st', e, f, h1, h3, fun j => ?_⟩
  have hzl := Fl3.zpt_len F x center
  have h5 := le_force_bound3 center (Fl3.zpt F x center) p S (by rw [← len3_eq_dist2, hzl]; exact hxl) hrD hS
  have h6 : len3 (Fl3.zpt F x center - x) ≤ 20 * u / s * r :=
    (Fl3.zpt_close hF ha.frame hA.clear.ne hA.clear.ang).trans (mul_le_mul_of_nonneg_left hxl (by positivity))
  have hd : ∀ y, len3 (y - center) ≤ r → ∀ s ∈ S, D - r ≤ len3 (s.pos - y) := fun y hy s hs' => by
    have k1 := hS s hs'
    rw [← len3_eq_dist2] at k1
    have k2 := Fl3.len3_tri s.pos y center
    linarith
  have h7 := force_close (t := fun i => (leGrad3 (leCoeff3 center S) p (Fl3.zpt F x center - center) (unitV i)).re)
    (δ := D - r) (by linarith) h4 h5 (hd _ (by rw [hzl]; exact hxl)) (hd x hxl) h6 j
  have e1 : 4 * (20 * u / s * r) / (D - r) ^ 3 = 80 * (u / s) * (r / (D - r) ^ 3) := by ring
  have e2 : 3 * (p * (totalStrength S * (D - r)⁻¹) / r) = totalStrength S * (3 * p / (r * (D - r))) := by
    rw [div_mul_eq_div_div_swap]; ring
  have e3 : S.length + κ + Fl3.fcost p κ' = S.length + κ + forceRoundings p κ' := rfl
  rw [e1, e2, e3] at h7
  rw [totalStrength_sum, ← errGrad_eq, mul_add, mul_add]
  linarith

/-- **C88** The way of the far field: multipole expansion of sources within `R` of `c`, converted into a local expansion about
`c'` at distance at least `D`, moved to `c''`, and evaluated within `ρ` of `c''`, where `ρ + |c' - c''| ≤ r` and `R + r < D`. Only
the last centre has an axis to be avoided. -/
theorem C88_chain (hF : F.OkD u g) (hκ : OpCost u g p κ) (ha : AngleCost u g s p κ') (st : Stat3) (hst : Reachable3 st)
    (c c' c'' : Vec 3) (hp0 : 0 < p) (hp : p ≤ 42) (S : List (Source 3)) (x : Vec 3) {R ρ r D : ℝ} (hR : 0 ≤ R)
    (hS : ∀ s ∈ S, dist2 s.pos c ≤ R) (hx : dist2 x c'' ≤ ρ) (hρ : ρ + dist2 c' c'' ≤ r) (hD : D ≤ dist2 c c') (hRD : R + r < D)
    (hA : OffAxis s c'' x) :
    ∃ st1 e st2 l st3 l' f, Fl3.meOfSources F st c p S = .ok (st1, e) ∧ Fl3.leOfMe F st1 c' e = .ok (st2, l) ∧
      Fl3.leOfLe F st2 c'' l = .ok (st3, l') ∧ Fl3.leForce F l' x = .ok f ∧
      ∀ j, |f j - directField true S x 0 j| ≤ (S.map fun s => |s.q|).sum *
        (errGrad p (r + R) D + 80 * (u / s) * (ρ / (D - (R + r)) ^ 3)
          + ((1 + u) ^ (S.length + 3 * κ + forceRoundings p κ') - 1) * (3 * p * Real.sqrt (2 * p + 1) / (ρ * (D - (R + r))))) := by
  have hAn := totalStrength_nonneg S
  have hu := hF.nonneg
  have hs0 := ha.1
  have hρ0 : 0 ≤ ρ := (dist2_nonneg _ _).trans hx
  have hr : 0 ≤ r := le_trans (add_nonneg hρ0 (dist2_nonneg _ _)) hρ
  obtain ⟨st1, e, h1, h2, -, -, h3⟩ := Fl3.meOfSources_ap hF.toOk3 hκ.cost st hst.good.1 c hp (R := R) S
    fun s hs => by rw [len3_eq_dist2]; exact hS s hs
  obtain ⟨st2, l, h4, h5, -, -, h6⟩ := Fl3.leOfMe_ap hF.toOk3 hκ.cost st1 h2 h3 hAn hR hp hp0 c' hr hRD
    (by rw [len3_eq_dist2]; exact hD)
  obtain ⟨st3, l', h7, -, -, -, h8⟩ := Fl3.leOfLe_ap hF.toOk3 hκ.cost st2 h5 h6 hp hp0 c'' (R' := ρ) hρ0
    (by rw [len3_eq_dist2]; exact hρ)
  have hxl : len3 (x - c'') ≤ ρ := by rw [len3_eq_dist2]; exact hx
  obtain ⟨f, h9, h10⟩ := Fl3.leForce_ap hF ha.frame h8 hxl hA.clear.ne hA.clear.ang
  refine ⟨st1, e, st2, l, st3, l', f, h1, h4, h7, h9, fun j => ?_⟩
  have hzl := Fl3.zpt_len F x c''
  have hnear : ∀ y, len3 (y - c'') ≤ ρ → dist2 y c' ≤ r := fun y hy => by
    have := dist2_triangle3 y c'' c'
    rw [dist2_comm c'' c', ← len3_eq_dist2 y c''] at this
    linarith
  have h11 := m2l_force_bound3 c c' (Fl3.zpt F x c'') p S hR hS (hnear _ (by rw [hzl]; exact hxl)) hD (by linarith)
  have h6' : len3 (Fl3.zpt F x c'' - x) ≤ 20 * u / s * ρ :=
    (Fl3.zpt_close hF ha.frame hA.clear.ne hA.clear.ang).trans (mul_le_mul_of_nonneg_left hxl (by positivity))
  have hd : ∀ y, len3 (y - c'') ≤ ρ → ∀ s ∈ S, D - (R + r) ≤ len3 (s.pos - y) := fun y hy s hs' => by
    have k1 := hS s hs'
    have k2 := hnear y hy
    have k3 := dist2_triangle3 c s.pos c'
    have k4 := dist2_triangle3 s.pos y c'
    rw [dist2_comm c s.pos] at k3
    rw [len3_eq_dist2]
    linarith
  have e0 : (fun i => (leGrad3 (l2lC p (m2lC p (meCoeff3 c S) (c - c')) (c' - c'')) p (Fl3.zpt F x c'' - c'') (unitV i)).re)
      = fun i => (leGrad3 (m2lC p (meCoeff3 c S) (c - c')) p (Fl3.zpt F x c'' - c') (unitV i)).re := by
    funext i
    rw [leGrad3_l2l, show Fl3.zpt F x c'' - c'' - (c' - c'') = Fl3.zpt F x c'' - c' by abel]
  rw [← e0] at h11
  have h12 := force_close (t := fun i => (leGrad3 (l2lC p (m2lC p (meCoeff3 c S) (c - c')) (c' - c'')) p (Fl3.zpt F x c'' - c'') (unitV i)).re)
    (δ := D - (R + r)) (by linarith) h10 h11 (hd _ (by rw [hzl]; exact hxl)) (hd x hxl) h6' j
  have e1 : 4 * (20 * u / s * ρ) / (D - (R + r)) ^ 3 = 80 * (u / s) * (ρ / (D - (R + r)) ^ 3) := by ring
  have e2 : 3 * (p * (Real.sqrt (2 * p + 1) * totalStrength S * (D - R - r)⁻¹) / ρ)
      = totalStrength S * (3 * p * Real.sqrt (2 * p + 1) / (ρ * (D - (R + r)))) := by
    rw [div_mul_eq_div_div_swap, sub_sub]; ring
  have e3 : S.length + κ + κ + κ + Fl3.fcost p κ' = S.length + 3 * κ + forceRoundings p κ' := by
    unfold Fl3.fcost forceRoundings; ring
  rw [e1, e2, e3] at h12
  rw [totalStrength_sum, ← errGrad_eq, mul_add, mul_add]
  linarith

/-- **C88** `double`s: off the cone of slope `2 ^ -k` about the vertical, `k ≤ 21`, the force of the multipole expansion is
evaluated (inside the cone of slope `2 ^ -29` it is not, C87), for every order up to 42 and every number of sources. -/
theorem C88_double {k : ℕ} (hk : k ≤ 21) (st : Stat3) (hst : Reachable3 st) (center : Vec 3) (hp : p ≤ 42) (S : List (Source 3)) (x : Vec 3)
    {R r : ℝ} (hR : 0 ≤ R) (hS : ∀ s ∈ S, dist2 s.pos center ≤ R) (hr : R < r) (hx : r ≤ dist2 x center)
    (hA : OffAxis (1 / 2 ^ k) center x) :
    ∃ st' e f, Fl3.meOfSources Flt3.ieee st center p S = .ok (st', e) ∧ Fl3.meForce Flt3.ieee e x = .ok f ∧
      ∀ j, |f j - directField true S x 0 j| ≤ (S.map fun s => |s.q|).sum *
        (errGrad (p + 1) R r + 80 * (1 / 2 ^ 49 / (1 / 2 ^ k)) * (r / (r - R) ^ 3)
          + ((1 + 1 / 2 ^ 49) ^ (S.length + 2 ^ 37 + forceRoundings p (2 ^ (2 * k + 5))) - 1) * (3 / (r - R) ^ 2)) :=
  C88_multipole Flt3.ieee_okD (double_cost hp) (double_angle hp hk) st hst center hp S x hR hS hr hx hA

/-- Non-vacuity: two charges, `double`s, order 10, a point at distance 5. -/
example : ∃ st' e f, Fl3.meOfSources Flt3.ieee (Stat3.init 0 0 0) 0 10 [(⟨![1, 0, 0], 1⟩ : Source 3), ⟨![0, 0, -1], -2⟩] = .ok (st', e) ∧
    Fl3.meForce Flt3.ieee e ![4, 0, 3] = .ok f ∧
    ∀ j, |f j - directField true [(⟨![1, 0, 0], 1⟩ : Source 3), ⟨![0, 0, -1], -2⟩] ![4, 0, 3] 0 j| ≤ 3 *
        (errGrad 11 1 5 + 80 * (1 / 2 ^ 49 / (1 / 2 ^ 1)) * (5 / (5 - 1) ^ 3)
          + ((1 + 1 / 2 ^ 49) ^ (2 + 2 ^ 37 + forceRoundings 10 (2 ^ 7)) - 1) * (3 / (5 - 1) ^ 2)) := by
  have hd : dist2 (![4, 0, 3] : Vec 3) 0 = 5 := by
    rw [← len3_eq_dist2]
    unfold len3 dot3
    rw [show ((![4, 0, 3] : Vec 3) - 0) 0 * ((![4, 0, 3] : Vec 3) - 0) 0 + ((![4, 0, 3] : Vec 3) - 0) 1 * ((![4, 0, 3] : Vec 3) - 0) 1
      + ((![4, 0, 3] : Vec 3) - 0) 2 * ((![4, 0, 3] : Vec 3) - 0) 2 = 5 ^ 2 by simp; norm_num, Real.sqrt_sq (by norm_num)]
  have hm : (([(⟨![1, 0, 0], 1⟩ : Source 3), ⟨![0, 0, -1], -2⟩]).map fun s => |s.q|).sum = 3 := by
    simp only [List.map_cons, List.map_nil, List.sum_cons, List.sum_nil, abs_one, abs_neg, abs_two]; norm_num
  have h := C88_double (p := 10) (k := 1) (by norm_num) (Stat3.init 0 0 0) reachable3_init 0 (by norm_num)
    [(⟨![1, 0, 0], 1⟩ : Source 3), ⟨![0, 0, -1], -2⟩] ![4, 0, 3] (R := 1) (r := 5) zero_le_one (by
      intro s hs
      simp only [List.mem_cons, List.not_mem_nil, or_false] at hs
      rcases hs with rfl | rfl <;> rw [← len3_eq_dist2] <;> unfold len3 dot3 <;> simp) (by norm_num) hd.ge ⟨by
        intro h
        have := congrFun h 0
        norm_num at this, by
        rw [hd]
        refine Real.le_sqrt_of_sq_le ?_
        simp; norm_num⟩
  rw [hm] at h
  exact h

end FMM
