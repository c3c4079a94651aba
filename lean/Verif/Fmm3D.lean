import Verif.FmmResults
import Verif.PropsExp3
import Verif.BoxDist

/-!
# The expansion laws in three dimensions (potential)
-/

namespace FMM
open Finset

/-- `MultipoleExpansion<3>`, `LocalExpansion<3>`. -/
noncomputable def kit3 : Kit 3 where
  T := Stat3
  E := Exp3
  empty := Exp3.empty
  size := fun e => e.coeffs.size
  leNew := Exp3.new
  meSrc := Exp3.meOfSources
  meMes := Exp3.meOfMes
  leSrc := Exp3.leOfSources
  leMes := Exp3.leOfMes
  leLe := Exp3.leOfLe
  addEq := Exp3.addEq

/-- The operations used by `evaluatePotential`. -/
noncomputable def pot3 : Obs kit3 ℝ where
  le := Exp3.lePot
  me := Exp3.mePot
  sum := potentialSum

/-- The operations used by `evaluateForcefield`; `feps`: the member `force_smoothing_eps`. -/
noncomputable def force3 (feps : ℝ) : Obs kit3 (Vec 3) where
  le := Exp3.leForce
  me := Exp3.meForce
  sum := fun grav safe S x => forcefieldSum grav safe S x feps

/-! ## Geometry -/

theorem sqrt3_lt : Real.sqrt 3 < 7 / 4 := by
  rw [Real.sqrt_lt' (by norm_num)]; norm_num

theorem sqrt3_gt : 3 / 2 < Real.sqrt 3 := by
  rw [Real.lt_sqrt (by norm_num)]; norm_num

/-- The ratio `√3/2` that governs the error. -/
noncomputable def rho3 : ℝ := Real.sqrt 3 / 2

theorem rho3_pos : 0 < rho3 := by unfold rho3; positivity
theorem rho3_lt : rho3 < 7 / 8 := by unfold rho3; linarith [sqrt3_lt]

theorem box_dist3 {b : Box 3} {x : Vec 3} (hb : 0 < b.len) (h : b.contains x) : dist2 x b.center ≤ rho3 * b.len := by
  have := dist2_box hb.le h
  simpa [rho3] using this

theorem far_dist3 {x y : Vec 3} {D : ℝ} (h : ∃ j, D ≤ |x j - y j|) : D ≤ dist2 x y := by
  obtain ⟨j, hj⟩ := h
  exact hj.trans (abs_le_dist2 x y j)

/-- The error bound of the potential, `b`: edge length of the smallest box. -/
noncomputable def potB3 (p : ℕ) (b : ℝ) : ℝ := rho3 ^ (p + 1) / ((2 - Real.sqrt 3) * b)

theorem potB3_nonneg (p : ℕ) {b : ℝ} (hb : 0 < b) : 0 ≤ potB3 p b := by
  unfold potB3
  have := rho3_pos
  have h : 0 < 2 - Real.sqrt 3 := by linarith [sqrt3_lt]
  positivity

theorem potB3_ge {p : ℕ} {b : ℝ} (hb : 0 < b) :
    (rho3 * b / (3 / 2 * b)) ^ (p + 1) / (3 / 2 * b - rho3 * b) ≤ potB3 p b := by
  have h0 := rho3_pos
  have h2 : 0 < 2 - Real.sqrt 3 := by linarith [sqrt3_lt]
  have h3 : (2 - Real.sqrt 3) * b ≤ 3 / 2 * b - rho3 * b := by
    unfold rho3; nlinarith [sqrt3_gt]
  have h5 : rho3 * b / (3 / 2 * b) ≤ rho3 := by
    rw [div_le_iff₀ (by positivity)]
    nlinarith [rho3_pos]
  have h4 : (rho3 * b / (3 / 2 * b)) ^ (p + 1) ≤ rho3 ^ (p + 1) := pow_le_pow_left₀ (by positivity) h5 _
  unfold potB3
  exact div_le_div₀ (by positivity) h4 (by positivity) h3

/-- A list of multipole expansions converted to one local expansion. -/
theorem m2l_list_bound3 {p : ℕ} (b : Box 3) (hb : 0 < b.len) (L : List (Box 3 × List (Source 3)))
    (hL : ∀ x ∈ L, x.1.len = b.len ∧ (∃ j, 2 * b.len ≤ |b.center j - x.1.center j|) ∧ ∀ s ∈ x.2, x.1.contains s.pos)
    {y : Vec 3} (hy : b.contains y) :
    |-(leSum3 (fun n m => (L.map fun x => m2lC p (meCoeff3 x.1.center x.2) (x.1.center - b.center) n m).sum)
        p (y - b.center)).re - directPotential true (L.flatMap (·.2)) y|
      ≤ potB3 p b.len * totalStrength (L.flatMap (·.2)) := by
  rw [leSum3_list]
  induction L with
  | nil => simp [directPotential, totalStrength_nil]
  | cons x L ih =>
    obtain ⟨h1, h2, h3⟩ := hL x (by simp)
    have hfar : 2 * b.len ≤ dist2 x.1.center b.center := by
      rw [dist2_comm]; exact far_dist3 h2
    have hR : ∀ s ∈ x.2, dist2 s.pos x.1.center ≤ rho3 * b.len := fun s hs => by
      rw [← h1]; exact box_dist3 (by rw [h1]; exact hb) (h3 s hs)
    have hlt : rho3 * b.len + rho3 * b.len < 2 * b.len := by nlinarith [rho3_lt]
    have hbd := m2l_bound3 x.1.center b.center y p x.2 hR (box_dist3 hb hy) hfar hlt
    have hratio : (rho3 * b.len + rho3 * b.len) / (2 * b.len) = rho3 := by field_simp; ring
    have hden : 2 * b.len - (rho3 * b.len + rho3 * b.len) = (2 - Real.sqrt 3) * b.len := by unfold rho3; ring
    rw [hratio, hden] at hbd
    have hrest := ih fun z hz => hL z (by simp [hz])
    rw [List.map_cons, List.sum_cons, List.flatMap_cons, directPotential_append, totalStrength_append, mul_add,
      Complex.add_re]
    have : ∀ a b c d : ℝ, -(a + b) - (c + d) = (-a - c) + (-b - d) := fun a b c d => by ring
    rw [this]
    refine (abs_add_le _ _).trans (add_le_add ?_ hrest)
    rw [mul_comm]
    exact hbd

/-! ## Operations with tables that cover the order -/

theorem new_cov3 {p : ℕ} (hp : p ≤ 42) (t : Stat3) (c : Vec 3) (ht : t.Good) :
    ∃ t' e, Exp3.new t c p = .ok (t', e) ∧ (t'.Good ∧ p ≤ t'.alm.maxOrder) ∧ (t.Good ∧ p ≤ t.alm.maxOrder → t' = t) ∧
      e.Is c p (fun _ _ => 0) := by
  obtain ⟨t', e, h1, h2, h3, h4, h5⟩ := Exp3.new_ok t ht c p hp
  exact ⟨t', e, h1, ⟨h2, h3⟩, fun h => h4 h.2, h5⟩

theorem meSrc_cov3 {p : ℕ} (hp : p ≤ 42) (t : Stat3) (c : Vec 3) (S : List (Source 3))
    (ht : t.Good ∧ p ≤ t.alm.maxOrder) :
    ∃ e, Exp3.meOfSources t c p S = .ok (t, e) ∧ e.Is c p (meCoeff3 c S) := by
  obtain ⟨t', e, h1, -, -, h4, h5⟩ := Exp3.meOfSources_ok t ht.1 c p hp S
  obtain rfl := h4 ht.2
  exact ⟨e, h1, h5⟩

theorem meMes_cov3 {p : ℕ} (hp : p ≤ 42) (t : Stat3) (hp0 : 0 < p ∨ 0 < t.alm.maxOrder) (c : Vec 3) (L : List (Exp3 × Vec 3 × List (Source 3)))
    (ht : t.Good ∧ p ≤ t.alm.maxOrder) (hne : L ≠ []) (hL : ∀ x ∈ L, x.1.Is x.2.1 p (meCoeff3 x.2.1 x.2.2)) :
    ∃ e, Exp3.meOfMes t c (L.map (·.1)) = .ok (t, e) ∧ e.Is c p (meCoeff3 c (L.flatMap (·.2.2))) := by
  obtain ⟨t', e, h1, -, -, h4, h5⟩ := Exp3.meOfMes_ok t ht.1 c p hp hp0
    (L.map fun x => (x.1, x.2.1, meCoeff3 x.2.1 x.2.2)) (by simpa using hne) (by
      intro x hx
      obtain ⟨y, hy, rfl⟩ := List.mem_map.mp hx
      exact hL y hy)
  obtain rfl := h4 ht.2
  refine ⟨e, ?_, h5.congr fun n _ m hm => ?_⟩
  · rw [← h1]; simp [Function.comp_def]
  · rw [List.map_map, meCoeff3_flatMap]
    congr 1
    exact List.map_congr_left fun g _ => m2mC_sources _ _ _ rfl _ _ hm

theorem leMes_cov3 {p : ℕ} (hp : p ≤ 42) (t : Stat3) (hp0 : 0 < p ∨ 0 < t.alm.maxOrder) (b : Box 3) (hb : 0 < b.len)
    (L : List (Exp3 × Box 3 × List (Source 3))) (ht : t.Good ∧ p ≤ t.alm.maxOrder) (hne : L ≠ [])
    (hL : ∀ x ∈ L, x.1.Is x.2.1.center p (meCoeff3 x.2.1.center x.2.2) ∧
      (∃ j, 2 * b.len ≤ |b.center j - x.2.1.center j|)) :
    ∃ e, Exp3.leOfMes t b.center (L.map (·.1)) = .ok (t, e) ∧ e.Is b.center p (fun n m =>
      ((L.map (·.2)).map fun x => m2lC p (meCoeff3 x.1.center x.2) (x.1.center - b.center) n m).sum) := by
  obtain ⟨t', e, h1, -, -, h4, h5⟩ := Exp3.leOfMes_ok t ht.1 b.center p hp hp0
    (L.map fun x => (x.1, x.2.1.center, meCoeff3 x.2.1.center x.2.2)) (by simpa using hne) (by
      intro x hx
      obtain ⟨y, hy, rfl⟩ := List.mem_map.mp hx
      refine ⟨(hL y hy).1, fun h => ?_⟩
      have := far_dist3 (hL y hy).2
      simp only at h
      rw [h, (dist2_eq_zero_iff _ _).mpr rfl] at this
      linarith)
  obtain rfl := h4 ht.2
  refine ⟨e, ?_, ?_⟩
  · rw [← h1]; simp [Function.comp_def]
  · convert h5 using 4
    simp [Function.comp_def]

theorem leSrc_cov3 {p : ℕ} (hp : p ≤ 42) (t : Stat3) (b : Box 3) (S : List (Source 3))
    (ht : t.Good ∧ p ≤ t.alm.maxOrder) (hb : 0 < b.len) (hfar : ∃ j, ∀ s ∈ S, 3 / 2 * b.len ≤ |s.pos j - b.center j|) :
    ∃ e, Exp3.leOfSources t b.center p S = .ok (t, e) ∧ e.Is b.center p (leCoeff3 b.center S) := by
  obtain ⟨t', e, h1, -, -, h4, h5⟩ := Exp3.leOfSources_ok t ht.1 b.center p hp S (by
    intro s hs h
    obtain ⟨j, hj⟩ := hfar
    have := far_dist3 ⟨j, hj s hs⟩
    rw [h, (dist2_eq_zero_iff _ _).mpr rfl] at this
    linarith)
  obtain rfl := h4 ht.2
  exact ⟨e, h1, h5⟩

/-- The laws for the potential, orders `1 ≤ p ≤ 42`; also order 0, if the tables have been filled before. -/
noncomputable def laws3Pot (p : ℕ) (hp : p ≤ 42) : FmmLaws kit3 pot3 p where
  good := fun t => Stat3.Good t ∧ (0 < p ∨ 0 < AlmTable.maxOrder (Stat3.alm t))
  cov := fun t => (Stat3.Good t ∧ p ≤ AlmTable.maxOrder (Stat3.alm t)) ∧ 0 < AlmTable.maxOrder (Stat3.alm t)
  isME := fun e c S => Exp3.Is e c p (meCoeff3 c S)
  isLE := fun e c φ => ∃ a, Exp3.Is e c p a ∧ ∀ y, φ y = -(leSum3 a p (y - c)).re
  nrm := fun v => |v|
  direct := directPotential true
  adm := fun _ _ => True
  B := potB3 p
  nrm_zero := abs_zero
  nrm_add := abs_add_le
  direct_nil := fun _ => rfl
  direct_append := directPotential_append true
  direct_perm := fun _ _ x h => directPotential_perm true x h
  B_nonneg := fun _ h => potB3_nonneg p h
  B_anti := by
    intro a b ha hab
    have h2 : 0 < 2 - Real.sqrt 3 := by linarith [sqrt3_lt]
    have := rho3_pos
    unfold potB3
    gcongr
  cov_good := fun _ h => ⟨h.1.1, Or.inr h.2⟩
  leNew := fun t c ht => by
    obtain ⟨t', e, h1, h2, h3, h4⟩ := new_cov3 hp t c ht.1
    refine ⟨t', e, h1, ⟨h2, ?_⟩, fun h => h3 h.1, fun _ _ => 0, h4, fun y => by simp [leSum3]⟩
    exact Exp3.pos_of h2.2 (fun h => h3 ⟨ht.1, h⟩) ht.2
  meSrc := fun t c S ht => meSrc_cov3 hp t c S ht.1
  me_perm := fun e c S T h he => Exp3.Is.congr he fun n _ m _ => meCoeff3_perm _ h n m
  meMes := fun t c L ht => meMes_cov3 hp t (Or.inr ht.2) c L ht.1
  size_pos := by
    rintro e c φ ⟨a, ha, -⟩
    show e.coeffs.size ≠ 0
    rw [ha.size]; positivity
  leLe := by
    rintro t e c c' φ ht ⟨a, ha, hφ⟩
    obtain ⟨t', f, h1, -, -, h4, h5⟩ := Exp3.leOfLe_ok t ht.1.1 ha hp (Or.inr ht.2) c'
    obtain rfl := h4 ht.1.2
    refine ⟨f, h1, _, h5, fun y => ?_⟩
    rw [hφ, l2lC_exact, show y - c' - (c - c') = y - c by abel]
  add := by
    rintro e f c φ ψ ⟨a, ha, hφ⟩ ⟨b, hb, hψ⟩
    obtain ⟨g, hg1, hg2⟩ := Exp3.addEq_ok ha hb
    exact ⟨g, hg1, _, hg2, fun y => by rw [leSum3_add, Complex.add_re, Pi.add_apply, hφ, hψ, neg_add]⟩
  leMes := by
    intro t b L ht hb hne hL
    obtain ⟨e, h1, h2⟩ := leMes_cov3 hp t (Or.inr ht.2) b hb L ht.1 hne fun x hx => ⟨(hL x hx).1, (hL x hx).2.2.1⟩
    refine ⟨e, _, h1, ⟨_, h2, fun y => rfl⟩, fun y hy => ?_⟩
    have := m2l_list_bound3 (p := p) b hb (L.map (·.2)) (by
      intro x hx
      obtain ⟨z, hz, rfl⟩ := List.mem_map.mp hx
      exact (hL z hz).2) hy
    simp only [List.flatMap_map] at this
    exact this
  leSrc := by
    intro t b S ht hb hfar
    obtain ⟨e, h1, h2⟩ := leSrc_cov3 hp t b S ht.1 hb hfar
    refine ⟨e, _, h1, ⟨_, h2, fun y => rfl⟩, fun y hy => ?_⟩
    obtain ⟨j, hj⟩ := hfar
    have hd : ∀ s ∈ S, 3 / 2 * b.len ≤ dist2 s.pos b.center := fun s hs => far_dist3 ⟨j, hj s hs⟩
    refine (le_bound3 b.center y p S (box_dist3 hb hy) (by nlinarith [rho3_lt]) hd).trans ?_
    rw [mul_comm]
    exact mul_le_mul_of_nonneg_right (potB3_ge hb) (totalStrength_nonneg S)
  me_obs := by
    rintro e b S y hb he hS hfar -
    have hd : 3 / 2 * b.len ≤ dist2 y b.center := far_dist3 hfar
    have hyc : y ≠ b.center := by
      intro h; rw [h, (dist2_eq_zero_iff _ _).mpr rfl] at hd; linarith
    refine ⟨_, Exp3.mePot_ok he y hyc, ?_⟩
    refine (me_bound3 b.center y p S (fun s hs => box_dist3 hb (hS s hs)) (by nlinarith [rho3_lt]) hd).trans ?_
    rw [mul_comm]
    exact mul_le_mul_of_nonneg_right (potB3_ge hb) (totalStrength_nonneg S)
  le_obs := by
    rintro e c φ y ⟨a, ha, hφ⟩ -
    rw [hφ]; exact Exp3.lePot_ok ha y
  sum_safe := fun S y => potentialSum_safe true S y
  sum_unsafe := fun S y h => (C34_unguarded true S y).1 h

end FMM
