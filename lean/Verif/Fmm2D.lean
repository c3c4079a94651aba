import Verif.FmmResults
import Verif.PropsExp2
import Verif.BoxDist

/-!
# The expansion laws in two dimensions
-/

namespace FMM
open Finset

/-- `MultipoleExpansion<2>`, `LocalExpansion<2>`. -/
noncomputable def kit2 : Kit 2 where
  T := BinomialTable
  E := Exp2
  empty := Exp2.empty
  size := fun e => e.coeffs.size
  leNew := Exp2.new
  meSrc := Exp2.meOfSources
  meMes := Exp2.meOfMes
  leSrc := Exp2.leOfSources
  leMes := Exp2.leOfMes
  leLe := Exp2.leOfLe
  addEq := Exp2.addEq

/-- The operations used by `evaluatePotential`. -/
noncomputable def pot2 : Obs kit2 ℝ where
  le := Exp2.lePot
  me := Exp2.mePot
  sum := potentialSum

/-- The operations used by `evaluateForcefield`; `feps`: the member `force_smoothing_eps`. -/
noncomputable def force2 (feps : ℝ) : Obs kit2 (Vec 2) where
  le := Exp2.leForce
  me := Exp2.meForce
  sum := fun grav safe S x => forcefieldSum grav safe S x feps

/-! ## Geometry -/

theorem sqrt2_lt : Real.sqrt 2 < 3 / 2 := by
  rw [Real.sqrt_lt' (by norm_num)]; norm_num

theorem sqrt2_gt : 7 / 5 < Real.sqrt 2 := by
  rw [Real.lt_sqrt (by norm_num)]; norm_num

/-- The ratio `1/√2` that governs the error. -/
noncomputable def rho2 : ℝ := Real.sqrt 2 / 2

theorem rho2_pos : 0 < rho2 := by unfold rho2; positivity
theorem rho2_lt : rho2 < 3 / 4 := by unfold rho2; linarith [sqrt2_lt]

theorem box_norm {b : Box 2} {x : Vec 2} (hb : 0 < b.len) (h : b.contains x) :
    ‖toC x - toC b.center‖ ≤ rho2 * b.len := by
  rw [norm_toC_sub]
  have := dist2_box hb.le h
  simpa [rho2] using this

theorem far_norm {x y : Vec 2} {D : ℝ} (h : ∃ j, D ≤ |x j - y j|) : D ≤ ‖toC x - toC y‖ := by
  rw [norm_toC_sub]
  obtain ⟨j, hj⟩ := h
  exact hj.trans (abs_le_dist2 x y j)

/-! ## List sums -/

theorem m2l_list_leSum (M p : ℕ) (L : List (ℂ × (ℕ → ℂ))) (c' z : ℂ) :
    leSum (fun k => (L.map fun x => Exp2.m2lCoeff M p x.2 (x.1 - c') k).sum) p z
      = (L.map fun x => leSum (Exp2.m2lCoeff M p x.2 (x.1 - c')) p z).sum := by
  induction L with
  | nil => simp [leSum]
  | cons x L ih =>
    simp only [List.map_cons, List.sum_cons]
    rw [leSum_add, ih]

theorem m2l_list_leDeriv (M p : ℕ) (L : List (ℂ × (ℕ → ℂ))) (c' z : ℂ) :
    leDeriv (fun k => (L.map fun x => Exp2.m2lCoeff M p x.2 (x.1 - c') k).sum) p z
      = (L.map fun x => leDeriv (Exp2.m2lCoeff M p x.2 (x.1 - c')) p z).sum := by
  induction L with
  | nil => simp [leDeriv]
  | cons x L ih =>
    simp only [List.map_cons, List.sum_cons]
    rw [leDeriv_add, ih]

/-- Two polynomials (about different centres) with the same values have the same derivatives. -/
theorem leDeriv_of_leSum {p : ℕ} {a b : ℕ → ℂ} {c c' : ℂ}
    (h : ∀ z, ∑ k ∈ range (p + 1), b k * (z - c') ^ k = ∑ k ∈ range (p + 1), a k * (z - c) ^ k) (z : ℂ) :
    leDeriv b p (z - c') = leDeriv a p (z - c) := by
  have hd : ∀ (a : ℕ → ℂ) (c z : ℂ), HasDerivAt (fun z => ∑ k ∈ range (p + 1), a k * (z - c) ^ k)
      (leDeriv a p (z - c)) z := by
    intro a c z
    have hk : ∀ k ∈ range (p + 1), HasDerivAt (fun z => a k * (z - c) ^ k)
        (a k * (k * (z - c) ^ (k - 1))) z := by
      intro k _
      have := (((hasDerivAt_id z).sub_const c).pow k).const_mul (a k)
      simpa using this
    have hs := HasDerivAt.fun_sum hk
    refine hs.congr_deriv ?_
    rw [sum_range_succ']
    simp only [Nat.cast_zero, zero_mul, mul_zero, add_zero, Nat.add_sub_cancel]
    unfold leDeriv
    exact sum_congr rfl fun i _ => by ring
  have h7 := hd b c' z
  have h8 := hd a c z
  rw [funext h] at h7
  exact h7.unique h8

/-! ## Laws -/

/-- The error bound of the potential. -/
noncomputable def potB2 (p : ℕ) : ℝ := tailBound p rho2

theorem potB2_nonneg (p : ℕ) : 0 ≤ potB2 p := tailBound_nonneg p rho2_pos.le (by linarith [rho2_lt])

/-- The error bound of the force, `b`: edge length of the smallest box. -/
noncomputable def forceB2 (p : ℕ) (b : ℝ) : ℝ := rho2 ^ p / ((2 - Real.sqrt 2) * b)

theorem forceB2_nonneg (p : ℕ) {b : ℝ} (hb : 0 < b) : 0 ≤ forceB2 p b := by
  unfold forceB2
  have := sqrt2_lt
  have := rho2_pos
  have h : 0 < 2 - Real.sqrt 2 := by linarith
  positivity

/-- A list of multipole expansions converted to one local expansion: potential. -/
theorem m2l_list_bound {p M : ℕ} (hM : p ≤ M) (b : Box 2) (hb : 0 < b.len) (L : List (Box 2 × List (Source 2)))
    (hL : ∀ x ∈ L, x.1.len = b.len ∧ (∃ j, 2 * b.len ≤ |b.center j - x.1.center j|) ∧ ∀ s ∈ x.2, x.1.contains s.pos)
    {y : Vec 2} (hy : b.contains y) :
    |(leSum (fun k => (L.map fun x => Exp2.m2lCoeff M p (meCoeff (toC x.1.center) x.2) (toC x.1.center - toC b.center) k).sum)
        p (toC y - toC b.center)).re - directPotential true (L.flatMap (·.2)) y|
      ≤ potB2 p * totalStrength (L.flatMap (·.2)) := by
  have := m2l_list_leSum M p (L.map fun x => (toC x.1.center, meCoeff (toC x.1.center) x.2)) (toC b.center)
    (toC y - toC b.center)
  simp only [List.map_map, Function.comp_def] at this
  rw [this]
  clear this
  induction L with
  | nil => simp [directPotential, totalStrength_nil]
  | cons x L ih =>
    obtain ⟨h1, h2, h3⟩ := hL x (by simp)
    have hfar : 2 * b.len ≤ ‖toC x.1.center - toC b.center‖ := by
      rw [norm_sub_rev]; exact far_norm h2
    have hR : ∀ s ∈ x.2, ‖toC s.pos - toC x.1.center‖ ≤ rho2 * b.len := fun s hs => by
      rw [← h1]; exact box_norm (by rw [h1]; exact hb) (h3 s hs)
    have hlt : rho2 * b.len + rho2 * b.len < 2 * b.len := by nlinarith [rho2_lt]
    have hbd := m2l_bound M p hM (toC x.1.center) (toC b.center) (toC y) x.2 hR (box_norm hb hy) hfar hlt
    have hratio : (rho2 * b.len + rho2 * b.len) / (2 * b.len) = rho2 := by field_simp; ring
    rw [hratio, ← directPotential_two x.2 y] at hbd
    · have hrest := ih fun z hz => hL z (by simp [hz])
      rw [List.map_cons, List.sum_cons, List.flatMap_cons, directPotential_append, totalStrength_append, mul_add,
        Complex.add_re]
      have : ∀ a b c d : ℝ, a + b - (c + d) = (a - c) + (b - d) := fun a b c d => by ring
      rw [this]
      refine (abs_add_le _ _).trans (add_le_add ?_ hrest)
      rw [mul_comm]
      exact hbd
    · intro s hs he
      have h4 := hR s hs
      have h5 := box_norm hb hy
      rw [he] at h4
      have h6 : ‖toC x.1.center - toC b.center‖ ≤ ‖toC y - toC x.1.center‖ + ‖toC y - toC b.center‖ := by
        rw [norm_sub_rev (toC y) (toC x.1.center)]
        refine le_trans (le_of_eq ?_) (norm_add_le _ _)
        congr 1; ring
      linarith

/-- The same for the force. -/
theorem m2l_list_field_bound {p M : ℕ} (hM : p ≤ M) (b : Box 2) (hb : 0 < b.len) (L : List (Box 2 × List (Source 2)))
    (hL : ∀ x ∈ L, x.1.len = b.len ∧ (∃ j, 2 * b.len ≤ |b.center j - x.1.center j|) ∧ ∀ s ∈ x.2, x.1.contains s.pos)
    {y : Vec 2} (hy : b.contains y) :
    dist2 (Exp2.fieldOf (leDeriv (fun k => (L.map fun x =>
        Exp2.m2lCoeff M p (meCoeff (toC x.1.center) x.2) (toC x.1.center - toC b.center) k).sum) p (toC y - toC b.center)))
      (directField true (L.flatMap (·.2)) y 0) ≤ forceB2 p b.len * totalStrength (L.flatMap (·.2)) := by
  have hR : ∀ x ∈ L, ∀ s ∈ x.2, ‖toC s.pos - toC x.1.center‖ ≤ rho2 * b.len := fun x hx s hs => by
    rw [← (hL x hx).1]; exact box_norm (by rw [(hL x hx).1]; exact hb) ((hL x hx).2.2 s hs)
  have hfar : ∀ x ∈ L, 2 * b.len ≤ ‖toC x.1.center - toC b.center‖ := fun x hx => by
    rw [norm_sub_rev]; exact far_norm (hL x hx).2.1
  rw [directField_two, dist2_fieldOf]
  · have := m2l_list_leDeriv M p (L.map fun x => (toC x.1.center, meCoeff (toC x.1.center) x.2)) (toC b.center)
      (toC y - toC b.center)
    simp only [List.map_map, Function.comp_def] at this
    rw [this]
    clear this
    induction L with
    | nil => simp [cField, totalStrength_nil]
    | cons x L ih =>
      have hlt : rho2 * b.len + rho2 * b.len < 2 * b.len := by nlinarith [rho2_lt]
      have hbd := m2l_field_bound M p hM (toC x.1.center) (toC b.center) (toC y) x.2 (hR x (by simp)) (box_norm hb hy)
        (hfar x (by simp)) hlt
      have hratio : (rho2 * b.len + rho2 * b.len) / (2 * b.len) = rho2 := by field_simp; ring
      have hden : 2 * b.len - (rho2 * b.len + rho2 * b.len) = (2 - Real.sqrt 2) * b.len := by unfold rho2; ring
      rw [hratio, hden] at hbd
      have hrest := ih (fun z hz => hL z (by simp [hz])) (fun z hz => hR z (by simp [hz])) (fun z hz => hfar z (by simp [hz]))
      have hcf : cField (x.2 ++ L.flatMap (·.2)) (toC y) = cField x.2 (toC y) + cField (L.flatMap (·.2)) (toC y) := by
        simp [cField]
      rw [List.map_cons, List.sum_cons, List.flatMap_cons, totalStrength_append, mul_add, hcf]
      have : ∀ a b c d : ℂ, a + b - (c + d) = (a - c) + (b - d) := fun a b c d => by ring
      rw [this]
      refine (norm_add_le _ _).trans (add_le_add ?_ hrest)
      rw [mul_comm]
      exact hbd
  · intro s hs he
    obtain ⟨x, hx, hsx⟩ := List.mem_flatMap.mp hs
    have h4 := hR x hx s hsx
    have h5 := box_norm hb hy
    rw [he] at h4
    have h6 : ‖toC x.1.center - toC b.center‖ ≤ ‖toC y - toC x.1.center‖ + ‖toC y - toC b.center‖ := by
      rw [norm_sub_rev (toC y) (toC x.1.center)]
      refine le_trans (le_of_eq ?_) (norm_add_le _ _)
      congr 1; ring
    have := hfar x hx
    nlinarith [rho2_lt]

theorem dist2_zero (v : Vec 2) : dist2 v 0 = Real.sqrt (v 0 ^ 2 + v 1 ^ 2) := by
  unfold dist2; simp [Fin.sum_univ_two]

theorem fieldOf_surj (v : Vec 2) : v = Exp2.fieldOf ⟨-v 0, v 1⟩ := by
  unfold Exp2.fieldOf; funext j; fin_cases j <;> simp

theorem dist2_add_zero (v w : Vec 2) : dist2 (v + w) 0 ≤ dist2 v 0 + dist2 w 0 := by
  rw [fieldOf_surj v, fieldOf_surj w, ← fieldOf_add, ← fieldOf_zero, dist2_fieldOf, dist2_fieldOf, dist2_fieldOf]
  simp only [sub_zero]
  exact norm_add_le _ _

theorem dist2_sub_zero (v w : Vec 2) : dist2 (v - w) 0 = dist2 v w := by
  unfold dist2; simp

theorem new_cov {p : ℕ} (hp : p ≤ 1029) (t : BinomialTable) (c : Vec 2) (ht : t.Good) :
    ∃ t' e, Exp2.new t c p = .ok (t', e) ∧ (t'.Good ∧ p ≤ t'.maxOrder) ∧ (t.Good ∧ p ≤ t.maxOrder → t' = t) ∧
      e.Is (toC c) p (fun _ => 0) := by
  obtain ⟨t', e, h1, h2, h3, h4, rfl⟩ := Exp2.new_ok t ht c p hp
  exact ⟨t', _, h1, ⟨h2, by omega⟩, fun h => h4 h.2, rfl, rfl, rfl, fun _ _ => rfl⟩

theorem meSrc_cov {p : ℕ} (hp : p ≤ 1029) (t : BinomialTable) (c : Vec 2) (S : List (Source 2))
    (ht : t.Good ∧ p ≤ t.maxOrder) :
    ∃ e, Exp2.meOfSources t c p S = .ok (t, e) ∧ e.Is (toC c) p (meCoeff (toC c) S) := by
  obtain ⟨t', e, h1, -, -, h4, h5⟩ := Exp2.meOfSources_ok t ht.1 c p hp S
  obtain rfl := h4 ht.2
  exact ⟨e, h1, h5⟩

theorem meMes_cov {p : ℕ} (hp : p ≤ 1029) (t : BinomialTable) (c : Vec 2) (L : List (Exp2 × Vec 2 × List (Source 2)))
    (ht : t.Good ∧ p ≤ t.maxOrder) (hne : L ≠ []) (hL : ∀ x ∈ L, x.1.Is (toC x.2.1) p (meCoeff (toC x.2.1) x.2.2)) :
    ∃ e, Exp2.meOfMes t c (L.map (·.1)) = .ok (t, e) ∧ e.Is (toC c) p (meCoeff (toC c) (L.flatMap (·.2.2))) := by
  obtain ⟨t', e, h1, -, -, h4, h5⟩ := Exp2.meOfMes_ok t ht.1 c p hp (L.map fun x => (x.1, toC x.2.1, x.2.2))
    (by simpa using hne) (by
      intro x hx
      obtain ⟨y, hy, rfl⟩ := List.mem_map.mp hx
      exact hL y hy)
  obtain rfl := h4 ht.2
  refine ⟨e, ?_, ?_⟩
  · rw [← h1]; simp [Function.comp_def]
  · convert h5 using 2
    simp [List.flatMap_map]

theorem leMes_cov {p : ℕ} (hp : p ≤ 1029) (hp0 : 0 < p) (t : BinomialTable) (b : Box 2) (hb : 0 < b.len)
    (L : List (Exp2 × Box 2 × List (Source 2)))
    (ht : t.Good ∧ p ≤ t.maxOrder) (hne : L ≠ [])
    (hL : ∀ x ∈ L, x.1.Is (toC x.2.1.center) p (meCoeff (toC x.2.1.center) x.2.2) ∧
      (∃ j, 2 * b.len ≤ |b.center j - x.2.1.center j|)) :
    ∃ e, Exp2.leOfMes t b.center (L.map (·.1)) = .ok (t, e) ∧ e.Is (toC b.center) p (fun k =>
      ((L.map (·.2)).map fun x => Exp2.m2lCoeff t.maxOrder p (meCoeff (toC x.1.center) x.2)
        (toC x.1.center - toC b.center) k).sum) := by
  obtain ⟨t', e, h1, -, -, h4, h5⟩ := Exp2.leOfMes_ok t ht.1 b.center p hp hp0
    (L.map fun x => (x.1, toC x.2.1.center, meCoeff (toC x.2.1.center) x.2.2)) (by simpa using hne) (by
      intro x hx
      obtain ⟨y, hy, rfl⟩ := List.mem_map.mp hx
      refine ⟨(hL y hy).1, fun h => ?_⟩
      have := far_norm (hL y hy).2
      simp only at h
      rw [h, sub_self, norm_zero] at this
      linarith)
  obtain rfl := h4 ht.2
  refine ⟨e, ?_, ?_⟩
  · rw [← h1]; simp [Function.comp_def]
  · convert h5 using 3
    simp [Function.comp_def]

theorem leSrc_cov {p : ℕ} (hp : p ≤ 1029) (t : BinomialTable) (b : Box 2) (S : List (Source 2))
    (ht : t.Good ∧ p ≤ t.maxOrder) (hb : 0 < b.len) (hfar : ∃ j, ∀ s ∈ S, 3 / 2 * b.len ≤ |s.pos j - b.center j|) :
    ∃ e, Exp2.leOfSources t b.center p S = .ok (t, e) ∧ e.Is (toC b.center) p (leCoeff (toC b.center) S) := by
  obtain ⟨t', e, h1, -, -, h4, h5⟩ := Exp2.leOfSources_ok t ht.1 b.center p hp S (by
    intro s hs h
    obtain ⟨j, hj⟩ := hfar
    have := far_norm ⟨j, hj s hs⟩
    rw [h, sub_self, norm_zero] at this
    linarith)
  obtain rfl := h4 ht.2
  exact ⟨e, h1, h5⟩

theorem ratio3 {b : ℝ} (hb : 0 < b) : rho2 * b / (3 / 2 * b) ≤ rho2 := by
  rw [div_le_iff₀ (by positivity)]
  nlinarith [rho2_pos]

theorem far_ne {b : Box 2} {s : Source 2} {y : Vec 2} (hb : 0 < b.len) (h1 : b.contains y)
    (h2 : 3 / 2 * b.len ≤ ‖toC s.pos - toC b.center‖) : s.pos ≠ y := by
  intro h
  rw [h] at h2
  have := box_norm hb h1
  nlinarith [rho2_lt]

/-- The laws for the potential, orders `1 ≤ p ≤ 1029`. -/
noncomputable def laws2Pot (p : ℕ) (hp0 : 0 < p) (hp : p ≤ 1029) : FmmLaws kit2 pot2 p where
  good := fun t => BinomialTable.Good t
  cov := fun t => BinomialTable.Good t ∧ p ≤ BinomialTable.maxOrder t
  isME := fun e c S => Exp2.Is e (toC c) p (meCoeff (toC c) S)
  isLE := fun e c φ => ∃ a, Exp2.Is e (toC c) p a ∧ ∀ y, φ y = (leSum a p (toC y - toC c)).re
  nrm := fun v => |v|
  direct := directPotential true
  adm := fun _ _ => True
  B := fun _ => potB2 p
  nrm_zero := abs_zero
  nrm_add := abs_add_le
  direct_nil := fun _ => rfl
  direct_append := directPotential_append true
  direct_perm := fun _ _ x h => directPotential_perm true x h
  B_nonneg := fun _ _ => potB2_nonneg p
  B_anti := fun _ _ _ _ => le_rfl
  cov_good := fun _ h => h.1
  leNew := fun t c ht => by
    obtain ⟨t', e, h1, h2, h3, h4⟩ := new_cov hp t c ht
    exact ⟨t', e, h1, h2, h3, fun _ => 0, h4, fun y => by simp [leSum]⟩
  meSrc := meSrc_cov hp
  me_perm := fun e c S T h he => Exp2.Is.congr he fun k _ => meCoeff_perm _ h k
  meMes := meMes_cov hp
  size_pos := by
    rintro e c φ ⟨a, ha, -⟩
    show e.coeffs.size ≠ 0
    rw [ha.size]; omega
  leLe := by
    rintro t e c c' φ ht ⟨a, ha, hφ⟩
    obtain ⟨t', f, b, h1, -, -, h4, h5, h6⟩ := Exp2.leOfLe_ok t ht.1 ha hp hp0 c'
    obtain rfl := h4 ht.2
    exact ⟨f, h1, b, h5, fun y => by rw [hφ]; unfold leSum; rw [h6]⟩
  add := by
    rintro e f c φ ψ ⟨a, ha, hφ⟩ ⟨b, hb, hψ⟩
    obtain ⟨g, hg1, hg2⟩ := Exp2.addEq_ok ha hb
    exact ⟨g, hg1, _, hg2, fun y => by rw [leSum_add, Complex.add_re, Pi.add_apply, hφ, hψ]⟩
  leMes := by
    intro t b L ht hb hne hL
    obtain ⟨e, h1, h2⟩ := leMes_cov hp hp0 t b hb L ht hne fun x hx => ⟨(hL x hx).1, (hL x hx).2.2.1⟩
    refine ⟨e, _, h1, ⟨_, h2, fun y => rfl⟩, fun y hy => ?_⟩
    have := m2l_list_bound ht.2 b hb (L.map (·.2)) (by
      intro x hx
      obtain ⟨z, hz, rfl⟩ := List.mem_map.mp hx
      exact (hL z hz).2) hy
    simp only [List.flatMap_map] at this
    exact this
  leSrc := by
    intro t b S ht hb hfar
    obtain ⟨e, h1, h2⟩ := leSrc_cov hp t b S ht hb hfar
    refine ⟨e, _, h1, ⟨_, h2, fun y => rfl⟩, fun y hy => ?_⟩
    obtain ⟨j, hj⟩ := hfar
    have hd : ∀ s ∈ S, 3 / 2 * b.len ≤ ‖toC s.pos - toC b.center‖ := fun s hs => far_norm ⟨j, hj s hs⟩
    rw [directPotential_two S y fun s hs => far_ne hb hy (hd s hs)]
    refine (le_bound (toC b.center) (toC y) p S (box_norm hb hy) (by nlinarith [rho2_lt]) hd).trans ?_
    rw [mul_comm]
    refine mul_le_mul_of_nonneg_right (tailBound_mono p ?_ (ratio3 hb) (by linarith [rho2_lt])) ?_
    · have := rho2_pos; positivity
    · rw [totalStrength_eq_strength]; exact List.sum_nonneg (by simp)
  me_obs := by
    rintro e b S y hb he hS hfar -
    have hd : 3 / 2 * b.len ≤ ‖toC y - toC b.center‖ := far_norm hfar
    have hyc : toC y ≠ toC b.center := by
      intro h; rw [h, sub_self, norm_zero] at hd; linarith
    refine ⟨_, Exp2.mePot_ok he (meCoeff_zero_im _ _) y hyc, ?_⟩
    have hne : ∀ s ∈ S, s.pos ≠ y := by
      intro s hs h
      have := box_norm hb (hS s hs)
      rw [h] at this
      nlinarith [rho2_lt]
    rw [directPotential_two S y hne]
    refine (me_bound (toC b.center) (toC y) p S (fun s hs => box_norm hb (hS s hs)) (by nlinarith [rho2_lt]) hd).trans ?_
    rw [mul_comm]
    refine mul_le_mul_of_nonneg_right (tailBound_mono p ?_ (ratio3 hb) (by linarith [rho2_lt])) ?_
    · have := rho2_pos; positivity
    · rw [totalStrength_eq_strength]; exact List.sum_nonneg (by simp)
  le_obs := by
    rintro e c φ y ⟨a, ha, hφ⟩ -
    rw [hφ]; exact Exp2.lePot_ok ha y
  sum_safe := fun S y => potentialSum_safe true S y
  sum_unsafe := fun S y h => (C34_unguarded true S y).1 h

theorem forceB2_ge {p : ℕ} {b : ℝ} (hb : 0 < b) {k : ℕ} (hk : p ≤ k) :
    (rho2 * b / (3 / 2 * b)) ^ k / (3 / 2 * b - rho2 * b) ≤ forceB2 p b := by
  have h0 := rho2_pos
  have h1 := rho2_lt
  have h2 : 0 < 2 - Real.sqrt 2 := by linarith [sqrt2_lt]
  have h3 : (2 - Real.sqrt 2) * b ≤ 3 / 2 * b - rho2 * b := by
    unfold rho2; nlinarith [sqrt2_gt]
  have h4 : (rho2 * b / (3 / 2 * b)) ^ k ≤ rho2 ^ p :=
    (pow_le_pow_left₀ (by positivity) (ratio3 hb) k).trans (pow_le_pow_of_le_one h0.le (by linarith) hk)
  unfold forceB2
  exact div_le_div₀ (by positivity) h4 (by positivity) h3

/-- The laws for the force without smoothing, orders `1 ≤ p ≤ 1029`. -/
noncomputable def laws2Force (p : ℕ) (hp0 : 0 < p) (hp : p ≤ 1029) : FmmLaws kit2 (force2 0) p where
  good := fun t => BinomialTable.Good t
  cov := fun t => BinomialTable.Good t ∧ p ≤ BinomialTable.maxOrder t
  isME := fun e c S => Exp2.Is e (toC c) p (meCoeff (toC c) S)
  isLE := fun e c φ => ∃ a, Exp2.Is e (toC c) p a ∧ ∀ y, φ y = Exp2.fieldOf (leDeriv a p (toC y - toC c))
  nrm := fun v => dist2 v 0
  direct := fun S x => directField true S x 0
  adm := fun _ _ => True
  B := forceB2 p
  nrm_zero := (dist2_eq_zero_iff _ _).mpr rfl
  nrm_add := dist2_add_zero
  direct_nil := fun _ => rfl
  direct_append := fun S T x => directField_append true S T x 0
  direct_perm := fun _ _ x h => directField_perm true x 0 h
  B_nonneg := fun _ h => forceB2_nonneg p h
  B_anti := by
    intro a b ha hab
    have h2 : 0 < 2 - Real.sqrt 2 := by linarith [sqrt2_lt]
    have := rho2_pos
    unfold forceB2
    gcongr
  cov_good := fun _ h => h.1
  leNew := fun t c ht => by
    obtain ⟨t', e, h1, h2, h3, h4⟩ := new_cov hp t c ht
    exact ⟨t', e, h1, h2, h3, fun _ => 0, h4, fun y => by simp [leDeriv, fieldOf_zero]⟩
  meSrc := meSrc_cov hp
  me_perm := fun e c S T h he => Exp2.Is.congr he fun k _ => meCoeff_perm _ h k
  meMes := meMes_cov hp
  size_pos := by
    rintro e c φ ⟨a, ha, -⟩
    show e.coeffs.size ≠ 0
    rw [ha.size]; omega
  leLe := by
    rintro t e c c' φ ht ⟨a, ha, hφ⟩
    obtain ⟨t', f, b, h1, -, -, h4, h5, h6⟩ := Exp2.leOfLe_ok t ht.1 ha hp hp0 c'
    obtain rfl := h4 ht.2
    exact ⟨f, h1, b, h5, fun y => by rw [hφ, leDeriv_of_leSum h6]⟩
  add := by
    rintro e f c φ ψ ⟨a, ha, hφ⟩ ⟨b, hb, hψ⟩
    obtain ⟨g, hg1, hg2⟩ := Exp2.addEq_ok ha hb
    exact ⟨g, hg1, _, hg2, fun y => by rw [leDeriv_add, fieldOf_add, Pi.add_apply, hφ, hψ]⟩
  leMes := by
    intro t b L ht hb hne hL
    obtain ⟨e, h1, h2⟩ := leMes_cov hp hp0 t b hb L ht hne fun x hx => ⟨(hL x hx).1, (hL x hx).2.2.1⟩
    refine ⟨e, _, h1, ⟨_, h2, fun y => rfl⟩, fun y hy => ?_⟩
    have := m2l_list_field_bound ht.2 b hb (L.map (·.2)) (by
      intro x hx
      obtain ⟨z, hz, rfl⟩ := List.mem_map.mp hx
      exact (hL z hz).2) hy
    rw [dist2_sub_zero]
    simp only [List.flatMap_map] at this
    exact this
  leSrc := by
    intro t b S ht hb hfar
    obtain ⟨e, h1, h2⟩ := leSrc_cov hp t b S ht hb hfar
    refine ⟨e, _, h1, ⟨_, h2, fun y => rfl⟩, fun y hy => ?_⟩
    obtain ⟨j, hj⟩ := hfar
    have hd : ∀ s ∈ S, 3 / 2 * b.len ≤ ‖toC s.pos - toC b.center‖ := fun s hs => far_norm ⟨j, hj s hs⟩
    rw [dist2_sub_zero, directField_two S y fun s hs => far_ne hb hy (hd s hs), dist2_fieldOf]
    refine (le_field_bound (toC b.center) (toC y) p S (box_norm hb hy) (by nlinarith [rho2_lt]) hd).trans ?_
    rw [mul_comm]
    refine mul_le_mul_of_nonneg_right (forceB2_ge hb le_rfl) ?_
    rw [totalStrength_eq_strength]; exact List.sum_nonneg (by simp)
  me_obs := by
    rintro e b S y hb he hS hfar -
    have hd : 3 / 2 * b.len ≤ ‖toC y - toC b.center‖ := far_norm hfar
    have hyc : toC y ≠ toC b.center := by
      intro h; rw [h, sub_self, norm_zero] at hd; linarith
    refine ⟨_, Exp2.meForce_ok he (meCoeff_zero_im _ _) y hyc, ?_⟩
    have hne : ∀ s ∈ S, s.pos ≠ y := by
      intro s hs h
      have := box_norm hb (hS s hs)
      rw [h] at this
      nlinarith [rho2_lt]
    rw [dist2_sub_zero, directField_two S y hne, dist2_fieldOf]
    refine (me_field_bound (toC b.center) (toC y) p S (fun s hs => box_norm hb (hS s hs)) (by nlinarith [rho2_lt])
      hd).trans ?_
    rw [mul_comm]
    refine mul_le_mul_of_nonneg_right (forceB2_ge hb (by omega)) ?_
    rw [totalStrength_eq_strength]; exact List.sum_nonneg (by simp)
  le_obs := by
    rintro e c φ y ⟨a, ha, hφ⟩ -
    rw [hφ]; exact Exp2.leForce_ok ha y
  sum_safe := fun S y => forcefieldSum_safe true S y 0 le_rfl
  sum_unsafe := fun S y h => forcefieldSum_unsafe true S y 0 le_rfl h

end FMM
