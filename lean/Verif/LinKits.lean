import Verif.LinLaws
import Verif.FmmSmooth

/-!
# The expansions are linear in the charges
-/

namespace FMM
open Finset

/-- The laws on a subset of the tables. -/
def FmmLaws.restrict {d : ℕ} {V : Type} [AddCommGroup V] {K : Kit d} {O : Obs K V} {p : ℕ} (L : FmmLaws K O p) (G C : K.T → Prop)
    (hCG : ∀ t, L.cov t → C t → G t) (hnew : ∀ t c t' e, L.good t → G t → K.leNew t c p = .ok (t', e) → C t') : FmmLaws K O p where
  good := fun t => L.good t ∧ G t
  cov := fun t => L.cov t ∧ C t
  isME := L.isME
  isLE := L.isLE
  nrm := L.nrm
  direct := L.direct
  adm := L.adm
  B := L.B
  nrm_zero := L.nrm_zero
  nrm_add := L.nrm_add
  direct_nil := L.direct_nil
  direct_append := L.direct_append
  direct_perm := L.direct_perm
  B_nonneg := L.B_nonneg
  B_anti := L.B_anti
  cov_good := fun t h => ⟨L.cov_good t h.1, hCG t h.1 h.2⟩
  leNew := fun t c h => by
    obtain ⟨t', e, h1, h2, h3, h4⟩ := L.leNew t c h.1
    exact ⟨t', e, h1, ⟨h2, hnew t c t' e h.1 h.2 h1⟩, fun h' => h3 h'.1, h4⟩
  meSrc := fun t c S h => L.meSrc t c S h.1
  me_perm := L.me_perm
  meMes := fun t c M h => L.meMes t c M h.1
  size_pos := L.size_pos
  leLe := fun t e c c' φ h => L.leLe t e c c' φ h.1
  add := L.add
  leMes := fun t b M h => L.leMes t b M h.1
  leSrc := fun t b S h => L.leSrc t b S h.1
  me_obs := L.me_obs
  le_obs := L.le_obs
  sum_safe := L.sum_safe
  sum_unsafe := L.sum_unsafe

/-- A linear function of coefficients that are linear in the charges. -/
theorem lin_apply {d : ℕ} {A V : Type} [AddCommGroup A] [Module ℝ A] [AddCommGroup V] [Module ℝ V] (F : A →ₗ[ℝ] V) (u : Vec d → A)
    (S : List (Source d)) : F (S.map fun s => s.q • u s.pos).sum = (S.map fun s => s.q • F (u s.pos)).sum := by
  rw [map_list_sum, List.map_map]
  exact congrArg List.sum (List.map_congr_left fun s _ => by simp)

/-! ## Direct sums -/

theorem directTerm_smul {d : ℕ} (x : Vec d) (s : Source d) : directTerm true x s = s.q • directTerm true x ⟨s.pos, 1⟩ := by
  unfold directTerm
  by_cases h : s.pos = x
  · simp [h]
  · simp only [h, if_false, smul_eq_mul, kernelSpec]
    by_cases h2 : d = 2
    · simp only [h2, if_true]; ring
    · simp only [h2, if_false]; ring

theorem directFieldTerm_smul {d : ℕ} (x : Vec d) (eps : ℝ) (s : Source d) :
    directFieldTerm true x eps s = s.q • directFieldTerm true x eps ⟨s.pos, 1⟩ := by
  unfold directFieldTerm
  by_cases h : s.pos = x
  · simp [h]
  · simp only [h, if_false]
    funext j
    simp only [fieldSpec, Pi.smul_apply, smul_eq_mul]
    ring

/-! ## Two dimensions -/

/-- Multipole coefficients of a unit charge. -/
noncomputable def uME2 (c : ℂ) (y : Vec 2) : ℕ → ℂ := meCoeff c [⟨y, 1⟩]

/-- Local coefficients of a unit charge. -/
noncomputable def uLE2 (c : ℂ) (y : Vec 2) : ℕ → ℂ := leCoeff c [⟨y, 1⟩]

theorem meCoeff_lin (c : ℂ) (S : List (Source 2)) : meCoeff c S = (S.map fun s => s.q • uME2 c s.pos).sum := by
  induction S with
  | nil => funext k; simp [meCoeff]
  | cons s S ih =>
    rw [meCoeff_cons', List.map_cons, List.sum_cons, ← ih]
    funext k
    rw [Pi.add_apply, Pi.smul_apply, uME2, meCoeff_single, meCoeff_single]
    by_cases h : k = 0
    · simp [h]
    · simp [h]; ring

theorem leCoeff_lin (c : ℂ) (S : List (Source 2)) : leCoeff c S = (S.map fun s => s.q • uLE2 c s.pos).sum := by
  induction S with
  | nil => funext k; simp [leCoeff]
  | cons s S ih =>
    rw [leCoeff_cons', List.map_cons, List.sum_cons, ← ih]
    funext k
    rw [Pi.add_apply, Pi.smul_apply, uLE2]
    unfold leCoeff
    by_cases h : k = 0
    · simp [h]
    · simp [h]; ring

noncomputable def leSumL (p : ℕ) (z : ℂ) : (ℕ → ℂ) →ₗ[ℝ] ℝ where
  toFun a := (leSum a p z).re
  map_add' a b := by rw [← Complex.add_re, ← leSum_add]; rfl
  map_smul' c a := by
    have : leSum (c • a) p z = c * leSum a p z := by
      unfold leSum; rw [mul_sum]; exact sum_congr rfl fun k _ => by simp; ring
    rw [this]; simp

noncomputable def leDerivL (p : ℕ) (z : ℂ) : (ℕ → ℂ) →ₗ[ℝ] Vec 2 where
  toFun a := Exp2.fieldOf (leDeriv a p z)
  map_add' a b := by rw [← fieldOf_add, ← leDeriv_add]; rfl
  map_smul' c a := by
    have : leDeriv (c • a) p z = c * leDeriv a p z := by
      unfold leDeriv; rw [mul_sum]; exact sum_congr rfl fun k _ => by simp; ring
    rw [this]; unfold Exp2.fieldOf; funext j; fin_cases j <;> simp

noncomputable def meSumL (p : ℕ) (z : ℂ) : (ℕ → ℂ) →ₗ[ℝ] ℝ where
  toFun a := (meSum a p z).re
  map_add' a b := by rw [← Complex.add_re, ← meSum_add]; rfl
  map_smul' c a := by
    have : meSum (c • a) p z = c * meSum a p z := by
      unfold meSum; rw [mul_add, mul_sum]
      refine congrArg₂ (· + ·) (by simp; ring) (sum_congr rfl fun k _ => by simp; ring)
    rw [this]; simp

noncomputable def meDerivL (p : ℕ) (z : ℂ) : (ℕ → ℂ) →ₗ[ℝ] Vec 2 where
  toFun a := Exp2.fieldOf (meDeriv a p z)
  map_add' a b := by rw [← fieldOf_add, ← meDeriv_add]; rfl
  map_smul' c a := by
    have : meDeriv (c • a) p z = c * meDeriv a p z := by
      unfold meDeriv; rw [mul_sub, mul_sum]
      refine congrArg₂ (· - ·) (by simp; ring) (sum_congr rfl fun k _ => by simp; ring)
    rw [this]; unfold Exp2.fieldOf; funext j; fin_cases j <;> simp

noncomputable def m2lL (M p : ℕ) (z : ℂ) : (ℕ → ℂ) →ₗ[ℝ] (ℕ → ℂ) where
  toFun a := Exp2.m2lCoeff M p a z
  map_add' a b := by funext l; exact m2lCoeff_add M p a b z l
  map_smul' c a := by
    funext l
    rw [Pi.smul_apply]
    unfold Exp2.m2lCoeff
    by_cases h : l = 0
    · rw [if_pos h, if_pos h, smul_add, smul_sum]
      refine congrArg₂ (· + ·) (by simp; ring) (sum_congr rfl fun k _ => by simp; ring)
    · rw [if_neg h, if_neg h, RingHom.id_apply, ← smul_mul_assoc, smul_add, smul_sum]
      refine congrArg (· * _) (congrArg₂ (· + ·) (by simp; ring) (sum_congr rfl fun k _ => by simp; ring))

/-- The local expansion converted from a list of multipole expansions. -/
theorem m2lL_list {V : Type} [AddCommGroup V] [Module ℝ V] (F : (ℕ → ℂ) →ₗ[ℝ] V) (M p : ℕ) (c' : ℂ) (X : List (Box 2 × List (Source 2))) :
    F (fun k => (X.map fun x => Exp2.m2lCoeff M p (meCoeff (toC x.1.center) x.2) (toC x.1.center - c') k).sum)
      = (X.map fun x => (x.2.map fun s => s.q • F (m2lL M p (toC x.1.center - c') (uME2 (toC x.1.center) s.pos))).sum).sum := by
  have : (fun k => (X.map fun x => Exp2.m2lCoeff M p (meCoeff (toC x.1.center) x.2) (toC x.1.center - c') k).sum)
      = (X.map fun x => m2lL M p (toC x.1.center - c') (meCoeff (toC x.1.center) x.2)).sum := by
    induction X with
    | nil => rfl
    | cons x X ih => rw [List.map_cons, List.sum_cons, ← ih]; rfl
  rw [this, map_list_sum, List.map_map]
  refine congrArg List.sum (List.map_congr_left fun x _ => ?_)
  rw [Function.comp_apply, meCoeff_lin, ← LinearMap.comp_apply, lin_apply]
  rfl

theorem new_order {p : ℕ} (hp : p ≤ 1029) {t t' : BinomialTable} {c : Vec 2} {e : Exp2} (ht : t.Good) (h : Exp2.new t c p = .ok (t', e)) :
    t'.maxOrder = Max.max t.maxOrder p := by
  obtain ⟨t2, e2, k1, -, k2, -⟩ := Exp2.new_ok t ht c p hp
  have := h.symm.trans k1
  simp only [Except.ok.injEq, Prod.mk.injEq] at this
  rw [this.1, k2]

/-- Tables of order `M` after the first expansion of order `p`. -/
noncomputable def laws2PotAt (p : ℕ) (hp0 : 0 < p) (hp : p ≤ 1029) (M : ℕ) : FmmLaws kit2 pot2 p :=
  (laws2Pot p hp0 hp).restrict (fun t => Max.max (BinomialTable.maxOrder t) p = M) (fun t => BinomialTable.maxOrder t = M)
    (fun t h h' => by have := h.2; omega) (by
      intro t c t' e ht hG h
      exact (new_order hp ht h).trans hG)

noncomputable def laws2ForceAt (p : ℕ) (hp0 : 0 < p) (hp : p ≤ 1029) (M : ℕ) : FmmLaws kit2 (force2 0) p :=
  (laws2Force p hp0 hp).restrict (fun t => Max.max (BinomialTable.maxOrder t) p = M) (fun t => BinomialTable.maxOrder t = M)
    (fun t h h' => by have := h.2; omega) (by
      intro t c t' e ht hG h
      exact (new_order hp ht h).trans hG)

theorem ne_center {b : Box 2} {y : Vec 2} (hb : 0 < b.len) (h : ∃ j, 3 / 2 * b.len ≤ |y j - b.center j|) : toC y ≠ toC b.center := by
  have hd : 3 / 2 * b.len ≤ ‖toC y - toC b.center‖ := far_norm h
  intro h
  rw [h, sub_self, norm_zero] at hd
  linarith

noncomputable def lin2Pot (p : ℕ) (hp0 : 0 < p) (hp : p ≤ 1029) (M : ℕ) : LinLaws (laws2PotAt p hp0 hp M) where
  m2l c c' s y := s.q • leSumL p (toC y - toC c') (m2lL M p (toC c - toC c') (uME2 (toC c) s.pos))
  p2l c s y := s.q • leSumL p (toC y - toC c) (uLE2 (toC c) s.pos)
  m2p c s y := s.q • meSumL p (toC y - toC c) (uME2 (toC c) s.pos)
  p2p s y := directTerm true y s
  m2l_smul := fun _ _ _ _ => by rw [one_smul]
  p2l_smul := fun _ _ _ => by rw [one_smul]
  m2p_smul := fun _ _ _ => by rw [one_smul]
  p2p_smul := fun s y => directTerm_smul y s
  leMes := by
    intro t b X ht hb hne hX
    obtain ⟨e, h1, h2⟩ := leMes_cov hp hp0 t b hb X ht.1 hne hX
    refine ⟨e, h1, _, h2, fun y => ?_⟩
    rw [show BinomialTable.maxOrder t = M from ht.2]
    refine Eq.trans ?_ (m2lL_list (leSumL p (toC y - toC b.center)) M p (toC b.center) (X.map (·.2))).symm
    rw [List.map_map]
    rfl
  leSrc := by
    intro t b S ht hb hfar
    obtain ⟨e, h1, h2⟩ := leSrc_cov hp t b S ht.1 hb hfar
    refine ⟨e, h1, _, h2, fun y => ?_⟩
    rw [leCoeff_lin]
    exact (lin_apply (leSumL p (toC y - toC b.center)) (uLE2 (toC b.center)) S).symm
  me_obs := by
    intro e b S y hb he hfar _
    refine (Exp2.mePot_ok he (meCoeff_zero_im _ _) y (ne_center hb hfar)).trans (congrArg _ ?_)
    rw [← lin_apply, ← meCoeff_lin]
    rfl
  direct := fun _ _ => rfl

noncomputable def lin2Force (p : ℕ) (hp0 : 0 < p) (hp : p ≤ 1029) (M : ℕ) : LinLaws (laws2ForceAt p hp0 hp M) where
  m2l c c' s y := s.q • leDerivL p (toC y - toC c') (m2lL M p (toC c - toC c') (uME2 (toC c) s.pos))
  p2l c s y := s.q • leDerivL p (toC y - toC c) (uLE2 (toC c) s.pos)
  m2p c s y := s.q • meDerivL p (toC y - toC c) (uME2 (toC c) s.pos)
  p2p s y := directFieldTerm true y 0 s
  m2l_smul := fun _ _ _ _ => by rw [one_smul]
  p2l_smul := fun _ _ _ => by rw [one_smul]
  m2p_smul := fun _ _ _ => by rw [one_smul]
  p2p_smul := fun s y => directFieldTerm_smul y 0 s
  leMes := by
    intro t b X ht hb hne hX
    obtain ⟨e, h1, h2⟩ := leMes_cov hp hp0 t b hb X ht.1 hne hX
    refine ⟨e, h1, _, h2, fun y => ?_⟩
    rw [show BinomialTable.maxOrder t = M from ht.2]
    have := m2lL_list (leDerivL p (toC y - toC b.center)) M p (toC b.center) (X.map (·.2))
    rw [List.map_map (l := X) (f := (·.2))] at this
    exact this.symm
  leSrc := by
    intro t b S ht hb hfar
    obtain ⟨e, h1, h2⟩ := leSrc_cov hp t b S ht.1 hb hfar
    refine ⟨e, h1, _, h2, fun y => ?_⟩
    rw [leCoeff_lin]
    exact (lin_apply (leDerivL p (toC y - toC b.center)) (uLE2 (toC b.center)) S).symm
  me_obs := by
    intro e b S y hb he hfar _
    refine (Exp2.meForce_ok he (meCoeff_zero_im _ _) y (ne_center hb hfar)).trans (congrArg _ ?_)
    rw [← lin_apply, ← meCoeff_lin]
    rfl
  direct := fun _ _ => rfl

/-! ## Three dimensions -/

noncomputable def uME3 (c y : Vec 3) : ℕ → ℤ → ℂ := meCoeff3 c [⟨y, 1⟩]

noncomputable def uLE3 (c y : Vec 3) : ℕ → ℤ → ℂ := leCoeff3 c [⟨y, 1⟩]

theorem meCoeff3_lin (c : Vec 3) (S : List (Source 3)) : meCoeff3 c S = (S.map fun s => s.q • uME3 c s.pos).sum := by
  induction S with
  | nil => funext n m; simp [meCoeff3]
  | cons s S ih =>
    rw [List.map_cons, List.sum_cons, ← ih]
    funext n m
    rw [Pi.add_apply, Pi.add_apply, Pi.smul_apply, Pi.smul_apply, uME3]
    unfold meCoeff3
    simp

theorem leCoeff3_lin (c : Vec 3) (S : List (Source 3)) : leCoeff3 c S = (S.map fun s => s.q • uLE3 c s.pos).sum := by
  induction S with
  | nil => funext n m; simp [leCoeff3]
  | cons s S ih =>
    rw [List.map_cons, List.sum_cons, ← ih]
    funext n m
    rw [Pi.add_apply, Pi.add_apply, Pi.smul_apply, Pi.smul_apply, uLE3]
    unfold leCoeff3
    simp

/-- Linear functions of the coefficients of order at most `p`. -/
noncomputable def coefL (p : ℕ) (w : ℕ → ℤ → ℂ) : (ℕ → ℤ → ℂ) →ₗ[ℝ] ℂ where
  toFun a := ∑ n ∈ range (p + 1), ∑ m ∈ Icc (-(n : ℤ)) n, a n m * w n m
  map_add' a b := by
    rw [← sum_add_distrib]
    refine sum_congr rfl fun n _ => ?_
    rw [← sum_add_distrib]
    exact sum_congr rfl fun m _ => by rw [Pi.add_apply, Pi.add_apply, add_mul]
  map_smul' c a := by
    rw [RingHom.id_apply, smul_sum]
    refine sum_congr rfl fun n _ => ?_
    rw [smul_sum]
    exact sum_congr rfl fun m _ => by rw [Pi.smul_apply, Pi.smul_apply, smul_mul_assoc]

noncomputable def leSum3L (p : ℕ) (v : Vec 3) : (ℕ → ℤ → ℂ) →ₗ[ℝ] ℝ := -(Complex.reLm ∘ₗ coefL p (rY v))

noncomputable def meSum3L (p : ℕ) (v : Vec 3) : (ℕ → ℤ → ℂ) →ₗ[ℝ] ℝ :=
  -(Complex.reLm ∘ₗ coefL p fun n m => rY v n m / (len3 v : ℂ) ^ (2 * n + 1))

noncomputable def leGrad3L (p : ℕ) (v : Vec 3) : (ℕ → ℤ → ℂ) →ₗ[ℝ] Vec 3 :=
  LinearMap.pi fun i => Complex.reLm ∘ₗ coefL p (rD v (unitV i))

noncomputable def meGrad3L (p : ℕ) (v : Vec 3) : (ℕ → ℤ → ℂ) →ₗ[ℝ] Vec 3 :=
  LinearMap.pi fun i => Complex.reLm ∘ₗ coefL p (iD v (unitV i))

noncomputable def m2l3L (p : ℕ) (h : Vec 3) : (ℕ → ℤ → ℂ) →ₗ[ℝ] (ℕ → ℤ → ℂ) where
  toFun a := m2lC p a h
  map_add' a b := by
    funext j k
    rw [Pi.add_apply, Pi.add_apply]
    unfold m2lC
    rw [← add_mul, ← sum_add_distrib]
    refine congrArg (· * _) (sum_congr rfl fun n _ => ?_)
    rw [← mul_add, ← sum_add_distrib]
    refine congrArg _ (sum_congr rfl fun m _ => ?_)
    rw [Pi.add_apply, Pi.add_apply]
    ring
  map_smul' c a := by
    funext j k
    rw [RingHom.id_apply, Pi.smul_apply, Pi.smul_apply]
    unfold m2lC
    rw [← smul_mul_assoc, smul_sum]
    refine congrArg (· * _) (sum_congr rfl fun n _ => ?_)
    rw [← mul_smul_comm, smul_sum]
    refine congrArg _ (sum_congr rfl fun m _ => ?_)
    rw [Pi.smul_apply, Pi.smul_apply, ← mul_smul_comm, smul_mul_assoc]

theorem m2l3L_list {V : Type} [AddCommGroup V] [Module ℝ V] (F : (ℕ → ℤ → ℂ) →ₗ[ℝ] V) (p : ℕ) (c' : Vec 3) (X : List (Box 3 × List (Source 3))) :
    F (fun n m => (X.map fun x => m2lC p (meCoeff3 x.1.center x.2) (x.1.center - c') n m).sum)
      = (X.map fun x => (x.2.map fun s => s.q • F (m2l3L p (x.1.center - c') (uME3 x.1.center s.pos))).sum).sum := by
  have : (fun n m => (X.map fun x => m2lC p (meCoeff3 x.1.center x.2) (x.1.center - c') n m).sum)
      = (X.map fun x => m2l3L p (x.1.center - c') (meCoeff3 x.1.center x.2)).sum := by
    induction X with
    | nil => rfl
    | cons x X ih => rw [List.map_cons, List.sum_cons, ← ih]; rfl
  rw [this, map_list_sum, List.map_map]
  refine congrArg List.sum (List.map_congr_left fun x _ => ?_)
  rw [Function.comp_apply, meCoeff3_lin, ← LinearMap.comp_apply, lin_apply]
  rfl

noncomputable def lin3Pot (p : ℕ) (hp : p ≤ 42) : LinLaws (laws3Pot p hp) where
  m2l c c' s y := s.q • leSum3L p (y - c') (m2l3L p (c - c') (uME3 c s.pos))
  p2l c s y := s.q • leSum3L p (y - c) (uLE3 c s.pos)
  m2p c s y := s.q • meSum3L p (y - c) (uME3 c s.pos)
  p2p s y := directTerm true y s
  m2l_smul := fun _ _ _ _ => by rw [one_smul]
  p2l_smul := fun _ _ _ => by rw [one_smul]
  m2p_smul := fun _ _ _ => by rw [one_smul]
  p2p_smul := fun s y => directTerm_smul y s
  leMes := by
    intro t b X ht hb hne hX
    obtain ⟨e, h1, h2⟩ := leMes_cov3 hp t (Or.inr ht.2) b hb X ht.1 hne hX
    refine ⟨e, h1, _, h2, fun y => ?_⟩
    have := m2l3L_list (leSum3L p (y - b.center)) p b.center (X.map (·.2))
    rw [List.map_map (l := X) (f := (·.2))] at this
    exact this.symm
  leSrc := by
    intro t b S ht hb hfar
    obtain ⟨e, h1, h2⟩ := leSrc_cov3 hp t b S ht.1 hb hfar
    refine ⟨e, h1, _, h2, fun y => ?_⟩
    rw [leCoeff3_lin]
    exact (lin_apply (leSum3L p (y - b.center)) (uLE3 b.center) S).symm
  me_obs := by
    intro e b S y hb he hfar _
    have hd : 3 / 2 * b.len ≤ dist2 y b.center := far_dist3 hfar
    have hyc : y ≠ b.center := by
      intro h; rw [h, (dist2_eq_zero_iff _ _).mpr rfl] at hd; linarith
    refine (Exp3.mePot_ok he y hyc).trans (congrArg _ ?_)
    rw [← lin_apply, ← meCoeff3_lin]
    rfl
  direct := fun _ _ => rfl

noncomputable def lin3Force (p : ℕ) (hp0 : 0 < p) (hp : p ≤ 42) : LinLaws (laws3Force p hp0 hp) where
  m2l c c' s y := s.q • leGrad3L p (y - c') (m2l3L p (c - c') (uME3 c s.pos))
  p2l c s y := s.q • leGrad3L p (y - c) (uLE3 c s.pos)
  m2p c s y := s.q • meGrad3L p (y - c) (uME3 c s.pos)
  p2p s y := directFieldTerm true y 0 s
  m2l_smul := fun _ _ _ _ => by rw [one_smul]
  p2l_smul := fun _ _ _ => by rw [one_smul]
  m2p_smul := fun _ _ _ => by rw [one_smul]
  p2p_smul := fun s y => directFieldTerm_smul y 0 s
  leMes := by
    intro t b X ht hb hne hX
    obtain ⟨e, h1, h2⟩ := leMes_cov3 hp t (Or.inl hp0) b hb X ht hne hX
    refine ⟨e, h1, _, h2, fun y => ?_⟩
    have := m2l3L_list (leGrad3L p (y - b.center)) p b.center (X.map (·.2))
    rw [List.map_map (l := X) (f := (·.2))] at this
    exact this.symm
  leSrc := by
    intro t b S ht hb hfar
    obtain ⟨e, h1, h2⟩ := leSrc_cov3 hp t b S ht hb hfar
    refine ⟨e, h1, _, h2, fun y => ?_⟩
    rw [leCoeff3_lin]
    exact (lin_apply (leGrad3L p (y - b.center)) (uLE3 b.center) S).symm
  me_obs := by
    intro e b S y hb he hfar hA
    refine (Exp3.meForce_ok he y hA).trans (congrArg _ ?_)
    rw [← lin_apply, ← meCoeff3_lin]
    rfl
  direct := fun _ _ => rfl

/-! ## Smoothing -/

/-- Smoothing changes only the direct sums. -/
noncomputable def LinLaws.smooth {d : ℕ} {K : Kit d} {O O' : Obs K (Vec d)} {p : ℕ} {L : FmmLaws K O p} (Q : LinLaws L) {feps : ℝ} (hf : 0 ≤ feps)
    (hdir : L.direct = fun S x => directField true S x 0) (hnrm : L.nrm = fun v => dist2 v 0)
    (hle : O'.le = O.le) (hme : O'.me = O.me) (hsum : O'.sum = fun grav safe S x => forcefieldSum grav safe S x feps) :
    LinLaws (L.smooth hf hdir hnrm hle hme hsum) where
  m2l := Q.m2l
  p2l := Q.p2l
  m2p := Q.m2p
  p2p s y := directFieldTerm true y feps s
  m2l_smul := Q.m2l_smul
  p2l_smul := Q.p2l_smul
  m2p_smul := Q.m2p_smul
  p2p_smul := fun s y => directFieldTerm_smul y feps s
  leMes := Q.leMes
  leSrc := Q.leSrc
  me_obs := by rw [hme]; exact Q.me_obs
  direct := fun _ _ => rfl

end FMM
