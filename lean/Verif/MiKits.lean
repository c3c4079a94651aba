import Verif.MiLaws
import Verif.AxKits

/-!
# Reflections of axes: the expansions

In the plane a reflection takes `x + i y` to `±` itself or its conjugate.
-/

namespace FMM
open Finset ComplexConjugate

/-- Signs of the coordinates as a linear function. -/
def mL {d : ℕ} (ε : Fin d → ℝ) : Vec d →ₗ[ℝ] Vec d where
  toFun := mV ε
  map_add' _ _ := by funext i; simp only [mV, Pi.add_apply]; ring
  map_smul' _ _ := by funext i; simp only [mV, Pi.smul_apply, smul_eq_mul, RingHom.id_apply]; ring

namespace Mi
variable {d : ℕ}

section
variable {ε : Fin d → ℝ}

theorem mV_sub (x y : Vec d) : mV ε x - mV ε y = mV ε (x - y) := by funext i; simp only [mV, Pi.sub_apply]; ring

theorem mV_neg (x : Vec d) : -mV ε x = mV ε (-x) := by funext i; simp only [mV, Pi.neg_apply]; ring

theorem mV_zero : mV ε (0 : Vec d) = 0 := by funext i; simp [mV]

theorem dist2 (he : Signs ε) (x y : Vec d) : FMM.dist2 (mV ε x) (mV ε y) = FMM.dist2 x y := by
  unfold FMM.dist2
  refine congrArg Real.sqrt (sum_congr rfl fun i _ => ?_)
  simp only [mV]
  linear_combination (x i - y i) ^ 2 * sq he i

theorem directTerm (he : Signs ε) (u y : Vec d) : FMM.directTerm true (mV ε y) ⟨mV ε u, 1⟩ = FMM.directTerm true y ⟨u, 1⟩ := by
  unfold FMM.directTerm
  by_cases h : u = y
  · rw [if_pos (by simp [h]), if_pos h]
  · rw [if_neg (by simpa [mV_inj he] using h), if_neg h, dist2 he]

theorem directFieldTerm (he : Signs ε) (feps : ℝ) (u y : Vec d) :
    FMM.directFieldTerm true (mV ε y) feps ⟨mV ε u, 1⟩ = mL ε (FMM.directFieldTerm true y feps ⟨u, 1⟩) := by
  unfold FMM.directFieldTerm
  by_cases h : u = y
  · rw [if_pos (by simp [h]), if_pos h, map_zero]
  · rw [if_neg (by simpa [mV_inj he] using h), if_neg h]
    funext j
    show _ = ε j * fieldSpec true y feps ⟨u, 1⟩ j
    unfold fieldSpec
    simp only
    rw [dist2 he]
    simp only [mV]
    ring

end

/-! ## Two dimensions -/

section
variable {ε : Fin 2 → ℝ}

/-- Conjugation if exactly one axis is reflected. -/
noncomputable def tau (ε : Fin 2 → ℝ) : ℂ →ₐ[ℝ] ℂ := open Classical in if ε 0 * ε 1 = 1 then AlgHom.id ℝ ℂ else Complex.conjAe.toAlgHom

/-- The sign of the first axis. -/
noncomputable def cc (ε : Fin 2 → ℝ) : ℂ := (ε 0 : ℝ)

/-- The reflection of the complex plane. -/
noncomputable def J (ε : Fin 2 → ℝ) (z : ℂ) : ℂ := cc ε * tau ε z

theorem tau_cases (ε : Fin 2 → ℝ) : (ε 0 * ε 1 = 1 ∧ ∀ z, tau ε z = z) ∨ (ε 0 * ε 1 ≠ 1 ∧ ∀ z, tau ε z = conj z) := by
  unfold tau
  by_cases h : ε 0 * ε 1 = 1
  · rw [if_pos h]; exact Or.inl ⟨h, fun z => rfl⟩
  · rw [if_neg h]; exact Or.inr ⟨h, fun z => rfl⟩

theorem tau_re (z : ℂ) : (tau ε z).re = z.re := by rcases tau_cases ε with ⟨-, h⟩ | ⟨-, h⟩ <;> rw [h]; exact Complex.conj_re z

theorem tau_norm (z : ℂ) : ‖tau ε z‖ = ‖z‖ := by rcases tau_cases ε with ⟨-, h⟩ | ⟨-, h⟩ <;> rw [h]; exact Complex.norm_conj z

theorem tau_real (x : ℝ) : tau ε (x : ℂ) = x := (tau ε).commutes x

variable [hε : Fact (Signs ε)]

theorem cc_ne : cc ε ≠ 0 := by
  unfold cc
  rcases hε.out 0 with h | h <;> rw [h] <;> norm_num

theorem cc_norm : ‖cc ε‖ = 1 := by
  unfold cc
  rcases hε.out 0 with h | h <;> rw [h] <;> norm_num

theorem toC_mi (v : Vec 2) : toC (mV ε v) = J ε (toC v) := by
  unfold J cc
  rcases tau_cases ε with ⟨h, h'⟩ | ⟨h, h'⟩ <;> rw [h']
  · rcases hε.out 0 with a | a <;> rcases hε.out 1 with b | b <;> rw [a, b] at h <;>
      first | (exfalso; norm_num at h; done) | (apply Complex.ext <;> simp [toC, mV, a, b])
  · rcases hε.out 0 with a | a <;> rcases hε.out 1 with b | b <;> rw [a, b] at h <;>
      first | (exfalso; norm_num at h; done) | (apply Complex.ext <;> simp [toC, mV, a, b])

theorem J_sub (z w : ℂ) : J ε z - J ε w = J ε (z - w) := by unfold J; rw [map_sub]; ring

theorem J_neg (z : ℂ) : -J ε z = J ε (-z) := by unfold J; rw [map_neg]; ring

theorem J_pow (z : ℂ) (k : ℕ) : J ε z ^ k = cc ε ^ k * tau ε (z ^ k) := by unfold J; rw [mul_pow, map_pow]

theorem J_inv_pow (z : ℂ) (k : ℕ) : (J ε z)⁻¹ ^ k = (cc ε)⁻¹ ^ k * tau ε (z⁻¹ ^ k) := by
  unfold J; rw [mul_inv, mul_pow, map_pow, map_inv₀]

theorem log_J (z : ℂ) : (Complex.log (J ε z)).re = (Complex.log z).re := by
  rw [Complex.log_re, Complex.log_re]
  unfold J
  rw [norm_mul, cc_norm, one_mul, tau_norm]

theorem I_cancel (k : ℕ) : (cc ε)⁻¹ ^ k * cc ε ^ k = 1 := by
  rw [← mul_pow, inv_mul_cancel₀ cc_ne, one_pow]

theorem re_sum {ι : Type} {s : Finset ι} {f g : ι → ℂ} (h : ∀ i ∈ s, f i = tau ε (g i)) : (∑ i ∈ s, f i).re = (∑ i ∈ s, g i).re := by
  rw [sum_congr rfl h, ← _root_.map_sum, tau_re]

/-- Multipole coefficients. -/
def MRel (ε : Fin 2 → ℝ) (b a : ℕ → ℂ) : Prop := a 0 = 1 ∧ ∀ k, b k = cc ε ^ k * tau ε (a k)

/-- Local coefficients. -/
def LRel (ε : Fin 2 → ℝ) (b a : ℕ → ℂ) : Prop := (b 0).re = (a 0).re ∧ ∀ k, k ≠ 0 → b k = (cc ε)⁻¹ ^ k * tau ε (a k)

theorem uME2_mi (a : ℂ) (y : Vec 2) : MRel ε (uME2 (J ε a) (mV ε y)) (uME2 a y) := by
  refine ⟨Sc.uME2_zero _ _, fun k => ?_⟩
  unfold uME2
  rw [meCoeff_single, meCoeff_single]
  by_cases h : k = 0
  · simp [h]
  · rw [if_neg h, if_neg h, toC_mi, J_sub, J_pow]
    simp only [map_div₀, map_neg, map_mul, tau_real, map_natCast]
    ring

theorem uLE2_mi (a : ℂ) (y : Vec 2) : LRel ε (uLE2 (J ε a) (mV ε y)) (uLE2 a y) := by
  unfold uLE2
  constructor
  · rw [leCoeff_single, leCoeff_single, if_pos rfl, if_pos rfl, toC_mi, J_sub, J_neg, Complex.re_ofReal_mul, Complex.re_ofReal_mul, log_J]
  · intro k hk
    rw [leCoeff_single, leCoeff_single, if_neg hk, if_neg hk, toC_mi, J_sub, J_inv_pow]
    simp only [map_div₀, map_neg, map_mul, tau_real, map_natCast]
    ring

theorem MRel.term {b a : ℕ → ℂ} (h : MRel ε b a) (z : ℂ) (i : ℕ) : b i * (J ε z)⁻¹ ^ i = tau ε (a i * z⁻¹ ^ i) := by
  rw [h.2, J_inv_pow, map_mul]
  linear_combination tau ε (a i) * tau ε (z⁻¹ ^ i) * I_cancel (ε := ε) i

theorem m2l_mi (M p : ℕ) {b a : ℕ → ℂ} (h : MRel ε b a) (z : ℂ) : LRel ε (Exp2.m2lCoeff M p b (J ε z)) (Exp2.m2lCoeff M p a z) := by
  have b0 : b 0 = 1 := by rw [h.2, h.1]; simp
  constructor
  · unfold Exp2.m2lCoeff
    rw [if_pos rfl, if_pos rfl, b0, h.1, one_mul, one_mul, Complex.add_re, Complex.add_re, J_neg, log_J]
    congr 1
    refine re_sum (ε := ε) fun i _ => ?_
    rw [mul_assoc, h.term, mul_assoc, map_mul (tau ε) ((-1) ^ (i + 1))]
    simp
  · intro l hl
    unfold Exp2.m2lCoeff
    rw [if_neg hl, if_neg hl, b0, h.1, J_inv_pow, map_mul, map_add, _root_.map_sum]
    have : ∑ i ∈ range (p - 1), (-1) ^ (i + 1) * b (i + 1) * (J ε z)⁻¹ ^ (i + 1) * (binVal M (l + i) i : ℂ)
        = ∑ i ∈ range (p - 1), tau ε ((-1) ^ (i + 1) * a (i + 1) * z⁻¹ ^ (i + 1) * (binVal M (l + i) i : ℂ)) := by
      refine sum_congr rfl fun i _ => ?_
      rw [mul_assoc _ (b _), h.term, mul_assoc _ (a _)]
      simp
    rw [this]
    simp only [map_div₀, map_neg, map_one, map_natCast]
    ring

theorem LRel.term {b a : ℕ → ℂ} (h : LRel ε b a) (z : ℂ) {k : ℕ} (hk : k ≠ 0) : b k * J ε z ^ k = tau ε (a k * z ^ k) := by
  rw [h.2 k hk, J_pow, map_mul]
  linear_combination tau ε (a k) * tau ε (z ^ k) * I_cancel (ε := ε) k

theorem leSum_mi (p : ℕ) {b a : ℕ → ℂ} (h : LRel ε b a) (z : ℂ) : (leSum b p (J ε z)).re = (leSum a p z).re := by
  unfold leSum
  rw [sum_range_succ', sum_range_succ' (fun k => a k * z ^ k), Complex.add_re, Complex.add_re, pow_zero, pow_zero, mul_one, mul_one, h.1]
  congr 1
  exact re_sum fun i _ => h.term z (Nat.succ_ne_zero i)

theorem leDeriv_mi (p : ℕ) {b a : ℕ → ℂ} (h : LRel ε b a) (z : ℂ) : leDeriv b p (J ε z) = (cc ε)⁻¹ * tau ε (leDeriv a p z) := by
  unfold leDeriv
  rw [_root_.map_sum, mul_sum]
  refine sum_congr rfl fun i _ => ?_
  rw [h.2 _ (Nat.succ_ne_zero i), J_pow, map_mul, map_mul, map_natCast, pow_succ]
  linear_combination ((i + 1 : ℕ) : ℂ) * (cc ε)⁻¹ * tau ε (a (i + 1)) * tau ε (z ^ i) * I_cancel (ε := ε) i

theorem meSum_mi (p : ℕ) {b a : ℕ → ℂ} (h : MRel ε b a) (z : ℂ) : (meSum b p (J ε z)).re = (meSum a p z).re := by
  have b0 : b 0 = 1 := by rw [h.2, h.1]; simp
  unfold meSum
  rw [b0, h.1, one_mul, one_mul, Complex.add_re, Complex.add_re, log_J]
  congr 1
  exact re_sum fun i _ => h.term z _

theorem meDeriv_mi (p : ℕ) {b a : ℕ → ℂ} (h : MRel ε b a) (z : ℂ) : meDeriv b p (J ε z) = (cc ε)⁻¹ * tau ε (meDeriv a p z) := by
  have b0 : b 0 = 1 := by rw [h.2, h.1]; simp
  unfold meDeriv
  rw [b0, h.1, map_sub, _root_.map_sum, mul_sub, mul_sum]
  refine congrArg₂ (· - ·) ?_ (sum_congr rfl fun i _ => ?_)
  · unfold J
    rw [map_div₀, map_one, div_eq_mul_inv, div_eq_mul_inv, mul_inv]; ring
  · rw [pow_succ ((J ε z)⁻¹) (i + 1), ← mul_assoc, mul_assoc _ (b _), h.term]
    have e : (J ε z)⁻¹ = (cc ε)⁻¹ * tau ε z⁻¹ := by unfold J; rw [mul_inv, map_inv₀]
    rw [e, pow_succ z⁻¹ (i + 1)]
    simp only [map_mul, map_natCast]
    ring

theorem fieldOf_mi (f : ℂ) : Exp2.fieldOf ((cc ε)⁻¹ * tau ε f) = mL ε (Exp2.fieldOf f) := by
  unfold Exp2.fieldOf
  funext j
  show _ = ε j * ![-f.re, f.im] j
  unfold cc
  rcases tau_cases ε with ⟨h, h'⟩ | ⟨h, h'⟩ <;> rw [h']
  · rcases hε.out 0 with a | a <;> rcases hε.out 1 with b | b <;> rw [a, b] at h <;>
      first | (exfalso; norm_num at h; done) | (fin_cases j <;> simp [a, b, inv_neg])
  · rcases hε.out 0 with a | a <;> rcases hε.out 1 with b | b <;> rw [a, b] at h <;>
      first | (exfalso; norm_num at h; done) | (fin_cases j <;> simp [a, b, inv_neg])

theorem mi2Pot (p : ℕ) (hp0 : 0 < p) (hp : p ≤ 1029) (M : ℕ) : MiLaws (lin2Pot p hp0 hp M) ε LinearMap.id where
  m2l := by
    intro a b u y
    show (1 : ℝ) • (leSum (Exp2.m2lCoeff M p (uME2 (toC (mV ε a)) (mV ε u)) (toC (mV ε a) - toC (mV ε b))) p (toC (mV ε y) - toC (mV ε b))).re
      = (1 : ℝ) • (leSum (Exp2.m2lCoeff M p (uME2 (toC a) u) (toC a - toC b)) p (toC y - toC b)).re
    rw [toC_mi, toC_mi, toC_mi, J_sub, J_sub, leSum_mi p (m2l_mi M p (uME2_mi (toC a) u) _)]
  p2l := by
    intro a u y
    show (1 : ℝ) • (leSum (uLE2 (toC (mV ε a)) (mV ε u)) p (toC (mV ε y) - toC (mV ε a))).re
      = (1 : ℝ) • (leSum (uLE2 (toC a) u) p (toC y - toC a)).re
    rw [toC_mi, toC_mi, J_sub, leSum_mi p (uLE2_mi (toC a) u)]
  m2p := by
    intro a u y
    show (1 : ℝ) • (meSum (uME2 (toC (mV ε a)) (mV ε u)) p (toC (mV ε y) - toC (mV ε a))).re
      = (1 : ℝ) • (meSum (uME2 (toC a) u) p (toC y - toC a)).re
    rw [toC_mi, toC_mi, J_sub, meSum_mi p (uME2_mi (toC a) u)]
  p2p u y := directTerm hε.out u y

theorem mi2Force (p : ℕ) (hp0 : 0 < p) (hp : p ≤ 1029) (M : ℕ) {feps : ℝ} (hf : 0 ≤ feps) :
    MiLaws ((lin2Force p hp0 hp M).smooth (O' := force2 feps) hf rfl rfl rfl rfl rfl) ε (mL ε) where
  m2l := by
    intro a b u y
    show (1 : ℝ) • Exp2.fieldOf (leDeriv (Exp2.m2lCoeff M p (uME2 (toC (mV ε a)) (mV ε u)) (toC (mV ε a) - toC (mV ε b))) p
        (toC (mV ε y) - toC (mV ε b)))
      = mL ε ((1 : ℝ) • Exp2.fieldOf (leDeriv (Exp2.m2lCoeff M p (uME2 (toC a) u) (toC a - toC b)) p (toC y - toC b)))
    rw [toC_mi, toC_mi, toC_mi, J_sub, J_sub, leDeriv_mi p (m2l_mi M p (uME2_mi (toC a) u) _), fieldOf_mi, one_smul, one_smul]
  p2l := by
    intro a u y
    show (1 : ℝ) • Exp2.fieldOf (leDeriv (uLE2 (toC (mV ε a)) (mV ε u)) p (toC (mV ε y) - toC (mV ε a)))
      = mL ε ((1 : ℝ) • Exp2.fieldOf (leDeriv (uLE2 (toC a) u) p (toC y - toC a)))
    rw [toC_mi, toC_mi, J_sub, leDeriv_mi p (uLE2_mi (toC a) u), fieldOf_mi, one_smul, one_smul]
  m2p := by
    intro a u y
    show (1 : ℝ) • Exp2.fieldOf (meDeriv (uME2 (toC (mV ε a)) (mV ε u)) p (toC (mV ε y) - toC (mV ε a)))
      = mL ε ((1 : ℝ) • Exp2.fieldOf (meDeriv (uME2 (toC a) u) p (toC y - toC a)))
    rw [toC_mi, toC_mi, J_sub, meDeriv_mi p (uME2_mi (toC a) u), fieldOf_mi, one_smul, one_smul]
  p2p u y := directFieldTerm hε.out feps u y

end

/-! ## Three dimensions

The contributions of single sources depend on scalar products only, so that every reflection is allowed. -/

section
variable {ε : Fin 3 → ℝ}

theorem dot3_mi (he : Signs ε) (u v : Vec 3) : dot3 (mV ε u) (mV ε v) = dot3 u v := by
  have h : ∀ w z : Vec 3, dot3 w z = ∑ i, w i * z i := fun w z => by rw [Fin.sum_univ_three]; rfl
  rw [h, h]
  exact sum_congr rfl fun i _ => by simp only [mV]; linear_combination u i * v i * sq he i

theorem len3_mi (he : Signs ε) (v : Vec 3) : len3 (mV ε v) = len3 v := by unfold len3; rw [dot3_mi he]

theorem sK_mi (he : Signs ε) (n : ℕ) (x s : Vec 3) : sK n (mV ε x) (mV ε s) = sK n x s :=
  sK_gram (dot3_mi he _ _) (dot3_mi he _ _) (dot3_mi he _ _) n

theorem sT_mi (he : Signs ε) {N j : ℕ} (hj : j ≤ N) (u v h : Vec 3) : sT N j (mV ε u) (mV ε v) (mV ε h) = sT N j u v h :=
  sT_gram (dot3_mi he _ _) (dot3_mi he _ _) (dot3_mi he _ _) (dot3_mi he _ _) (dot3_mi he _ _) (dot3_mi he _ _) N j hj

theorem sTD_mi (he : Signs ε) {N j : ℕ} (hj : j ≤ N) (u e v h : Vec 3) :
    sTD N j (mV ε u) (mV ε e) (mV ε v) (mV ε h) = sTD N j u e v h :=
  (sTD_rot (ρ := mV ε) (dot3_mi he) (fun _ _ _ => by funext i; simp only [mV, Pi.add_apply, Pi.smul_apply, smul_eq_mul]; ring) N j hj u e v h).symm

theorem sKD_mi (he : Signs ε) (n : ℕ) (u e h : Vec 3) : sKD n (mV ε u) (mV ε e) (mV ε h) = sKD n u e h := by
  rw [← sTD_self, ← sTD_self]
  have := sTD_mi he le_rfl u e 0 h (N := n)
  rwa [mV_zero] at this

theorem unitV_mi (he : Signs ε) (i : Fin 3) : unitV i = ε i • mV ε (unitV i) := by
  funext j
  simp only [mV, unitV, Pi.smul_apply, smul_eq_mul]
  by_cases h : j = i
  · subst h; rw [Pi.single_eq_same, mul_one, sq he]
  · rw [Pi.single_eq_of_ne h]; ring

theorem m2lSum_mi (he : Signs ε) (p : ℕ) (a b u y : Vec 3) :
    leSum3 (m2lC p (uME3 (mV ε a) (mV ε u)) (mV ε a - mV ε b)) p (mV ε y - mV ε b) = leSum3 (m2lC p (uME3 a u) (a - b)) p (y - b) := by
  unfold uME3
  rw [m2lC_sources, m2lC_sources]
  simp only [List.map_cons, List.map_nil, List.sum_cons, List.sum_nil, add_zero]
  refine congrArg (_ * ·) (sum_congr rfl fun x _ => ?_)
  rw [mV_sub, mV_sub, mV_sub, len3_mi he]
  rw [mV_neg]; exact congrArg (· / _) (sT_mi he (Nat.le_add_right _ _) (y - b) (-(u - a)) (a - b))

theorem leSum_mi3 (he : Signs ε) (p : ℕ) (a u y : Vec 3) :
    leSum3 (uLE3 (mV ε a) (mV ε u)) p (mV ε y - mV ε a) = leSum3 (uLE3 a u) p (y - a) := by
  unfold uLE3
  rw [leSum3_sources, leSum3_sources]
  simp only [List.map_cons, List.map_nil, List.sum_cons, List.sum_nil, add_zero]
  refine congrArg (_ * ·) (sum_congr rfl fun x _ => ?_)
  rw [mV_sub, mV_sub, len3_mi he, sK_mi he]

theorem meSum_mi3 (he : Signs ε) (p : ℕ) (a u y : Vec 3) :
    meSum3 (uME3 (mV ε a) (mV ε u)) p (mV ε y - mV ε a) = meSum3 (uME3 a u) p (y - a) := by
  unfold uME3
  rw [meSum3_sources, meSum3_sources]
  simp only [List.map_cons, List.map_nil, List.sum_cons, List.sum_nil, add_zero]
  refine congrArg (_ * ·) (sum_congr rfl fun x _ => ?_)
  rw [mV_sub, mV_sub, len3_mi he, sK_mi he]

theorem m2lGrad_mi (he : Signs ε) (p : ℕ) (a b u y e : Vec 3) :
    leGrad3 (m2lC p (uME3 (mV ε a) (mV ε u)) (mV ε a - mV ε b)) p (mV ε y - mV ε b) (mV ε e)
      = leGrad3 (m2lC p (uME3 a u) (a - b)) p (y - b) e := by
  unfold uME3
  rw [leGrad3_m2l, leGrad3_m2l]
  simp only [List.map_cons, List.map_nil, List.sum_cons, List.sum_nil, add_zero]
  refine congrArg (_ * ·) (sum_congr rfl fun x _ => ?_)
  rw [mV_sub, mV_sub, mV_sub, len3_mi he]
  rw [mV_neg]; exact congrArg (· / _) (sTD_mi he (Nat.le_add_right _ _) (y - b) e (-(u - a)) (a - b))

theorem leGrad_mi3 (he : Signs ε) (p : ℕ) (a u y e : Vec 3) :
    leGrad3 (uLE3 (mV ε a) (mV ε u)) p (mV ε y - mV ε a) (mV ε e) = leGrad3 (uLE3 a u) p (y - a) e := by
  unfold uLE3
  rw [leGrad3_sources, leGrad3_sources]
  simp only [List.map_cons, List.map_nil, List.sum_cons, List.sum_nil, add_zero]
  refine congrArg (_ * ·) (sum_congr rfl fun x _ => ?_)
  rw [mV_sub, mV_sub, len3_mi he, sKD_mi he]

theorem meGrad_mi3 (he : Signs ε) (p : ℕ) (a u y e : Vec 3) :
    meGrad3 (uME3 (mV ε a) (mV ε u)) p (mV ε y - mV ε a) (mV ε e) = meGrad3 (uME3 a u) p (y - a) e := by
  rw [mV_sub]
  by_cases h : y - a = 0
  · have h' : mV ε (0 : Vec 3) = 0 := mV_zero
    rw [h, h', Ax.meGrad3_zero, Ax.meGrad3_zero]
  · have h' : mV ε (y - a) ≠ 0 := fun e => h ((mV_inj he).mp (e.trans mV_zero.symm))
    unfold uME3
    rw [meGrad3_sources _ _ _ h', meGrad3_sources _ _ _ h]
    simp only [List.map_cons, List.map_nil, List.sum_cons, List.sum_nil, add_zero]
    refine congrArg (_ * ·) (congrArg Neg.neg (sum_congr rfl fun x _ => ?_))
    rw [mV_sub, len3_mi he, sKD_mi he]

theorem mi3Pot (he : Signs ε) (p : ℕ) (hp : p ≤ 42) : MiLaws (lin3Pot p hp) ε LinearMap.id where
  m2l := by
    intro a b u y
    show (1 : ℝ) • -(leSum3 (m2lC p (uME3 (mV ε a) (mV ε u)) (mV ε a - mV ε b)) p (mV ε y - mV ε b)).re
      = (1 : ℝ) • -(leSum3 (m2lC p (uME3 a u) (a - b)) p (y - b)).re
    rw [m2lSum_mi he]
  p2l := by
    intro a u y
    show (1 : ℝ) • -(leSum3 (uLE3 (mV ε a) (mV ε u)) p (mV ε y - mV ε a)).re = (1 : ℝ) • -(leSum3 (uLE3 a u) p (y - a)).re
    rw [leSum_mi3 he]
  m2p := by
    intro a u y
    show (1 : ℝ) • -(meSum3 (uME3 (mV ε a) (mV ε u)) p (mV ε y - mV ε a)).re = (1 : ℝ) • -(meSum3 (uME3 a u) p (y - a)).re
    rw [meSum_mi3 he]
  p2p u y := directTerm he u y

theorem mi3Force (he : Signs ε) (p : ℕ) (hp0 : 0 < p) (hp : p ≤ 42) {feps : ℝ} (hf : 0 ≤ feps) :
    MiLaws ((lin3Force p hp0 hp).smooth (O' := force3 feps) hf rfl rfl rfl rfl rfl) ε (mL ε) where
  m2l := by
    intro a b u y
    funext i
    show (1 : ℝ) * (leGrad3 (m2lC p (uME3 (mV ε a) (mV ε u)) (mV ε a - mV ε b)) p (mV ε y - mV ε b) (unitV i)).re
      = ε i * ((1 : ℝ) * (leGrad3 (m2lC p (uME3 a u) (a - b)) p (y - b) (unitV i)).re)
    conv_lhs => rw [unitV_mi he i]
    rw [leGrad3_smul, m2lGrad_mi he, Complex.re_ofReal_mul]; ring
  p2l := by
    intro a u y
    funext i
    show (1 : ℝ) * (leGrad3 (uLE3 (mV ε a) (mV ε u)) p (mV ε y - mV ε a) (unitV i)).re
      = ε i * ((1 : ℝ) * (leGrad3 (uLE3 a u) p (y - a) (unitV i)).re)
    conv_lhs => rw [unitV_mi he i]
    rw [leGrad3_smul, leGrad_mi3 he, Complex.re_ofReal_mul]; ring
  m2p := by
    intro a u y
    funext i
    show (1 : ℝ) * (meGrad3 (uME3 (mV ε a) (mV ε u)) p (mV ε y - mV ε a) (unitV i)).re
      = ε i * ((1 : ℝ) * (meGrad3 (uME3 a u) p (y - a) (unitV i)).re)
    conv_lhs => rw [unitV_mi he i]
    rw [meGrad3_smul, meGrad_mi3 he, Complex.re_ofReal_mul]; ring
  p2p u y := directFieldTerm he feps u y

end

end Mi
end FMM
