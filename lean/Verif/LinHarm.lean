import Verif.LinGradKits

/-!
# Fields without sources
-/

namespace FMM
open Finset
variable {d : ℕ} {p : ℕ}

/-- The field `F` is differentiable at `x` and its divergence there is zero. -/
def SourceFree (F : Vec d → Vec d) (x : Vec d) : Prop :=
  ∃ J : Vec d →L[ℝ] Vec d, HasFDerivAt F J x ∧ ∑ j, J (Pi.single j 1) j = 0

/-- The operations produce fields without sources. -/
structure HarmLaws {K : Kit d} {O' : Obs K (Vec d)} {L' : FmmLaws K O' p} (Q' : LinLaws L') : Prop where
  m2l : ∀ a b u y : Vec d, SourceFree (Q'.m2l a b ⟨u, 1⟩) y
  p2l : ∀ a u y : Vec d, SourceFree (Q'.p2l a ⟨u, 1⟩) y
  m2p : ∀ a u y : Vec d, y ≠ a → SourceFree (Q'.m2p a ⟨u, 1⟩) y
  p2p : ∀ u y : Vec d, u ≠ y → SourceFree (Q'.p2p ⟨u, 1⟩) y
  direct : ∀ u y : Vec d, Q'.p2p ⟨u, 1⟩ y = directFieldTerm true y 0 ⟨u, 1⟩

namespace Hm

theorem zero (x : Vec d) : SourceFree (fun _ => (0 : Vec d)) x := ⟨0, hasFDerivAt_const _ _, by simp⟩

theorem add {F G : Vec d → Vec d} {x : Vec d} (hF : SourceFree F x) (hG : SourceFree G x) : SourceFree (fun y => F y + G y) x := by
  obtain ⟨J, h1, h2⟩ := hF
  obtain ⟨J', h3, h4⟩ := hG
  refine ⟨J + J', h1.add h3, ?_⟩
  simp only [add_apply, Pi.add_apply, sum_add_distrib, h2, h4, add_zero]

theorem smul {F : Vec d → Vec d} {x : Vec d} (c : ℝ) (hF : SourceFree F x) : SourceFree (fun y => c • F y) x := by
  obtain ⟨J, h1, h2⟩ := hF
  refine ⟨c • J, h1.const_smul c, ?_⟩
  simp only [smul_apply, Pi.smul_apply, smul_eq_mul, ← mul_sum, h2, mul_zero]

theorem congr {F G : Vec d → Vec d} {x : Vec d} (hF : SourceFree F x) (h : G =ᶠ[nhds x] F) : SourceFree G x := by
  obtain ⟨J, h1, h2⟩ := hF
  exact ⟨J, h1.congr_of_eventuallyEq h, h2⟩

theorem list {α : Type} (F : α → Vec d → Vec d) (x : Vec d) : ∀ l : List α, (∀ a ∈ l, SourceFree (F a) x) →
    SourceFree (fun y => (l.map fun a => F a y).sum) x
  | [], _ => zero x
  | a :: l, h => by
    simp only [List.map_cons, List.sum_cons]
    exact add (h a (by simp)) (list F x l fun b hb => h b (by simp [hb]))

/-- From the components. -/
theorem of_comp {F : Vec d → Vec d} {x : Vec d} (L : Fin d → Vec d →L[ℝ] ℝ) (h : ∀ j, HasFDerivAt (fun y => F y j) (L j) x)
    (h0 : ∑ j, L j (Pi.single j 1) = 0) : SourceFree F x :=
  ⟨ContinuousLinearMap.pi L, hasFDerivAt_pi.mpr h, h0⟩

/-! ## Two dimensions -/

theorem holo {g : ℂ → ℂ} {g' : ℂ} {x : Vec 2} (hg : HasDerivAt g g' (toC x)) : SourceFree (fun y => Exp2.fieldOf (g (toC y))) x := by
  have h0 : HasFDerivAt (fun y : Vec 2 => -(g (toC y)).re) (-minusGrad (Exp2.fieldOf g')) x := (hasFDerivAt_re_holomorphic g g' x hg).neg
  have h1 : HasFDerivAt (fun y : Vec 2 => (-Complex.I * g (toC y)).re) (minusGrad (Exp2.fieldOf (-Complex.I * g'))) x :=
    hasFDerivAt_re_holomorphic (fun z => -Complex.I * g z) (-Complex.I * g') x (hg.const_mul _)
  refine of_comp ![-minusGrad (Exp2.fieldOf g'), minusGrad (Exp2.fieldOf (-Complex.I * g'))] (fun j => ?_) ?_
  · fin_cases j
    · exact h0
    · exact h1.congr_of_eventuallyEq (Filter.Eventually.of_forall fun y => by simp [Exp2.fieldOf])
  · simp [Fin.sum_univ_two, Exp2.fieldOf, minusGrad]

theorem le2 (a : ℕ → ℂ) (p : ℕ) (c y : Vec 2) : SourceFree (fun z => leDerivL p (toC z - toC c) a) y := by
  have h : DifferentiableAt ℂ (fun z => leDeriv a p (z - toC c)) (toC y) := by unfold leDeriv; fun_prop
  exact holo h.hasDerivAt

theorem me2 (a : ℕ → ℂ) (p : ℕ) (c y : Vec 2) (hy : y ≠ c) : SourceFree (fun z => meDerivL p (toC z - toC c) a) y := by
  have h0 : toC y - toC c ≠ 0 := sub_ne_zero.mpr (Sc.toC_ne hy)
  have h : DifferentiableAt ℂ (fun z => meDeriv a p (z - toC c)) (toC y) := by
    unfold meDeriv
    have h1 : DifferentiableAt ℂ (fun z => z - toC c) (toC y) := by fun_prop
    refine ((differentiableAt_const _).div h1 h0).sub (DifferentiableAt.fun_sum fun i _ => ?_)
    exact ((h1.inv h0).pow _).const_mul _
  exact holo h.hasDerivAt

theorem single2 (u y : Vec 2) (h : u ≠ y) : SourceFree (fun z => directFieldTerm true z 0 ⟨u, 1⟩) y := by
  have h0 : toC y - toC u ≠ 0 := sub_ne_zero.mpr (Sc.toC_ne h.symm)
  have h1 : DifferentiableAt ℂ (fun z => ((1 : ℝ) : ℂ) / (z - toC u)) (toC y) :=
    (differentiableAt_const _).div (differentiableAt_id.sub_const _) h0
  refine congr (holo h1.hasDerivAt) ?_
  filter_upwards [isOpen_ne.mem_nhds h.symm] with z hz
  exact directFieldTerm_two fun e => hz e.symm

theorem harm2 (p : ℕ) (hp0 : 0 < p) (hp : p ≤ 1029) (M : ℕ) : HarmLaws (lin2Force p hp0 hp M) where
  m2l := fun a b u y => smul 1 (le2 (m2lL M p (toC a - toC b) (uME2 (toC a) u)) p b y)
  p2l := fun a u y => smul 1 (le2 (uLE2 (toC a) u) p a y)
  m2p := fun a u y h => smul 1 (me2 (uME2 (toC a) u) p a y h)
  p2p := fun u y h => single2 u y h
  direct := fun _ _ => rfl

/-! ## Three dimensions -/

/-- Second derivative of `sR · n m`. -/
theorem sD_hasFDerivAt (v e : Vec 3) (n : ℕ) (m : ℤ) : HasFDerivAt (fun v => sD v e (n + 1) m)
    ((wv e / 2) • sDL v n (m - 1) + (e 2 : ℂ) • sDL v n m - (wc e / 2) • sDL v n (m + 1)) v :=
  (((sR_hasFDerivAt v n (m - 1)).const_smul (wv e / 2)).add ((sR_hasFDerivAt v n m).const_smul (e 2 : ℂ))).sub
    ((sR_hasFDerivAt v n (m + 1)).const_smul (wc e / 2))

/-- Three complex functions with derivatives whose trace is zero. -/
def CFree (G : Fin 3 → Vec 3 → ℂ) (v : Vec 3) : Prop :=
  ∃ L : Fin 3 → Vec 3 →L[ℝ] ℂ, (∀ i, HasFDerivAt (G i) (L i) v) ∧ ∑ i, L i (unitV i) = 0

theorem CFree.const_mul {G : Fin 3 → Vec 3 → ℂ} {v : Vec 3} (h : CFree G v) (c : ℂ) : CFree (fun i v => c * G i v) v := by
  obtain ⟨L, h1, h2⟩ := h
  refine ⟨fun i => c • L i, fun i => (h1 i).const_smul c, ?_⟩
  simp only [smul_apply, smul_eq_mul, ← mul_sum, h2, mul_zero]

theorem CFree.sum {ι : Type} {s : Finset ι} {G : ι → Fin 3 → Vec 3 → ℂ} {v : Vec 3} (h : ∀ k ∈ s, CFree (G k) v) :
    CFree (fun i v => ∑ k ∈ s, G k i v) v := by
  classical
  induction s using Finset.induction_on with
  | empty => exact ⟨fun _ => 0, fun i => by simpa using hasFDerivAt_const (0 : ℂ) v, by simp⟩
  | insert k s hk ih =>
    obtain ⟨L, h1, h2⟩ := h k (by simp)
    obtain ⟨L', h3, h4⟩ := ih fun j hj => h j (by simp [hj])
    refine ⟨fun i => L i + L' i, fun i => ?_, ?_⟩
    · simp only [Finset.sum_insert hk]
      exact (h1 i).add (h3 i)
    · simp only [add_apply, sum_add_distrib, h2, h4, add_zero]

theorem CFree.re {G : Fin 3 → Vec 3 → ℂ} {c y : Vec 3} (h : CFree G (y - c)) : SourceFree (fun z i => (G i (z - c)).re) y := by
  obtain ⟨L, h1, h2⟩ := h
  refine of_comp (fun i => Complex.reCLM.comp (L i)) (fun i => ?_) ?_
  · exact Complex.reCLM.hasFDerivAt.comp y ((h1 i).comp y ((hasFDerivAt_id y).sub_const c))
  · have : ∑ i, Complex.reCLM.comp (L i) (Pi.single i 1) = Complex.reCLM (∑ i, L i (unitV i)) := by rw [map_sum]; rfl
    rw [this, h2, map_zero]

theorem wv_unit : wv (unitV 0) = 1 ∧ wv (unitV 1) = Complex.I ∧ wv (unitV 2) = 0 := by
  refine ⟨?_, ?_, ?_⟩ <;> apply Complex.ext <;> simp [wv, unitV]

theorem wc_unit : wc (unitV 0) = 1 ∧ wc (unitV 1) = -Complex.I ∧ wc (unitV 2) = 0 := by
  refine ⟨?_, ?_, ?_⟩ <;> apply Complex.ext <;> simp [wc, unitV]

theorem z_unit : unitV 0 2 = 0 ∧ unitV 1 2 = 0 ∧ unitV 2 2 = 1 := by simp [unitV]

/-- Solid harmonics are harmonic. -/
theorem sD_free (v : Vec 3) (n : ℕ) (m : ℤ) : CFree (fun i v => sD v (unitV i) n m) v := by
  cases n with
  | zero => exact ⟨fun _ => 0, fun i => hasFDerivAt_const (0 : ℂ) v, by simp⟩
  | succ n =>
    refine ⟨_, fun i => sD_hasFDerivAt v (unitV i) n m, ?_⟩
    obtain ⟨a0, a1, a2⟩ := wv_unit
    obtain ⟨b0, b1, b2⟩ := wc_unit
    obtain ⟨c0, c1, c2⟩ := z_unit
    simp only [Fin.sum_univ_three, add_apply, sub_apply, smul_apply, smul_eq_mul, sDL_apply]
    cases n with
    | zero => simp [sD_zero]
    | succ n =>
      simp only [sD_succ, a0, a1, a2, b0, b1, b2, c0, c1, c2, Complex.ofReal_zero, Complex.ofReal_one]
      rw [show m - 1 + 1 = m by ring, show m + 1 - 1 = m by ring]
      ring_nf
      simp only [Complex.I_sq]
      ring

theorem rD_free (v : Vec 3) (n : ℕ) (m : ℤ) : CFree (fun i v => rD v (unitV i) n m) v := (sD_free v n m).const_mul _

theorem len_inv {v : Vec 3} (hv : v ≠ 0) (k : ℕ) : HasFDerivAt (fun v => ((len3 v : ℂ) ^ k)⁻¹)
    ((-(k : ℂ) / (len3 v : ℂ) ^ (k + 2)) • Complex.ofRealCLM.comp (dotL v)) v := by
  have h0 : len3 v ≠ 0 := (len3_pos hv).ne'
  have h0' : (len3 v : ℂ) ≠ 0 := by exact_mod_cast h0
  have hg : HasDerivAt (fun t : ℝ => (t ^ k)⁻¹) (-((k : ℝ) * len3 v ^ (k - 1)) / (len3 v ^ k) ^ 2) (len3 v) := by
    have := (hasDerivAt_pow k (len3 v)).fun_inv (pow_ne_zero _ h0)
    simpa using this
  have h1 := hg.comp_hasFDerivAt v (len3_hasFDerivAt hv)
  have h2 := Complex.ofRealCLM.hasFDerivAt.comp v h1
  have e : (fun v => ((len3 v : ℂ) ^ k)⁻¹) = ⇑Complex.ofRealCLM ∘ (fun t : ℝ => (t ^ k)⁻¹) ∘ len3 := by
    funext v
    simp
  rw [e]
  refine h2.congr_fderiv ?_
  ext w
  simp [dotL_apply]
  cases k with
  | zero => simp
  | succ k =>
    simp only [Nat.add_sub_cancel]
    field_simp
    ring

theorem rD_euler (v : Vec 3) (n : ℕ) (m : ℤ) : ∑ i, (v i : ℂ) * rD v (unitV i) n m = n * rY v n m := by
  have h : rD v v n m = n * rY v n m := by unfold rD rY; rw [sD_self]; ring
  have hv : v = ∑ j, v j • unitV j := by ext i; fin_cases i <;> simp [Fin.sum_univ_three, unitV]
  rw [← h]
  conv_rhs => arg 2; rw [hv]
  simp only [Fin.sum_univ_three, rD_add, rD_smul]

theorem iD_free {v : Vec 3} (hv : v ≠ 0) (n : ℕ) (m : ℤ) : CFree (fun i v => iD v (unitV i) n m) v := by
  have h0' : (len3 v : ℂ) ≠ 0 := by exact_mod_cast (len3_pos hv).ne'
  obtain ⟨L, h1, h2⟩ := rD_free v n m
  have hc : ∀ i, HasFDerivAt (fun v : Vec 3 => ((v i : ℝ) : ℂ)) (Complex.ofRealCLM.comp (ContinuousLinearMap.proj i : Vec 3 →L[ℝ] ℝ)) v := fun i =>
    (Complex.ofRealCLM.comp (ContinuousLinearMap.proj i : Vec 3 →L[ℝ] ℝ)).hasFDerivAt
  have hd : ∀ i, HasFDerivAt (fun v => rD v (unitV i) n m * ((len3 v : ℂ) ^ (2 * n + 1))⁻¹
      - (2 * n + 1) * ((((v i : ℝ) : ℂ) * rY v n m) * ((len3 v : ℂ) ^ (2 * n + 3))⁻¹)) _ v := fun i =>
    ((h1 i).mul (len_inv hv (2 * n + 1))).sub ((((hc i).mul (rY_hasFDerivAt v n m)).mul (len_inv hv (2 * n + 3))).const_mul ((2 * n + 1 : ℂ)))
  refine ⟨_, fun i => (hd i).congr_of_eventuallyEq (Filter.Eventually.of_forall fun w => ?_), ?_⟩
  · have : dot3 w (unitV i) = w i := by fin_cases i <;> simp [dot3, unitV]
    simp only [iD, this]
    ring
  · have he := rD_euler v n m
    have hl : ((len3 v : ℂ)) ^ 2 = (v 0 : ℂ) * v 0 + v 1 * v 1 + v 2 * v 2 := by
      have := len3_sq v
      unfold dot3 at this
      exact_mod_cast this
    have hi : ∀ i, dot3 v (unitV i) = v i := fun i => by fin_cases i <;> simp [dot3, unitV]
    have hj : ∀ i, unitV i i = 1 := fun i => by simp [unitV]
    simp only [add_apply, sub_apply, smul_apply, smul_eq_mul, ContinuousLinearMap.comp_apply, dotL_apply, rDL_apply, ContinuousLinearMap.proj_apply,
      hi, hj, Complex.ofRealCLM_apply, Complex.ofReal_one, Fin.sum_univ_three] at h2 he ⊢
    have hb : ((len3 v : ℂ) ^ (2 * n + 5))⁻¹ * ((v 0 : ℂ) * v 0 + v 1 * v 1 + v 2 * v 2) = ((len3 v : ℂ) ^ (2 * n + 3))⁻¹ := by
      rw [← hl]
      field_simp
      ring
    rw [show 2 * n + 1 + 2 = 2 * n + 3 by ring, show 2 * n + 3 + 2 = 2 * n + 5 by ring]
    simp only [Pi.mul_apply, div_eq_mul_inv]
    push_cast
    generalize ((len3 v : ℂ) ^ (2 * n + 1))⁻¹ = a at *
    generalize ((len3 v : ℂ) ^ (2 * n + 3))⁻¹ = b at *
    generalize ((len3 v : ℂ) ^ (2 * n + 5))⁻¹ = c at *
    linear_combination a * h2 - 2 * (2 * (n : ℂ) + 1) * b * he + (2 * (n : ℂ) + 1) * (2 * n + 3) * rY v n m * hb

theorem le3 (a : ℕ → ℤ → ℂ) (p : ℕ) (c y : Vec 3) : SourceFree (fun z => leGrad3L p (z - c) a) y :=
  CFree.re (G := fun i v => ∑ n ∈ range (p + 1), ∑ m ∈ Icc (-(n : ℤ)) n, a n m * rD v (unitV i) n m)
    (CFree.sum fun n _ => CFree.sum fun m _ => (rD_free _ n m).const_mul _)

theorem me3 (a : ℕ → ℤ → ℂ) (p : ℕ) (c y : Vec 3) (hy : y ≠ c) : SourceFree (fun z => meGrad3L p (z - c) a) y :=
  CFree.re (G := fun i v => ∑ n ∈ range (p + 1), ∑ m ∈ Icc (-(n : ℤ)) n, a n m * iD v (unitV i) n m)
    (CFree.sum fun n _ => CFree.sum fun m _ => (iD_free (sub_ne_zero.mpr hy) n m).const_mul _)

theorem single3 (u y : Vec 3) (h : u ≠ y) : SourceFree (fun z => directFieldTerm true z 0 ⟨u, 1⟩) y := by
  refine congr (me3 (fun _ _ => 1) 0 u y h.symm) ?_
  filter_upwards [isOpen_ne.mem_nhds h.symm] with z hz
  have hz' : u ≠ z := fun e => hz e.symm
  have hl : dist2 u z = len3 (z - u) := by
    unfold dist2 len3 dot3
    congr 1
    simp only [Fin.sum_univ_three, Pi.sub_apply]
    ring
  have h0 := len3_pos (sub_ne_zero.mpr hz)
  funext i
  have hi : dot3 (z - u) (unitV i) = z i - u i := by fin_cases i <;> simp [dot3, unitV]
  show _ = (∑ n ∈ range (0 + 1), ∑ m ∈ Icc (-(n : ℤ)) n, (1 : ℂ) * iD (z - u) (unitV i) n m).re
  have hr : rY (z - u) 0 0 = 1 := by simp [rY, sR_zero, eS, cN]
  unfold directFieldTerm
  rw [if_neg hz']
  have e : (∑ n ∈ range (0 + 1), ∑ m ∈ Icc (-(n : ℤ)) n, (1 : ℂ) * iD (z - u) (unitV i) n m) = ((-(z i - u i) / len3 (z - u) ^ 3 : ℝ) : ℂ) := by
    simp [iD, rD_zero, hr, hi]
    ring
  rw [e, Complex.ofReal_re]
  simp only [fieldSpec, forceDenom, hl, sgn]
  simp
  field_simp

theorem harm3 (p : ℕ) (hp0 : 0 < p) (hp : p ≤ 42) : HarmLaws (lin3Force p hp0 hp) where
  m2l := fun a b u y => smul 1 (le3 (m2l3L p (a - b) (uME3 a u)) p b y)
  p2l := fun a u y => smul 1 (le3 (uLE3 a u) p a y)
  m2p := fun a u y h => smul 1 (me3 (uME3 a u) p a y h)
  p2p := fun u y h => single3 u y h
  direct := fun _ _ => rfl

end Hm
end FMM
