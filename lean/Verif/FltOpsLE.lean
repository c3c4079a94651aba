import Verif.FltOps
import Mathlib.Analysis.Calculus.Deriv.Add
import Mathlib.Analysis.Calculus.Deriv.Pow

/-!
# Rounding errors of the local operations

Error bounds for the floating-point constructors of local expansions (sources, converted multipole expansions, shifted
parents) and for their evaluation.
-/

namespace FMM
namespace Fl
open Finset
variable {F : Flt} {u : ℝ}

/-- The computed expansion `e` of order `p` about `c` approximates the local expansion with coefficients `b`, with `n`
rounding errors; the majorants of the coefficients sum up to at most `Mj` at radius `R`, the derivative of the majorant to
at most `Dj`.  Of the constant coefficient only the real part is approximated (the imaginary part is a sum of branches of
the logarithm). -/
structure AppL (u : ℝ) (n : ℕ) (e : Exp2) (c : ℂ) (p : ℕ) (b : ℕ → ℂ) (R Mj Dj : ℝ) : Prop where
  order : e.order = p
  center : e.center = c
  size : e.coeffs.size = p + 1
  maj : ∃ N : ℕ → ℝ, ApR u n (N 0) (e.coeffs.val 0) (b 0) ∧
    (∀ k, 0 < k → k ≤ p → Ap u n (N k) (e.coeffs.val k) (b k)) ∧
    ∑ k ∈ range (p + 1), N k * R ^ k ≤ Mj ∧ ∑ i ∈ range p, ((i + 1 : ℕ) : ℝ) * N (i + 1) * R ^ i ≤ Dj

theorem AppL.rd {n : ℕ} {e : Exp2} {c : ℂ} {p : ℕ} {b : ℕ → ℂ} {R Mj Dj : ℝ} (h : AppL u n e c p b R Mj Dj) {k : ℕ}
    (hk : k ≤ p) : e.coeffs.rd k = .ok (e.coeffs.val k) := Arr.rd_ok _ (by rw [h.size]; omega)

theorem AppL.mono (hu : 0 ≤ u) {n m : ℕ} {e : Exp2} {c : ℂ} {p : ℕ} {b : ℕ → ℂ} {R Mj Dj Mj' Dj' : ℝ}
    (h : AppL u n e c p b R Mj Dj) (hn : n ≤ m) (hM : Mj ≤ Mj') (hD : Dj ≤ Dj') : AppL u m e c p b R Mj' Dj' := by
  obtain ⟨N, h0, h1, h2, h3⟩ := h.maj
  exact ⟨h.order, h.center, h.size, N, h0.mono hu hn le_rfl, fun k hk hkp => (h1 k hk hkp).mono hu hn le_rfl,
    h2.trans hM, h3.trans hD⟩

theorem AppL.congr {n : ℕ} {e : Exp2} {c : ℂ} {p : ℕ} {b b' : ℕ → ℂ} {R Mj Dj : ℝ} (h : AppL u n e c p b R Mj Dj)
    (hb : ∀ k ≤ p, b k = b' k) : AppL u n e c p b' R Mj Dj := by
  obtain ⟨N, h0, h1, h2, h3⟩ := h.maj
  exact ⟨h.order, h.center, h.size, N, by rw [← hb 0 (by omega)]; exact h0,
    fun k hk hkp => by rw [← hb k hkp]; exact h1 k hk hkp, h2, h3⟩

theorem AppL.zero (hu : 0 ≤ u) (c : ℂ) (p : ℕ) (R : ℝ) : AppL u 0 ⟨p, c, Arr.new (p + 1)⟩ c p (fun _ => 0) R 0 0 :=
  ⟨rfl, rfl, rfl, fun _ => 0, ApR.zero le_rfl hu, fun _ _ _ => Ap.zero le_rfl hu, by simp, by simp⟩

/-- `operator+=`. -/
theorem addEq_ap (hF : F.Ok u) {n m k : ℕ} {e f : Exp2} {c : ℂ} {p : ℕ} {a b : ℕ → ℂ} {R M D M' D' : ℝ}
    (he : AppL u n e c p a R M D) (hf : AppL u m f c p b R M' D') (hn : n + 1 ≤ k) (hm : m + 1 ≤ k) :
    ∃ g, addEq F e f = .ok g ∧ AppL u k g c p (fun k => a k + b k) R (M + M') (D + D') := by
  refine ⟨{ e with coeffs := ⟨e.coeffs.size, fun i =>
    if i < e.coeffs.size then F.cadd (e.coeffs.val i) (f.coeffs.val i) else e.coeffs.val i⟩ }, ?_, ?_⟩
  · unfold addEq
    rw [if_neg]
    rw [he.size, hf.size, he.center, hf.center]; simp
  · obtain ⟨N, h0, h1, h2, h3⟩ := he.maj
    obtain ⟨N', h0', h1', h2', h3'⟩ := hf.maj
    refine ⟨he.order, he.center, he.size, fun k => N k + N' k, ?_, fun k hk hkp => ?_, ?_, ?_⟩
    · simp only; rw [if_pos (by rw [he.size]; omega)]; exact hF.caddR' h0 h0' hn hm
    · simp only; rw [if_pos (by rw [he.size]; omega)]; exact hF.cadd' (h1 k hk hkp) (h1' k hk hkp) hn hm
    · simp only [add_mul, sum_add_distrib]; exact add_le_add h2 h2'
    · simp only [add_mul, mul_add, sum_add_distrib]; exact add_le_add h3 h3'

/-! ## Local expansions of sources -/

theorem leAddSource_ok (F : Flt) (p : ℕ) (c : ℂ) (arr : Arr ℂ) (hs : arr.size = p + 1) (s : Source 2)
    (hne : F.csub (toC s.pos) c ≠ 0) :
    ∃ arr', leAddSource F p c arr s = .ok arr' ∧ arr'.size = p + 1 ∧
      arr'.val 0 = F.cadd (arr.val 0) (F.rsc s.q (F.log (-(F.csub (toC s.pos) c)))) ∧
      ∀ k, 0 < k → k ≤ p → arr'.val k = F.csub (arr.val k)
        (F.rsc s.q (dv F (F.csub (toC s.pos) c) (F.div 1 (F.csub (toC s.pos) c)) (k - 1))) := by
  refine ⟨⟨p + 1, fun k => if 1 ≤ k ∧ k < 1 + p then F.csub (arr.val k)
        (F.rsc s.q (dv F (F.csub (toC s.pos) c) (F.div 1 (F.csub (toC s.pos) c)) (k - 1)))
        else Function.update arr.val 0 (F.cadd (arr.val 0) (F.rsc s.q (F.log (-(F.csub (toC s.pos) c))))) k⟩,
      ?_, rfl, ?_, fun k h0 hk => ?_⟩
  · unfold leAddSource
    simp only
    rw [if_neg hne, Arr.rd_ok _ (by omega), ok_bind, Arr.wr_ok _ (by omega), ok_bind]
    rw [loopM_rmw p 1 _ (fun i y a => F.csub a (F.rsc s.q y))
      (dv F (F.csub (toC s.pos) c) (F.div 1 (F.csub (toC s.pos) c)))
      (F.div 1 (F.csub (toC s.pos) c)) rfl _ (by simp only; omega) ?_]
    · simp only [ok_bind, Except.ok.injEq]
      refine Arr.ext' hs fun k => ?_
      simp only
      by_cases h : 1 ≤ k ∧ k < 1 + p
      · rw [if_pos h, if_pos h, Function.update_of_ne (by omega)]
      · rw [if_neg h, if_neg h]
    · intro i hi c' hc'
      simp only at hc'
      rw [Arr.rd_ok _ (by simp only; omega), ok_bind, Arr.wr_ok _ (by simp only; omega), ok_bind]
      rfl
  · simp
  · simp only; rw [if_pos (by omega)]

theorem leFold_ap (hF : F.Ok u) (p : ℕ) (c : ℂ) {ζ Λ : ℝ} (S : List (Source 2))
    (hS : ∀ s ∈ S, toC s.pos - c ≠ 0 ∧ ‖toC s.pos - c‖⁻¹ ≤ ζ ∧ |Real.log ‖toC s.pos - c‖| ≤ Λ) :
    ∀ (arr : Arr ℂ) (a : ℕ → ℂ) (j : ℕ) (A : ℝ), arr.size = p + 1 →
      ApR u (3 * p + 4 + j) (A * (Λ + Real.pi)) (arr.val 0) (a 0) →
      (∀ k, 0 < k → k ≤ p → Ap u (3 * p + 4 + j) (A * ζ ^ k) (arr.val k) (a k)) →
      ∃ arr', S.foldlM (leAddSource F p c) arr = .ok arr' ∧ arr'.size = p + 1 ∧
        ApR u (3 * p + 4 + (j + S.length)) ((A + totalStrength S) * (Λ + Real.pi)) (arr'.val 0)
          (a 0 + (S.map fun s => (s.q : ℂ) * Complex.log (-(toC s.pos - c))).sum) ∧
        ∀ k, 0 < k → k ≤ p → Ap u (3 * p + 4 + (j + S.length)) ((A + totalStrength S) * ζ ^ k) (arr'.val k)
          (a k - (S.map fun s => (s.q : ℂ) * (toC s.pos - c)⁻¹ ^ k).sum) := by
  induction S with
  | nil =>
    intro arr a j A hs h0 h
    exact ⟨arr, rfl, hs, by simpa [totalStrength_eq] using h0, fun k hk hkp => by
      simpa [totalStrength_eq] using h k hk hkp⟩
  | cons s S ih =>
    intro arr a j A hs h0 h
    obtain ⟨hs0, hs1, hs2⟩ := hS s (by simp)
    obtain ⟨b, hb1, hb2, hb3, hb4⟩ := leAddSource_ok F p c arr hs s (hF.csub_ne hs0)
    have hq : Ap u 0 |s.q| s.q s.q := Ap.refl (by rw [Real.norm_eq_abs])
    have hlog := hF.rscR hq (hF.logDiff (w' := -(F.csub (toC s.pos) c)) (w := -(toC s.pos - c)) (neg_ne_zero.mpr hs0)
      (by
        rw [norm_neg, ← neg_sub', norm_neg]
        exact hF.csub_err _ _) (Λ := Λ) (by rwa [norm_neg]))
    obtain ⟨arr', h1, h2, h3, h4⟩ := ih (fun t ht => hS t (by simp [ht])) b
      (fun k => if k = 0 then a 0 + (s.q : ℂ) * Complex.log (-(toC s.pos - c))
        else a k - (s.q : ℂ) * (toC s.pos - c)⁻¹ ^ k) (j + 1) (A + |s.q|) hb2
      (by
        rw [hb3, if_pos rfl, add_mul]
        exact hF.caddR' h0 hlog (by omega) (by omega)) (fun k hk0 hk => by
        rw [hb4 k hk0 hk, if_neg (by omega), add_mul]
        have hp := hF.rsc hq (dv_ap hF hs0 hs1 (hF.inv _ _ hs0 hs1) (k - 1))
        rw [← pow_succ', ← pow_succ', Nat.sub_add_cancel hk0] at hp
        exact hF.csub' (h k hk0 hk) hp (by omega) (by omega))
    refine ⟨arr', by rw [List.foldlM_cons, hb1, ok_bind, h1], h2, ?_, fun k hk0 hk => ?_⟩
    · simp only [if_true] at h3
      rw [totalStrength_cons, List.length_cons, List.map_cons, List.sum_cons, ← add_assoc A, ← add_assoc (a 0)]
      exact h3.mono hF.nonneg (by omega) le_rfl
    · have := h4 k hk0 hk
      rw [if_neg (by omega)] at this
      rw [totalStrength_cons, List.length_cons, List.map_cons, List.sum_cons, ← add_assoc A, ← sub_sub]
      exact this.mono hF.nonneg (by omega) le_rfl

theorem sum_geom_le {x : ℝ} (h0 : 0 ≤ x) (h1 : x < 1) (p : ℕ) : ∑ i ∈ range p, x ^ (i + 1) ≤ x / (1 - x) := by
  rw [le_div_iff₀ (by linarith)]
  induction p with
  | zero => simpa using h0
  | succ p ih =>
    have e : (∑ i ∈ range p, x ^ (i + 1)) * (1 - x) = x - x ^ (p + 1) := by
      clear ih
      induction p with
      | zero => simp
      | succ p ih => rw [sum_range_succ, add_mul, ih]; ring
    rw [sum_range_succ, add_mul, e]
    have : 0 ≤ x ^ (p + 1) * x := by positivity
    nlinarith

theorem sum_geom_deriv_le {x : ℝ} (h0 : 0 ≤ x) (h1 : x < 1) (p : ℕ) :
    ∑ i ∈ range p, ((i + 1 : ℕ) : ℝ) * x ^ i ≤ 1 / (1 - x) ^ 2 := by
  have h2 : 0 < (1 - x) ^ 2 := by have : 0 < 1 - x := by linarith
                                  positivity
  rw [le_div_iff₀ h2]
  have e : (∑ i ∈ range p, ((i + 1 : ℕ) : ℝ) * x ^ i) * (1 - x) ^ 2
      = 1 - x ^ p - p * x ^ p * (1 - x) := by
    induction p with
    | zero => simp
    | succ p ih => rw [sum_range_succ, add_mul, ih]; push_cast; ring
  rw [e]
  have h3 : 0 ≤ x ^ p := by positivity
  have h4 : 0 ≤ p * x ^ p * (1 - x) := mul_nonneg (by positivity) (by linarith)
  linarith

/-- Local expansion of sources: `|S| + 3 p + 5` roundings. -/
theorem leOfSources_ap (hF : F.Ok u) (bt : BinomialTable) (hbt : bt.Good) (center : Vec 2) (p : ℕ) (hp : p ≤ 1029)
    {R ζ Λ : ℝ} (hR : 0 ≤ R) (hζ : 0 ≤ ζ) (hθ : R * ζ < 1) (S : List (Source 2))
    (hS : ∀ s ∈ S, toC s.pos - toC center ≠ 0 ∧ ‖toC s.pos - toC center‖⁻¹ ≤ ζ ∧
      |Real.log ‖toC s.pos - toC center‖| ≤ Λ) :
    ∃ bt' e, leOfSources F bt center p S = .ok (bt', e) ∧ bt'.Good ∧ bt'.maxOrder = max bt.maxOrder p ∧
      (p ≤ bt.maxOrder → bt' = bt) ∧
      AppL u (3 * p + S.length + 5) e (toC center) p (leCoeff (toC center) S) R
        (totalStrength S * (Λ + Real.pi + R * ζ / (1 - R * ζ))) (totalStrength S * (ζ / (1 - R * ζ) ^ 2)) := by
  obtain ⟨bt', e, h1, h2, h3, h4, rfl⟩ := Exp2.new_ok bt hbt center p hp
  have hu := hF.nonneg
  obtain ⟨arr', h5, h6, h7, h8⟩ := leFold_ap hF p (toC center) S hS (Arr.new (p + 1)) (fun _ => 0) 0 0 rfl
    (by simpa [Arr.new] using ApR.zero (le_refl (0 : ℝ)) hu)
    (fun k _ _ => by simpa [Arr.new] using Ap.zero (E := ℂ) (le_refl (0 : ℝ)) hu)
  simp only [zero_add, zero_sub] at h7 h8
  set A := totalStrength S with hA
  have hA0 : 0 ≤ A := totalStrength_nonneg S
  refine ⟨bt', ⟨p, toC center, ⟨p + 1, fun k => if 0 < k ∧ k ≤ p then F.cdr (arr'.val k) k else arr'.val k⟩⟩,
    ?_, h2, h3, h4, rfl, rfl, rfl, fun k => if k = 0 then A * (Λ + Real.pi) else A * ζ ^ k, ?_, ?_, ?_, ?_⟩
  · unfold leOfSources
    rw [h1, ok_bind]
    simp only
    rw [h5, ok_bind, divByIndex_ok F p arr' h6, ok_bind]
  · simp only
    unfold leCoeff
    simp only [if_true, lt_irrefl, false_and, if_false]
    exact h7.mono hu (by omega) le_rfl
  · intro k hk0 hk
    simp only
    unfold leCoeff
    rw [if_neg (by omega : ¬ k = 0), if_pos ⟨hk0, hk⟩, if_neg (by omega : ¬ k = 0)]
    have h9 := h8 k hk0 hk
    have hk1 : (1 : ℝ) ≤ k := by exact_mod_cast hk0
    have := hF.cdr h9 (r := (k : ℝ)) (by linarith)
    rw [Complex.ofReal_natCast] at this
    exact this.mono hu (by omega) (div_le_self h9.nonneg hk1)
  · rw [sum_range_succ']
    simp only [Nat.add_one_ne_zero, if_false, if_true, pow_zero, mul_one]
    have : ∑ k ∈ range p, A * ζ ^ (k + 1) * R ^ (k + 1) = A * ∑ k ∈ range p, (R * ζ) ^ (k + 1) := by
      rw [mul_sum]; exact sum_congr rfl fun k _ => by rw [mul_pow]; ring
    rw [this]
    have := mul_le_mul_of_nonneg_left (sum_geom_le (mul_nonneg hR hζ) hθ p) hA0
    linarith
  · simp only [Nat.add_one_ne_zero, if_false]
    have : ∑ i ∈ range p, ((i + 1 : ℕ) : ℝ) * (A * ζ ^ (i + 1)) * R ^ i
        = A * (ζ * ∑ i ∈ range p, ((i + 1 : ℕ) : ℝ) * (R * ζ) ^ i) := by
      rw [mul_sum, mul_sum]; exact sum_congr rfl fun k _ => by rw [mul_pow, pow_succ]; ring
    rw [this]
    have := mul_le_mul_of_nonneg_left (sum_geom_deriv_le (mul_nonneg hR hζ) hθ p) hζ
    rw [mul_one_div] at this
    exact mul_le_mul_of_nonneg_left this hA0

/-! ## Multipole-to-local -/

/-- Majorants of the coefficients of a converted expansion. -/
noncomputable def m2lMaj (M p : ℕ) (A R ζ Λ : ℝ) (l : ℕ) : ℝ :=
  if l = 0 then mePotMaj A R ζ Λ p
  else (A / l + ∑ i ∈ range (p - 1), A * R ^ (i + 1) * ζ ^ (i + 1) * (binVal M (l + i) i : ℝ)) * ζ ^ l

theorem altSign_ap (k : ℕ) : Ap u 0 1 (Exp2.altSign k) (Exp2.altSign k) := Ap.refl (by
  unfold Exp2.altSign; split_ifs <;> simp)

theorem m2l_ap (hF : F.Ok u) (bt : BinomialTable) (hbt : bt.Good) {n : ℕ} {e : Exp2} {c : ℂ} {p : ℕ} {a : ℕ → ℂ}
    {A R : ℝ} (he : AppM u n e c p a A R) (hp : p ≤ bt.maxOrder) (c' : ℂ) (hc : c - c' ≠ 0) {ζ Λ : ℝ}
    (hζ : ‖c - c'‖⁻¹ ≤ ζ) (hΛ : |Real.log ‖c - c'‖| ≤ Λ) :
    ∃ arr, m2l F bt p c' e = .ok arr ∧ arr.size = p + 1 ∧
      ApR u (n + 9 * p + 5) (m2lMaj bt.maxOrder p A R ζ Λ 0) (arr.val 0) (Exp2.m2lCoeff bt.maxOrder p a (c - c') 0) ∧
      ∀ l, 0 < l → l ≤ p → Ap u (n + 9 * p + 5) (m2lMaj bt.maxOrder p A R ζ Λ l) (arr.val l)
        (Exp2.m2lCoeff bt.maxOrder p a (c - c') l) := by
  have hu := hF.nonneg
  set z' := F.csub c c' with hz'
  obtain ⟨inv, hinv, hisz, hiv⟩ := powTable_ok F (F.div 1 z') p
  have hpa : ∀ k ≤ p, Ap u (4 * k) (ζ ^ k) (inv.val k) ((c - c')⁻¹ ^ k) := fun k hk => by
    have := pw_ap hF (hF.inv c c' hc hζ) (Ap.refl (u := u) (le_of_eq (norm_one (α := ℂ)))) k
    rw [hiv k hk]
    simpa using this
  have hz0 : z' ≠ 0 := hF.csub_ne hc
  have ha' : ((a 0).re : ℂ) = a 0 := Complex.ext (by simp) (by simp [he.im'])
  have hv' : ((e.coeffs.val 0).re : ℂ) = e.coeffs.val 0 := Complex.ext (by simp) (by simp [he.im])
  have hA0 : Ap u n A (e.coeffs.val 0) (a 0) := by simpa using he.ap 0 (by omega)
  have hlog : ApR u (n + 4) (A * (Λ + Real.pi)) (F.mul (e.coeffs.val 0) (F.log (-z'))) (a 0 * Complex.log (-(c - c'))) := by
    have h1 := hF.logDiff (w' := -z') (w := -(c - c')) (neg_ne_zero.mpr hc) (by
      rw [norm_neg, ← neg_sub', norm_neg]
      exact hF.csub_err _ _) (Λ := Λ) (by rwa [norm_neg])
    have h2 := h1.mul_real hu hA0.re
    rw [ha', hv'] at h2
    exact (h2.round hu (hF.mul _ _)).mono hu (by omega) le_rfl
  -- the terms
  have hterm : ∀ k, 0 < k → k ≤ p → Ap u (n + 4 * k + 2) (A * R ^ k * ζ ^ k)
      (F.mul (F.rsc (Exp2.altSign k) (e.coeffs.val k)) (inv.val k)) ((-1) ^ k * a k * (c - c')⁻¹ ^ k) := by
    intro k hk0 hk
    have := hF.cmul (hF.rsc (altSign_ap k) (he.ap k hk)) (hpa k hk)
    rw [Exp2.altSign_eq, one_mul] at this
    exact this.mono hu (by omega) le_rfl
  obtain ⟨b0, hb0, hb0'⟩ := loopM_invariant (fun i (b : ℂ) => ApR u (n + 4 * p + 4 + i)
      (A * (Λ + Real.pi) + ∑ m ∈ range i, A * R ^ (m + 1) * ζ ^ (m + 1)) b
      (a 0 * Complex.log (-(c - c')) + ∑ m ∈ range i, (-1) ^ (m + 1) * a (m + 1) * (c - c')⁻¹ ^ (m + 1)))
    (fun i b => (do
      let k := i + 1
      let ak ← e.coeffs.rd k
      let p ← inv.rd k
      .ok (F.cadd b (F.mul (F.rsc (Exp2.altSign k) ak) p)) : Outcome ℂ)) (F.mul (e.coeffs.val 0) (F.log (-z'))) p
    (by simpa using hlog.mono hu (by omega) le_rfl)
    (by
      intro i hi b hb
      simp only
      refine ⟨_, by rw [he.rd (by omega), ok_bind, Arr.rd_ok _ (by omega), ok_bind], ?_⟩
      rw [sum_range_succ, sum_range_succ, ← add_assoc (A * _), ← add_assoc (a 0 * _)]
      exact hF.caddR' hb (hterm (i + 1) (by omega) (by omega)).toR (by omega) (by omega))
  obtain ⟨arr, hr, hrs, hr0, hrl⟩ := loopM_invariant (fun i (t : Arr ℂ) => t.size = p + 1 ∧ t.val 0 = b0 ∧
      ∀ l, 0 < l → l ≤ i → Ap u (n + 9 * p + 5) (m2lMaj bt.maxOrder p A R ζ Λ l) (t.val l)
        (Exp2.m2lCoeff bt.maxOrder p a (c - c') l))
    (fun i t => (do
      let l := i + 1
      let bl ← loopM (p - 1) (fun i' b => do
        let k := i' + 1
        let ak ← e.coeffs.rd k
        let p ← inv.rd k
        let bin ← bt.get (l + k - 1) (k - 1)
        .ok (F.cadd b (F.rsc (F.rnd bin) (F.mul (F.rsc (Exp2.altSign k) ak) p))))
        (F.cdr (-(e.coeffs.val 0)) ((l : ℕ) : ℝ))
      let p ← inv.rd l
      t.wr l (F.mul bl p) : Outcome (Arr ℂ))) ⟨p + 1, Function.update (fun _ => 0) 0 b0⟩ p
    ⟨rfl, by simp, fun l h0 h => absurd h (by omega)⟩
    (by
      rintro i hi t ⟨ht, ht0, htl⟩
      have hl0 : (0 : ℝ) < ((i + 1 : ℕ) : ℝ) := by positivity
      obtain ⟨bl, hbl, hbl'⟩ := loopM_invariant (fun i' (b : ℂ) => Ap u (n + 4 * p + 4 + i')
          (A / ((i + 1 : ℕ) : ℝ) + ∑ m ∈ range i', A * R ^ (m + 1) * ζ ^ (m + 1)
            * (binVal bt.maxOrder (i + 1 + m) m : ℝ)) b
          (-a 0 / ((i + 1 : ℕ) : ℂ) + ∑ m ∈ range i', (-1) ^ (m + 1) * a (m + 1) * (c - c')⁻¹ ^ (m + 1)
            * (binVal bt.maxOrder (i + 1 + m) m : ℂ)))
        (fun i' b => (do
          let k := i' + 1
          let ak ← e.coeffs.rd k
          let p ← inv.rd k
          let bin ← bt.get (i + 1 + k - 1) (k - 1)
          .ok (F.cadd b (F.rsc (F.rnd bin) (F.mul (F.rsc (Exp2.altSign k) ak) p))) : Outcome ℂ))
        (F.cdr (-(e.coeffs.val 0)) ((i + 1 : ℕ) : ℝ)) (p - 1)
        (by
          have := hF.cdr hA0.neg hl0
          rw [Complex.ofReal_natCast] at this
          simpa using this.mono hu (by omega : n + 1 ≤ n + 4 * p + 4) le_rfl)
        (by
          intro i' hi' b hb
          simp only
          refine ⟨_, by rw [he.rd (by omega), ok_bind, Arr.rd_ok _ (by omega), ok_bind,
            BinomialTable.get_ok hbt (by omega) (by omega) (by omega), ok_bind], ?_⟩
          have e1 : i + 1 + (i' + 1) - 1 = i + 1 + i' := by omega
          rw [e1, Nat.add_sub_cancel, sum_range_succ, sum_range_succ, ← add_assoc (A / _), ← add_assoc (-a 0 / _)]
          have hb' : Ap u 1 (binVal bt.maxOrder (i + 1 + i') i' : ℝ) (F.rnd (binVal bt.maxOrder (i + 1 + i') i' : ℝ))
              (binVal bt.maxOrder (i + 1 + i') i' : ℝ) := hF.rrnd (Ap.refl (by
                rw [Real.norm_eq_abs, abs_of_nonneg (by positivity)]))
          have h2 := hF.rsc hb' (hterm (i' + 1) (by omega) (by omega))
          rw [Complex.ofReal_natCast, mul_comm (binVal _ _ _ : ℝ), mul_comm (binVal _ _ _ : ℂ)] at h2
          exact hF.cadd' hb h2 (by omega) (by omega))
      have hbl2 : Ap u (n + 9 * p + 5) (m2lMaj bt.maxOrder p A R ζ Λ (i + 1)) (F.mul bl (inv.val (i + 1)))
          (Exp2.m2lCoeff bt.maxOrder p a (c - c') (i + 1)) := by
        unfold m2lMaj Exp2.m2lCoeff
        rw [if_neg (by omega), if_neg (by omega)]
        exact (hF.cmul hbl' (hpa (i + 1) (by omega))).mono hu (by omega) le_rfl
      refine ⟨⟨t.size, Function.update t.val (i + 1) (F.mul bl (inv.val (i + 1)))⟩, ?_, ht, ?_, fun l h0 hl => ?_⟩
      · simp only
        simp only at hbl
        rw [hbl, ok_bind, Arr.rd_ok _ (by omega), ok_bind, Arr.wr_ok _ (by omega)]
      · simp only; rw [Function.update_of_ne (by omega), ht0]
      · simp only
        rcases Nat.lt_or_ge i l with h | h
        · obtain rfl : l = i + 1 := by omega
          rw [Function.update_self]; exact hbl2
        · rw [Function.update_of_ne (by omega)]; exact htl l h0 h)
  refine ⟨arr, ?_, hrs, ?_, hrl⟩
  · unfold m2l
    simp only
    rw [he.center, ← hz', if_neg hz0, hinv, ok_bind, he.rd (by omega), ok_bind]
    simp only at hb0
    rw [hb0, ok_bind, Arr.wr_ok _ (by simp [Arr.new]), ok_bind]
    exact hr
  · rw [hr0]
    unfold m2lMaj mePotMaj Exp2.m2lCoeff
    rw [if_pos rfl, if_pos rfl]
    exact hb0'.mono hu (by omega) le_rfl

/-- Bound for the majorants of a converted expansion; `ρ = 2 R ζ`. -/
theorem m2lMaj_le (M p : ℕ) {A R ζ Λ : ℝ} (hA : 0 ≤ A) (hR : 0 ≤ R) (hζ : 0 ≤ ζ) (hρ : 2 * (R * ζ) < 1) {l : ℕ} (hl : 0 < l) :
    m2lMaj M p A R ζ Λ l ≤ A * (1 / (1 - 2 * (R * ζ))) / 2 * (2 * ζ) ^ l := by
  obtain ⟨m, rfl⟩ : ∃ m, l = m + 1 := ⟨l - 1, by omega⟩
  unfold m2lMaj
  rw [if_neg (by omega)]
  set ρ := 2 * (R * ζ) with hρ'
  have hρ0 : 0 ≤ ρ := by positivity
  have h1 : A / ((m + 1 : ℕ) : ℝ) ≤ A * 2 ^ m := by
    refine (div_le_self hA (by exact_mod_cast Nat.succ_le_succ (Nat.zero_le m))).trans ?_
    exact le_mul_of_one_le_right hA (one_le_pow₀ (by norm_num))
  have h2 : ∑ i ∈ range (p - 1), A * R ^ (i + 1) * ζ ^ (i + 1) * (binVal M (m + 1 + i) i : ℝ)
      ≤ A * 2 ^ m * (ρ / (1 - ρ)) := by
    refine le_trans (sum_le_sum fun i _ => ?_) (le_of_eq_of_le (mul_sum (range (p - 1)) (fun i => ρ ^ (i + 1))
      (A * 2 ^ m)).symm (mul_le_mul_of_nonneg_left (sum_geom_le hρ0 hρ (p - 1)) (by positivity)))
    have h3 : (binVal M (m + 1 + i) i : ℝ) ≤ 2 ^ (m + 1 + i) := by
      unfold binVal
      split_ifs
      · exact_mod_cast Nat.choose_le_two_pow _ _
      · simp
    have e : A * 2 ^ m * ρ ^ (i + 1) = A * R ^ (i + 1) * ζ ^ (i + 1) * 2 ^ (m + 1 + i) := by
      rw [hρ', mul_pow, mul_pow, show m + 1 + i = m + (i + 1) by omega, pow_add]; ring
    rw [e]
    exact mul_le_mul_of_nonneg_left h3 (by positivity)
  have e : A * (1 / (1 - ρ)) / 2 * (2 * ζ) ^ (m + 1) = (A * 2 ^ m + A * 2 ^ m * (ρ / (1 - ρ))) * ζ ^ (m + 1) := by
    have : 1 - ρ ≠ 0 := by linarith
    rw [mul_pow, pow_succ (2 : ℝ)]
    field_simp
    ring
  rw [e]
  exact mul_le_mul_of_nonneg_right (add_le_add h1 h2) (by positivity)

/-- Rounding constants of the conversion with `ρ = 2 R ζ`. -/
noncomputable def m2lC (ρ Λ : ℝ) : ℝ := Λ + Real.pi + ρ / (1 - ρ) + ρ / (1 - ρ) ^ 2 / 2

theorem m2lMaj_sum (M p : ℕ) {A R ζ Λ : ℝ} (hA : 0 ≤ A) (hR : 0 ≤ R) (hζ : 0 ≤ ζ) (hρ : 2 * (R * ζ) < 1) :
    ∑ l ∈ range (p + 1), m2lMaj M p A R ζ Λ l * R ^ l ≤ A * m2lC (2 * (R * ζ)) Λ := by
  set ρ := 2 * (R * ζ) with hρ'
  have hρ0 : 0 ≤ ρ := by positivity
  have hg := sum_geom_le hρ0 hρ p
  have h1 : 0 < 1 - ρ := by linarith
  rw [sum_range_succ', pow_zero, mul_one]
  have h2 : m2lMaj M p A R ζ Λ 0 ≤ A * (Λ + Real.pi + ρ / (1 - ρ)) := by
    unfold m2lMaj mePotMaj
    rw [if_pos rfl, mul_add A (Λ + Real.pi)]
    refine add_le_add le_rfl (le_trans (sum_le_sum fun i _ => ?_) (le_of_eq_of_le (mul_sum (range p)
      (fun i => ρ ^ (i + 1)) A).symm (mul_le_mul_of_nonneg_left hg hA)))
    rw [mul_assoc, ← mul_pow]
    have : R * ζ ≤ ρ := by have : 0 ≤ R * ζ := by positivity
                           linarith
    have h0 : 0 ≤ R * ζ := by positivity
    gcongr
  have h3 : ∑ k ∈ range p, m2lMaj M p A R ζ Λ (k + 1) * R ^ (k + 1) ≤ A * (ρ / (1 - ρ) ^ 2 / 2) := by
    have h4 : ∀ k ∈ range p, m2lMaj M p A R ζ Λ (k + 1) * R ^ (k + 1) ≤ A * (1 / (1 - ρ)) / 2 * ρ ^ (k + 1) := by
      intro k _
      refine (mul_le_mul_of_nonneg_right (m2lMaj_le M p hA hR hζ hρ (Nat.succ_pos k)) (by positivity)).trans
        (le_of_eq ?_)
      rw [mul_assoc, ← mul_pow]; congr 2; rw [hρ']; ring
    refine (sum_le_sum h4).trans ?_
    rw [← mul_sum]
    refine (mul_le_mul_of_nonneg_left hg (by positivity)).trans (le_of_eq ?_)
    field_simp
  unfold m2lC
  have e : A * (Λ + Real.pi + ρ / (1 - ρ) + ρ / (1 - ρ) ^ 2 / 2) = A * (ρ / (1 - ρ) ^ 2 / 2)
    + A * (Λ + Real.pi + ρ / (1 - ρ)) := by ring
  rw [e]
  exact add_le_add h3 h2

theorem m2lMaj_dsum (M p : ℕ) {A R ζ Λ : ℝ} (hA : 0 ≤ A) (hR : 0 ≤ R) (hζ : 0 ≤ ζ) (hρ : 2 * (R * ζ) < 1) :
    ∑ i ∈ range p, ((i + 1 : ℕ) : ℝ) * m2lMaj M p A R ζ Λ (i + 1) * R ^ i ≤ A * (ζ / (1 - 2 * (R * ζ)) ^ 3) := by
  set ρ := 2 * (R * ζ) with hρ'
  have hρ0 : 0 ≤ ρ := by positivity
  have h1 : 0 < 1 - ρ := by linarith
  have h4 : ∀ k ∈ range p, ((k + 1 : ℕ) : ℝ) * m2lMaj M p A R ζ Λ (k + 1) * R ^ k
      ≤ A * (1 / (1 - ρ)) * ζ * (((k + 1 : ℕ) : ℝ) * ρ ^ k) := by
    intro k _
    have := mul_le_mul_of_nonneg_left (m2lMaj_le M p (Λ := Λ) hA hR hζ hρ (Nat.succ_pos k))
      (by positivity : (0 : ℝ) ≤ ((k + 1 : ℕ) : ℝ))
    refine (mul_le_mul_of_nonneg_right this (by positivity)).trans (le_of_eq ?_)
    rw [hρ', mul_pow 2 ζ, mul_pow 2 (R * ζ), mul_pow, pow_succ, pow_succ]; ring
  refine (sum_le_sum h4).trans ?_
  rw [← mul_sum]
  refine (mul_le_mul_of_nonneg_left (sum_geom_deriv_le hρ0 hρ p) (by positivity)).trans (le_of_eq ?_)
  field_simp

/-- Conversion of one multipole expansion: `9 p + 5` more roundings. -/
theorem leOfMe_ap (hF : F.Ok u) (bt : BinomialTable) (hbt : bt.Good) {n : ℕ} {e : Exp2} {c : ℂ} {p : ℕ} {a : ℕ → ℂ}
    {A R : ℝ} (he : AppM u n e c p a A R) (hp : p ≤ 1029) (hp0 : 0 < p) (center : Vec 2) (hc : c - toC center ≠ 0)
    {ζ Λ : ℝ} (hζ : ‖c - toC center‖⁻¹ ≤ ζ) (hΛ : |Real.log ‖c - toC center‖| ≤ Λ) (hR : 0 ≤ R)
    (hρ : 2 * (R * ζ) < 1) :
    ∃ bt' f, leOfMe F bt center e = .ok (bt', f) ∧ bt'.Good ∧ bt'.maxOrder = max bt.maxOrder p ∧
      (p ≤ bt.maxOrder → bt' = bt) ∧
      AppL u (n + 9 * p + 5) f (toC center) p (Exp2.m2lCoeff bt'.maxOrder p a (c - toC center)) R
        (A * m2lC (2 * (R * ζ)) Λ) (A * (ζ / (1 - 2 * (R * ζ)) ^ 3)) := by
  obtain ⟨bt', f, h1, h2, h3, h4, rfl⟩ := Exp2.new_ok bt hbt center p hp
  obtain ⟨arr, h5, h6, h7, h8⟩ := m2l_ap hF bt' h2 he (by omega) (toC center) hc hζ hΛ
  have hA : 0 ≤ A := by simpa using (he.ap 0 (by omega)).nonneg
  have hζ0 : 0 ≤ ζ := (inv_nonneg.mpr (norm_nonneg _)).trans hζ
  refine ⟨bt', ⟨p, toC center, arr⟩, ?_, h2, h3, h4, rfl, rfl, h6, m2lMaj bt'.maxOrder p A R ζ Λ, h7, h8,
    m2lMaj_sum _ _ hA hR hζ0 hρ, m2lMaj_dsum _ _ hA hR hζ0 hρ⟩
  unfold leOfMe
  rw [he.order, h1, ok_bind]
  simp only
  rw [if_pos hp0, h5, ok_bind]

/-- Conversion of a list of multipole expansions. -/
theorem leOfMes_ap (hF : F.Ok u) (bt : BinomialTable) (hbt : bt.Good) (center : Vec 2) (p : ℕ) (hp : p ≤ 1029) (hp0 : 0 < p)
    {n : ℕ} {R ζ Λ : ℝ} (hR : 0 ≤ R) (hρ : 2 * (R * ζ) < 1)
    (L : List (Exp2 × ℂ × (ℕ → ℂ) × ℝ)) (hne : L ≠ [])
    (hL : ∀ x ∈ L, AppM u n x.1 x.2.1 p x.2.2.1 x.2.2.2 R ∧ x.2.1 - toC center ≠ 0 ∧ ‖x.2.1 - toC center‖⁻¹ ≤ ζ ∧
      |Real.log ‖x.2.1 - toC center‖| ≤ Λ) :
    ∃ bt' e, leOfMes F bt center (L.map (·.1)) = .ok (bt', e) ∧ bt'.Good ∧
      bt'.maxOrder = max bt.maxOrder p ∧ (p ≤ bt.maxOrder → bt' = bt) ∧
      AppL u (n + 9 * p + 5 + L.length) e (toC center) p (fun k =>
        (L.map fun x => Exp2.m2lCoeff bt'.maxOrder p x.2.2.1 (x.2.1 - toC center) k).sum) R
        ((L.map (·.2.2.2)).sum * m2lC (2 * (R * ζ)) Λ) ((L.map (·.2.2.2)).sum * (ζ / (1 - 2 * (R * ζ)) ^ 3)) := by
  obtain ⟨bt', e, h1, h2, h3, h4, rfl⟩ := Exp2.new_ok bt hbt center p hp
  have hfold : ∀ (L : List (Exp2 × ℂ × (ℕ → ℂ) × ℝ)) (e : Exp2) (a : ℕ → ℂ) (j : ℕ) (A : ℝ),
      AppL u (n + 9 * p + 5 + j) e (toC center) p a R (A * m2lC (2 * (R * ζ)) Λ) (A * (ζ / (1 - 2 * (R * ζ)) ^ 3)) →
      (∀ x ∈ L, AppM u n x.1 x.2.1 p x.2.2.1 x.2.2.2 R ∧ x.2.1 - toC center ≠ 0 ∧ ‖x.2.1 - toC center‖⁻¹ ≤ ζ ∧
        |Real.log ‖x.2.1 - toC center‖| ≤ Λ) →
      ∃ e', (L.map (·.1)).foldlM (fun (s : BinomialTable × Exp2) me => do
        let (bt, le) ← leOfMe F s.1 center me
        let e ← addEq F s.2 le
        .ok (bt, e)) (bt', e) = .ok (bt', e') ∧ AppL u (n + 9 * p + 5 + (j + L.length)) e' (toC center) p (fun k => a k +
          (L.map fun x => Exp2.m2lCoeff bt'.maxOrder p x.2.2.1 (x.2.1 - toC center) k).sum) R
          ((A + (L.map (·.2.2.2)).sum) * m2lC (2 * (R * ζ)) Λ)
          ((A + (L.map (·.2.2.2)).sum) * (ζ / (1 - 2 * (R * ζ)) ^ 3)) := by
    intro L
    induction L with
    | nil => intro e a j A he _; exact ⟨e, rfl, by simpa using he⟩
    | cons x L ih =>
      intro e a j A he hx
      obtain ⟨hx0, hx1, hx2, hx3⟩ := hx x (by simp)
      obtain ⟨bt2, le, hl1, hl2, hl3, hl4, hl5⟩ := leOfMe_ap hF bt' h2 hx0 hp hp0 center hx1 hx2 hx3 hR hρ
      obtain rfl := hl4 (by omega)
      obtain ⟨g, hg1, hg2⟩ := addEq_ap hF he hl5 (k := n + 9 * p + 5 + (j + 1)) (by omega) (by omega)
      rw [← add_mul, ← add_mul] at hg2
      obtain ⟨e', he1, he2⟩ := ih g _ (j + 1) _ hg2 fun y hy => hx y (by simp [hy])
      refine ⟨e', ?_, (he2.congr fun k _ => ?_).mono hF.nonneg (by simp; omega) (le_of_eq ?_) (le_of_eq ?_)⟩
      · rw [List.map_cons, List.foldlM_cons, hl1, ok_bind]
        simp only
        rw [hg1, ok_bind, ok_bind, he1]
      · simp [add_assoc]
      · simp [add_assoc]
      · simp [add_assoc]
  obtain ⟨e', he1, he2⟩ := hfold L ⟨p, toC center, Arr.new (p + 1)⟩ (fun _ => 0) 0 0
    (by simpa using (AppL.zero hF.nonneg (toC center) p R).mono hF.nonneg (Nat.zero_le (n + 9 * p + 5)) le_rfl le_rfl) hL
  refine ⟨bt', e', ?_, h2, h3, h4, by simpa using he2⟩
  cases L with
  | nil => exact absurd rfl hne
  | cons x L =>
    rw [List.map_cons] at he1 ⊢
    unfold leOfMes
    simp only
    rw [(hL x (by simp)).1.order, h1, ok_bind]
    exact he1

/-! ## Local-to-local -/

/-- One sweep of the Horner scheme. -/
def sweep {A : Type*} [Ring A] (p m : ℕ) (s : A) (t : ℕ → A) (k : ℕ) : A :=
  if m ≤ k ∧ k < p then t k - s * t (k + 1) else t k

theorem horner_step {A : Type*} [CommRing A] (p j : ℕ) (hj : j < p) (s w : A) (t : ℕ → A) :
    ∑ k ∈ range (p - (j + 1)), sweep p (p - j - 1) s t k * (w - s) ^ k
        + (w - s) ^ (p - (j + 1)) * ∑ i ∈ range (j + 1 + 1), sweep p (p - j - 1) s t (p - (j + 1) + i) * w ^ i
      = ∑ k ∈ range (p - j), t k * (w - s) ^ k
        + (w - s) ^ (p - j) * ∑ i ∈ range (j + 1), t (p - j + i) * w ^ i := by
  unfold sweep
  obtain ⟨m, hm⟩ : ∃ m, p - j = m + 1 := ⟨p - j - 1, by omega⟩
  have hm' : p - (j + 1) = m := by omega
  have hm'' : p - j - 1 = m := by omega
  simp only [hm', hm]
  rw [sum_range_succ (fun k => t k * (w - s) ^ k) m, pow_succ (w - s) m, mul_assoc,
    add_assoc (∑ k ∈ range m, t k * (w - s) ^ k)]
  refine congr_arg₂ (· + ·) ?_ ?_
  · refine Finset.sum_congr rfl fun k hk => ?_
    rw [if_neg (by have := mem_range.mp hk; omega)]
  · rw [mul_comm (t m), ← mul_add]
    refine congr_arg₂ (· * ·) rfl ?_
    rw [sum_range_succ _ (j + 1), if_neg (by omega)]
    rw [sum_congr rfl (g := fun i => t (m + i) * w ^ i - s * (t (m + 1 + i) * w ^ i))
      (fun i hi => by
        rw [if_pos (by have := mem_range.mp hi; omega)]
        have : m + i + 1 = m + 1 + i := by ring
        rw [this]; ring)]
    rw [sum_sub_distrib, ← mul_sum, sum_range_succ' (fun i => t (m + i) * w ^ i) j, sub_mul, Finset.mul_sum _ _ w]
    rw [sum_range_succ (fun i => w * (t (m + 1 + i) * w ^ i)) j]
    have e1 : ∑ i ∈ range j, t (m + (i + 1)) * w ^ (i + 1)
        = ∑ i ∈ range j, w * (t (m + 1 + i) * w ^ i) :=
      sum_congr rfl fun i _ => by
        have : m + (i + 1) = m + 1 + i := by ring
        rw [this]; ring
    have e2 : m + (j + 1) = m + 1 + j := by ring
    rw [e1, e2]
    simp only [add_zero, pow_zero, mul_one]
    ring

theorem leShift_inner (F : Flt) (p j : ℕ) (s : ℂ) (c : Arr ℂ) (hs : c.size = p + 1) (hj : j < p) :
    loopM (j + 1) (fun i (c : Arr ℂ) => (do
      let k := p - j - 1 + i
      let a ← c.rd k
      let b ← c.rd (k + 1)
      c.wr k (F.csub a (F.mul s b)) : Outcome (Arr ℂ))) c
    = .ok ⟨p + 1, fun k => if p - j - 1 ≤ k ∧ k < p then F.csub (c.val k) (F.mul s (c.val (k + 1))) else c.val k⟩ := by
  have key : ∀ n ≤ j + 1, loopM n (fun i (c : Arr ℂ) => (do
      let k := p - j - 1 + i
      let a ← c.rd k
      let b ← c.rd (k + 1)
      c.wr k (F.csub a (F.mul s b)) : Outcome (Arr ℂ))) c
      = .ok ⟨p + 1, fun k => if p - j - 1 ≤ k ∧ k < p - j - 1 + n then F.csub (c.val k) (F.mul s (c.val (k + 1)))
        else c.val k⟩ := by
    intro n
    induction n with
    | zero =>
      intro _
      rw [loopM_zero]; congr 1
      refine Arr.ext' hs fun k => ?_
      simp only
      rw [if_neg (by omega)]
    | succ n ih =>
      intro hn
      rw [loopM_succ, ih (by omega), ok_bind']
      simp only
      rw [Arr.rd_ok _ (by simp only; omega), ok_bind, Arr.rd_ok _ (by simp only; omega), ok_bind,
        Arr.wr_ok _ (by simp only; omega)]
      congr 1
      refine Arr.ext' (by rfl) fun k => ?_
      simp only
      rcases eq_or_ne k (p - j - 1 + n) with rfl | hk
      · rw [Function.update_self, if_neg (by omega), if_neg (by omega), if_pos (by omega)]
      · rw [Function.update_of_ne hk]
        by_cases h1 : p - j - 1 ≤ k ∧ k < p - j - 1 + n
        · rw [if_pos h1, if_pos (by omega)]
        · rw [if_neg h1, if_neg (by omega)]
  rw [key (j + 1) le_rfl]
  have : p - j - 1 + (j + 1) = p := by omega
  rw [this]

theorem poly_deriv (N : ℕ → ℝ) (p : ℕ) (w : ℝ) :
    HasDerivAt (fun w => ∑ k ∈ range (p + 1), N k * w ^ k) (∑ i ∈ range p, ((i + 1 : ℕ) : ℝ) * N (i + 1) * w ^ i) w := by
  have h : HasDerivAt (fun w => ∑ k ∈ range (p + 1), N k * w ^ k)
      (∑ k ∈ range (p + 1), N k * ((k : ℝ) * w ^ (k - 1))) w :=
    HasDerivAt.fun_sum fun k _ => (hasDerivAt_pow k w).const_mul (N k)
  rw [sum_range_succ'] at h
  convert h using 1
  simp only [Nat.cast_zero, zero_mul, mul_zero, add_zero, Nat.add_sub_cancel]
  exact sum_congr rfl fun i _ => by ring

/-- Shift of a local expansion: `3 p` more roundings. -/
theorem leShift_ap (hF : F.Ok u) {n : ℕ} {e : Exp2} {c : ℂ} {p : ℕ} {b : ℕ → ℂ} {R r Mj Dj σ : ℝ}
    (he : AppL u n e c p b R Mj Dj) {s' s : ℂ} (hs : Ap u 1 σ s' s) (hr : 0 ≤ r) (hrR : r + σ ≤ R) :
    ∃ (arr : Arr ℂ) (b' : ℕ → ℂ), leShift F e s' = .ok arr ∧ arr.size = p + 1 ∧
      (∀ w, ∑ k ∈ range (p + 1), b' k * w ^ k = ∑ k ∈ range (p + 1), b k * (w - s) ^ k) ∧
      ∃ N : ℕ → ℝ, ApR u (n + 3 * p) (N 0) (arr.val 0) (b' 0) ∧
        (∀ k, 0 < k → k ≤ p → Ap u (n + 3 * p) (N k) (arr.val k) (b' k)) ∧
        ∑ k ∈ range (p + 1), N k * r ^ k ≤ Mj ∧ ∑ i ∈ range p, ((i + 1 : ℕ) : ℝ) * N (i + 1) * r ^ i ≤ Dj := by
  have hu := hF.nonneg
  have hσ := hs.nonneg
  obtain ⟨N0, hN0, hN1, hN2, hN3⟩ := he.maj
  obtain ⟨arr, h1, h2, t, N, h3, h4, h5, h6⟩ := loopM_invariant (fun j (c : Arr ℂ) => c.size = p + 1 ∧
      ∃ (t : ℕ → ℂ) (N : ℕ → ℝ), ApR u (n + 3 * j) (N 0) (c.val 0) (t 0) ∧
        (∀ k, 0 < k → k ≤ p → Ap u (n + 3 * j) (N k) (c.val k) (t k)) ∧
        (∀ w, ∑ k ∈ range (p - j), t k * (w - s) ^ k
          + (w - s) ^ (p - j) * ∑ i ∈ range (j + 1), t (p - j + i) * w ^ i = ∑ k ∈ range (p + 1), b k * (w - s) ^ k) ∧
        (∀ w, ∑ k ∈ range (p - j), N k * (w - -σ) ^ k
          + (w - -σ) ^ (p - j) * ∑ i ∈ range (j + 1), N (p - j + i) * w ^ i
          = ∑ k ∈ range (p + 1), N0 k * (w - -σ) ^ k))
    (fun j c => loopM (j + 1) (fun i (c : Arr ℂ) => (do
      let k := p - j - 1 + i
      let a ← c.rd k
      let b ← c.rd (k + 1)
      c.wr k (F.csub a (F.mul s' b)) : Outcome (Arr ℂ))) c) e.coeffs p
    ⟨he.size, b, N0, hN0, hN1, fun w => by
      simp only [Nat.sub_zero, zero_add, range_one, sum_singleton, add_zero, pow_zero, mul_one]
      rw [sum_range_succ, mul_comm (b p)], fun w => by
      simp only [Nat.sub_zero, zero_add, range_one, sum_singleton, add_zero, pow_zero, mul_one]
      rw [sum_range_succ, mul_comm (N0 p)]⟩
    (by
      rintro j hj c ⟨hc, t, N, ht0, htk, ht, hN⟩
      refine ⟨_, leShift_inner F p j s' c hc hj, rfl, sweep p (p - j - 1) s t, sweep p (p - j - 1) (-σ) N, ?_, ?_, ?_, ?_⟩
      · simp only [sweep]
        by_cases h : p - j - 1 ≤ 0 ∧ 0 < p
        · rw [if_pos h, if_pos h, if_pos h, neg_mul, sub_neg_eq_add]
          exact hF.csubR' ht0 (hF.cmul hs (htk (0 + 1) (by omega) (by omega))).toR (by omega) (by omega)
        · rw [if_neg h, if_neg h, if_neg h]
          exact ht0.mono hu (by omega) le_rfl
      · intro k hk0 hk
        simp only [sweep]
        by_cases h : p - j - 1 ≤ k ∧ k < p
        · rw [if_pos h, if_pos h, if_pos h, neg_mul, sub_neg_eq_add]
          exact hF.csub' (htk k hk0 hk) (hF.cmul hs (htk (k + 1) (by omega) (by omega))) (by omega) (by omega)
        · rw [if_neg h, if_neg h, if_neg h]
          exact (htk k hk0 hk).mono hu (by omega) le_rfl
      · intro w; rw [horner_step p j hj s w t, ht w]
      · intro w; rw [horner_step p j hj (-σ) w N, hN w])
  have h6' : ∀ w, ∑ k ∈ range (p + 1), N k * w ^ k = ∑ k ∈ range (p + 1), N0 k * (w + σ) ^ k := fun w => by
    have := h6 w
    simpa using this
  have hNn : ∀ k ≤ p, 0 ≤ N0 k := fun k hk => by
    rcases Nat.eq_zero_or_pos k with rfl | h0
    · exact hN0.nonneg
    · exact (hN1 k h0 hk).nonneg
  refine ⟨arr, t, ?_, h2, fun w => by have := h5 w; simpa using this, N, h3, h4, ?_, ?_⟩
  · unfold leShift
    rw [he.order]
    exact h1
  · rw [h6' r]
    refine le_trans (sum_le_sum fun k hk => ?_) hN2
    exact mul_le_mul_of_nonneg_left (pow_le_pow_left₀ (by linarith) hrR k)
      (hNn k (by have := mem_range.mp hk; omega))
  · have e : ∑ i ∈ range p, ((i + 1 : ℕ) : ℝ) * N (i + 1) * r ^ i
        = ∑ i ∈ range p, ((i + 1 : ℕ) : ℝ) * N0 (i + 1) * (r + σ) ^ i := by
      have d1 := poly_deriv N p r
      have d2 := (poly_deriv N0 p (r + σ)).comp_add_const r σ
      have : (fun w => ∑ k ∈ range (p + 1), N k * w ^ k) = fun w => ∑ k ∈ range (p + 1), N0 k * (w + σ) ^ k :=
        funext h6'
      rw [this] at d1
      exact d1.unique d2
    rw [e]
    refine le_trans (sum_le_sum fun k hk => ?_) hN3
    have := hNn (k + 1) (by have := mem_range.mp hk; omega)
    exact mul_le_mul_of_nonneg_left (pow_le_pow_left₀ (by linarith) hrR k) (by positivity)

/-- Local expansion of the expansion of the parent. -/
theorem leOfLe_ap (hF : F.Ok u) (bt : BinomialTable) (hbt : bt.Good) {n : ℕ} {e : Exp2} {c : ℂ} {p : ℕ} {b : ℕ → ℂ}
    {R r Mj Dj σ : ℝ} (he : AppL u n e c p b R Mj Dj) (hp : p ≤ 1029) (hp0 : 0 < p) (center : Vec 2)
    (hσ : ‖c - toC center‖ ≤ σ) (hr : 0 ≤ r) (hrR : r + σ ≤ R) :
    ∃ (bt' : BinomialTable) (f : Exp2) (b' : ℕ → ℂ), leOfLe F bt center e = .ok (bt', f) ∧ bt'.Good ∧ bt'.maxOrder = max bt.maxOrder p ∧
      (p ≤ bt.maxOrder → bt' = bt) ∧ AppL u (n + 3 * p) f (toC center) p b' r Mj Dj ∧
      ∀ z, leSum b' p (z - toC center) = leSum b p (z - c) := by
  obtain ⟨bt', f, h1, h2, h3, h4, rfl⟩ := Exp2.new_ok bt hbt center p hp
  obtain ⟨arr, b', h5, h6, h7, N, h8⟩ := leShift_ap hF he (hF.diff c (toC center) hσ) hr hrR
  refine ⟨bt', ⟨p, toC center, arr⟩, b', ?_, h2, h3, h4, ⟨rfl, rfl, h6, N, h8⟩, fun z => ?_⟩
  · unfold leOfLe
    rw [he.order, h1, ok_bind]
    simp only
    rw [if_pos hp0, he.center, h5, ok_bind]
  · unfold leSum; rw [h7]; congr 1; funext k; congr 2; ring

/-! ## Evaluation -/

theorem lePot_ap (hF : F.Ok u) {n : ℕ} {e : Exp2} {c : ℂ} {p : ℕ} {b : ℕ → ℂ} {R Mj Dj : ℝ}
    (he : AppL u n e c p b R Mj Dj) (x : Vec 2) (hx : ‖toC x - c‖ ≤ R) :
    ∃ v, lePot F e x = .ok v ∧ Ap u (n + 3 * p + 2) Mj v (leSum b p (toC x - c)).re := by
  have hu := hF.nonneg
  obtain ⟨N, h0, h1, h2, h3⟩ := he.maj
  obtain ⟨st, ht1, ht2, ht3⟩ := loopM_invariant (fun i (s : ℂ × ℂ) =>
      ApR u (n + 2 * p + 1 + i) (∑ k ∈ range i, N k * R ^ k) s.1 (∑ k ∈ range i, b k * (toC x - c) ^ k) ∧
      s.2 = pw F (F.csub (toC x) c) 1 i)
    (fun k (s : ℂ × ℂ) => (do
      let a ← e.coeffs.rd k
      .ok (F.cadd s.1 (F.mul a s.2), F.mul s.2 (F.csub (toC x) c)) : Outcome (ℂ × ℂ)))
    (0, 1) (p + 1)
    ⟨by simpa using ApR.zero le_rfl hu, rfl⟩
    (by
      rintro i hi t ⟨ht1, ht2⟩
      refine ⟨_, by rw [he.rd (by omega), ok_bind], ?_, by simp only [ht2]; rfl⟩
      simp only
      rw [sum_range_succ, sum_range_succ, ht2]
      rcases Nat.eq_zero_or_pos i with rfl | hi0
      · have : ApR u (n + 1) (N 0 * R ^ 0) (F.mul (e.coeffs.val 0) (pw F (F.csub (toC x) c) 1 0))
            (b 0 * (toC x - c) ^ 0) := by
          rw [pow_zero, pow_zero, mul_one, mul_one]
          refine h0.round hu ?_
          have := hF.mul (e.coeffs.val 0) 1
          rwa [mul_one] at this
        exact hF.caddR' ht1 this (by omega) (by omega)
      · have h5 := pw_ap hF (hF.diff (toC x) c hx) (Ap.refl (u := u) (le_of_eq (norm_one (α := ℂ)))) i
        rw [one_mul, one_mul] at h5
        exact hF.caddR' ht1 (hF.cmul (h1 i hi0 (by omega)) h5).toR (by omega) (by omega))
  refine ⟨st.1.re, ?_, ?_⟩
  · unfold lePot
    simp only
    rw [he.center, he.size, ht1, ok_bind]
  · exact ht2.re.mono hu (by omega) h2

theorem leForce_ap (hF : F.Ok u) {n : ℕ} {e : Exp2} {c : ℂ} {p : ℕ} {b : ℕ → ℂ} {R Mj Dj : ℝ}
    (he : AppL u n e c p b R Mj Dj) (x : Vec 2) (hx : ‖toC x - c‖ ≤ R) :
    ∃ f, leForce F e x = .ok (Exp2.fieldOf f) ∧ Ap u (n + 3 * p + 3) Dj f (leDeriv b p (toC x - c)) := by
  have hu := hF.nonneg
  obtain ⟨N, h0, h1, h2, h3⟩ := he.maj
  obtain ⟨st, ht1, ht2, ht3⟩ := loopM_invariant (fun i (s : ℂ × ℂ) =>
      Ap u (n + 2 * p + 3 + i) (∑ k ∈ range i, ((k + 1 : ℕ) : ℝ) * N (k + 1) * R ^ k) s.1
        (∑ k ∈ range i, ((k + 1 : ℕ) : ℂ) * b (k + 1) * (toC x - c) ^ k) ∧
      s.2 = pw F (F.csub (toC x) c) 1 i)
    (fun i (s : ℂ × ℂ) => (do
      let a ← e.coeffs.rd (i + 1)
      .ok (F.cadd s.1 (F.mul (F.rsc ((i + 1 : ℕ) : ℝ) a) s.2), F.mul s.2 (F.csub (toC x) c)) : Outcome (ℂ × ℂ)))
    (0, 1) p
    ⟨by simpa using Ap.zero (E := ℂ) le_rfl hu, rfl⟩
    (by
      rintro i hi t ⟨ht1, ht2⟩
      refine ⟨_, by rw [he.rd (by omega), ok_bind], ?_, by simp only [ht2]; rfl⟩
      simp only
      rw [sum_range_succ, sum_range_succ, ht2]
      have hk : Ap u 0 ((i + 1 : ℕ) : ℝ) ((i + 1 : ℕ) : ℝ) ((i + 1 : ℕ) : ℝ) := Ap.refl (by
        rw [Real.norm_eq_abs, abs_of_nonneg (by positivity)])
      have h5 := pw_ap hF (hF.diff (toC x) c hx) (Ap.refl (u := u) (le_of_eq (norm_one (α := ℂ)))) i
      rw [one_mul, one_mul] at h5
      have h6 := hF.cmul (hF.rsc hk (h1 (i + 1) (by omega) (by omega))) h5
      rw [Complex.ofReal_natCast] at h6
      exact hF.cadd' ht1 h6 (by omega) (by omega))
  refine ⟨st.1, ?_, ht2.mono hu (by omega) h3⟩
  unfold leForce
  simp only
  rw [he.center, he.size, Nat.add_sub_cancel, ht1, ok_bind]
  rfl

end Fl
end FMM
