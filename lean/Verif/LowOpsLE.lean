import Verif.LowOps
import Verif.FltOpsLE

/-!
# Local operations with gradual underflow

The error bounds of `FltOpsLE`, for operations with a floor.
-/

namespace FMM

/-- Smallest majorant of a coefficient of a local expansion. -/
noncomputable def kap (θ τ : ℝ) (p : ℕ) : ℝ := τ * θ ^ p / (p + 1)

/-- All majorants of the coefficients vanish, or none is small. -/
def Kfl (κ : ℝ) (p : ℕ) (N : ℕ → ℝ) : Prop := (∀ k ≤ p, N k = 0) ∨ ∀ k ≤ p, κ ≤ N k

theorem Kfl.add {κ : ℝ} {p : ℕ} {N N' : ℕ → ℝ} (h : Kfl κ p N) (h' : Kfl κ p N') (_h0 : ∀ k ≤ p, 0 ≤ N k)
    (h0' : ∀ k ≤ p, 0 ≤ N' k) : Kfl κ p fun k => N k + N' k := by
  rcases h with h | h
  · rcases h' with h' | h'
    · exact Or.inl fun k hk => by simp only [h k hk, h' k hk, add_zero]
    · exact Or.inr fun k hk => by simp only [h k hk, zero_add]; exact h' k hk
  · exact Or.inr fun k hk => by linarith [h k hk, h0' k hk]

namespace Scale
variable {η ρ θ τ : ℝ} {p : ℕ} (hs : Scale η ρ θ τ p)
include hs

theorem kap0 : 0 ≤ kap θ τ p := by
  have := hs.th0.le
  have := hs.tau0.le
  unfold kap; positivity

theorem kmul {M c : ℝ} {k : ℕ} (hM : kap θ τ p ≤ M) (hc : θ ^ k ≤ c) (hk : k ≤ p + 2) : η ≤ M * c := by
  have h1 : η ≤ kap θ τ p * θ ^ k := by
    unfold kap
    rw [div_mul_eq_mul_div, mul_assoc, ← pow_add, le_div_iff₀ (by positivity)]
    exact hs.tpow (by omega)
  exact h1.trans (mul_le_mul hM hc (pow_nonneg hs.th0.le k) (hs.kap0.trans hM))

theorem kfl {N : ℕ → ℝ} (h : Kfl (kap θ τ p) p N) {k j : ℕ} (hk : k ≤ p) {c : ℝ} (hc : θ ^ j ≤ c) (hj : j ≤ p + 2) :
    Flr η (N k * c) := by
  rcases h with h | h
  · rw [h k hk]; exact Or.inl (zero_mul _)
  · exact Or.inr (hs.kmul (h k hk) hc hj)

theorem kfl1 {N : ℕ → ℝ} (h : Kfl (kap θ τ p) p N) {k : ℕ} (hk : k ≤ p) : Flr η (N k) := by
  have := hs.kfl h hk (c := 1) (j := 0) (by simp) (by omega)
  rwa [mul_one] at this

theorem kap_le {A c : ℝ} {k : ℕ} (hA : τ ≤ A) (hk : k ≤ p) (hc : θ ^ k ≤ c) : kap θ τ p ≤ A * c := by
  have h1 : θ ^ p ≤ θ ^ k := pow_le_pow_of_le_one hs.th0.le hs.th1 hk
  have h2 : τ * θ ^ p ≤ A * c := mul_le_mul hA (h1.trans hc) (pow_nonneg hs.th0.le p) (hs.tau0.le.trans hA)
  refine le_trans ?_ h2
  have : 0 ≤ τ * θ ^ p := mul_nonneg hs.tau0.le (pow_nonneg hs.th0.le p)
  exact div_le_self this (by linarith [(Nat.cast_nonneg p : (0 : ℝ) ≤ p)])

theorem kap_div {A c : ℝ} {k l : ℕ} (hA : τ ≤ A) (hk : k ≤ p) (hc : θ ^ k ≤ c) (hl : 0 < l) (hlp : l ≤ p + 1) :
    kap θ τ p ≤ A / l * c := by
  have h1 : θ ^ p ≤ θ ^ k := pow_le_pow_of_le_one hs.th0.le hs.th1 hk
  have hl0 : (0 : ℝ) < l := by exact_mod_cast hl
  have hl1 : (l : ℝ) ≤ p + 1 := by exact_mod_cast hlp
  have hA0 := hs.tau0.le.trans hA
  have hp0 := pow_nonneg hs.th0.le p
  have e : A / l * c = A * c / l := by ring
  rw [e]
  unfold kap
  have h2 : τ * θ ^ p ≤ A * c := mul_le_mul hA (h1.trans hc) hp0 hA0
  exact div_le_div₀ ((mul_nonneg hs.tau0.le hp0).trans h2) h2 hl0 hl1

end Scale

namespace Lo
open Finset Fl
variable {F : Flt} {u η ρ θ τ : ℝ}

/-- The computed expansion `e` of order `p` about `c` approximates the local expansion with coefficients `b`, with `n`
rounding errors; the majorants of the coefficients vanish or are at least `κ`, sum up to at most `Mj` at radius `R`, the derivative of the majorant to
at most `Dj`.  Of the constant coefficient only the real part is approximated (the imaginary part is a sum of branches of
the logarithm). -/
structure AppL (u κ : ℝ) (n : ℕ) (e : Exp2) (c : ℂ) (p : ℕ) (b : ℕ → ℂ) (R Mj Dj : ℝ) : Prop where
  order : e.order = p
  center : e.center = c
  size : e.coeffs.size = p + 1
  maj : ∃ N : ℕ → ℝ, ApR u n (N 0) (e.coeffs.val 0) (b 0) ∧
    (∀ k, 0 < k → k ≤ p → Ap u n (N k) (e.coeffs.val k) (b k)) ∧
    Kfl κ p N ∧ ∑ k ∈ range (p + 1), N k * R ^ k ≤ Mj ∧ ∑ i ∈ range p, ((i + 1 : ℕ) : ℝ) * N (i + 1) * R ^ i ≤ Dj

theorem AppL.rd {n : ℕ} {e : Exp2} {c : ℂ} {p : ℕ} {b : ℕ → ℂ} {R Mj Dj : ℝ} (h : AppL u (kap θ τ p) n e c p b R Mj Dj) {k : ℕ}
    (hk : k ≤ p) : e.coeffs.rd k = .ok (e.coeffs.val k) := Arr.rd_ok _ (by rw [h.size]; omega)

theorem AppL.mono (hu : 0 ≤ u) {n m : ℕ} {e : Exp2} {c : ℂ} {p : ℕ} {b : ℕ → ℂ} {R Mj Dj Mj' Dj' : ℝ}
    (h : AppL u (kap θ τ p) n e c p b R Mj Dj) (hn : n ≤ m) (hM : Mj ≤ Mj') (hD : Dj ≤ Dj') : AppL u (kap θ τ p) m e c p b R Mj' Dj' := by
  obtain ⟨N, h0, h1, hκ, h2, h3⟩ := h.maj
  exact ⟨h.order, h.center, h.size, N, h0.mono hu hn le_rfl, fun k hk hkp => (h1 k hk hkp).mono hu hn le_rfl, hκ,
    h2.trans hM, h3.trans hD⟩

theorem AppL.congr {n : ℕ} {e : Exp2} {c : ℂ} {p : ℕ} {b b' : ℕ → ℂ} {R Mj Dj : ℝ} (h : AppL u (kap θ τ p) n e c p b R Mj Dj)
    (hb : ∀ k ≤ p, b k = b' k) : AppL u (kap θ τ p) n e c p b' R Mj Dj := by
  obtain ⟨N, h0, h1, hκ, h2, h3⟩ := h.maj
  exact ⟨h.order, h.center, h.size, N, by rw [← hb 0 (by omega)]; exact h0,
    fun k hk hkp => by rw [← hb k hkp]; exact h1 k hk hkp, hκ, h2, h3⟩

theorem AppL.zero (hu : 0 ≤ u) (c : ℂ) (p : ℕ) (R : ℝ) : AppL u (kap θ τ p) 0 ⟨p, c, Arr.new (p + 1)⟩ c p (fun _ => 0) R 0 0 :=
  ⟨rfl, rfl, rfl, fun _ => 0, ApR.zero le_rfl hu, fun _ _ _ => Ap.zero le_rfl hu, Or.inl fun _ _ => rfl, by simp, by simp⟩

theorem AppL.nonneg {n : ℕ} {e : Exp2} {p : ℕ} {b : ℕ → ℂ} {N : ℕ → ℝ} (h0 : ApR u n (N 0) (e.coeffs.val 0) (b 0))
    (h1 : ∀ k, 0 < k → k ≤ p → Ap u n (N k) (e.coeffs.val k) (b k)) : ∀ k ≤ p, 0 ≤ N k := fun k hk => by
  rcases Nat.eq_zero_or_pos k with rfl | h
  · exact h0.nonneg
  · exact (h1 k h hk).nonneg

/-- `operator+=`. -/
theorem addEq_ap (hF : F.Low u η ρ) {n m k : ℕ} {e f : Exp2} {c : ℂ} {p : ℕ} {a b : ℕ → ℂ} {R M D M' D' : ℝ}
    (hs : Scale η ρ θ τ p) (he : AppL u (kap θ τ p) n e c p a R M D) (hf : AppL u (kap θ τ p) m f c p b R M' D') (hn : n + 1 ≤ k) (hm : m + 1 ≤ k) :
    ∃ g, addEq F e f = .ok g ∧ AppL u (kap θ τ p) k g c p (fun k => a k + b k) R (M + M') (D + D') := by
  refine ⟨{ e with coeffs := ⟨e.coeffs.size, fun i =>
    if i < e.coeffs.size then F.cadd (e.coeffs.val i) (f.coeffs.val i) else e.coeffs.val i⟩ }, ?_, ?_⟩
  · unfold addEq
    rw [if_neg]
    rw [he.size, hf.size, he.center, hf.center]; simp
  · obtain ⟨N, h0, h1, hκ, h2, h3⟩ := he.maj
    obtain ⟨N', h0', h1', hκ', h2', h3'⟩ := hf.maj
    have hκ2 := hκ.add hκ' (AppL.nonneg h0 h1) (AppL.nonneg h0' h1')
    refine ⟨he.order, he.center, he.size, fun k => N k + N' k, ?_, fun k hk hkp => ?_, hκ2, ?_, ?_⟩
    · simp only; rw [if_pos (by rw [he.size]; omega)]; exact hF.caddR' h0 h0' (hs.kfl1 hκ2 (Nat.zero_le p)) hn hm
    · simp only; rw [if_pos (by rw [he.size]; omega)]; exact hF.cadd' (h1 k hk hkp) (h1' k hk hkp) (hs.kfl1 hκ2 hkp) hn hm
    · simp only [add_mul, sum_add_distrib]; exact add_le_add h2 h2'
    · simp only [add_mul, mul_add, sum_add_distrib]; exact add_le_add h3 h3'

/-! ## Local expansions of sources -/

theorem leFold_ap (hF : F.Low u η ρ) (p : ℕ) (hs : Scale η ρ θ τ p) (c : ℂ) {ζ Λ : ℝ} (hζθ : θ ≤ ζ) (hΛ : 0 ≤ Λ) (S : List (Source 2))
    (hS : ∀ s ∈ S, θ ≤ ‖toC s.pos - c‖ ∧ ‖toC s.pos - c‖⁻¹ ≤ ζ ∧ |Real.log ‖toC s.pos - c‖| ≤ Λ)
    (hq : ∀ s ∈ S, Flr τ |s.q|) :
    ∀ (arr : Arr ℂ) (a : ℕ → ℂ) (j : ℕ) (A : ℝ), Flr τ A → 0 ≤ A → arr.size = p + 1 →
      ApR u (3 * p + 4 + j) (A * (Λ + Real.pi)) (arr.val 0) (a 0) →
      (∀ k, 0 < k → k ≤ p → Ap u (3 * p + 4 + j) (A * ζ ^ k) (arr.val k) (a k)) →
      ∃ arr', S.foldlM (leAddSource F p c) arr = .ok arr' ∧ arr'.size = p + 1 ∧
        ApR u (3 * p + 4 + (j + S.length)) ((A + totalStrength S) * (Λ + Real.pi)) (arr'.val 0)
          (a 0 + (S.map fun s => (s.q : ℂ) * Complex.log (-(toC s.pos - c))).sum) ∧
        ∀ k, 0 < k → k ≤ p → Ap u (3 * p + 4 + (j + S.length)) ((A + totalStrength S) * ζ ^ k) (arr'.val k)
          (a k - (S.map fun s => (s.q : ℂ) * (toC s.pos - c)⁻¹ ^ k).sum) := by
  induction S with
  | nil =>
    intro arr a j A _ _ hsz h0 h
    exact ⟨arr, rfl, hsz, by simpa [totalStrength_eq] using h0, fun k hk hkp => by
      simpa [totalStrength_eq] using h k hk hkp⟩
  | cons s S ih =>
    intro arr a j A hA hA0 hsz h0 h
    obtain ⟨hsθ, hs1, hs2⟩ := hS s (by simp)
    have hs0 : toC s.pos - c ≠ 0 := norm_pos_iff.mp (hs.th0.trans_le hsθ)
    obtain ⟨hf1, hf2⟩ := hs.far hsθ
    have hqs := hq s (by simp)
    have hA' : Flr τ (A + |s.q|) := hA.add hqs hA0 (abs_nonneg _)
    have hL : 1 ≤ Λ + Real.pi := by linarith [Real.two_le_pi]
    obtain ⟨b, hb1, hb2, hb3, hb4⟩ := leAddSource_ok F p c arr hsz s (hF.csub_ne hf1 hf2)
    have hq0 : Ap u 0 |s.q| s.q s.q := Ap.refl (by rw [Real.norm_eq_abs])
    have hlog := hF.rscR hq0 (hF.logDiff (w' := -(F.csub (toC s.pos) c)) (w := -(toC s.pos - c)) (neg_ne_zero.mpr hs0)
      (by
        rw [norm_neg, ← neg_sub', norm_neg]
        exact hF.csub_rel hf1) (Λ := Λ) (by rwa [norm_neg])) (hs.str hqs (k := 0) (by omega) (by simpa using hL))
    obtain ⟨arr', h1, h2, h3, h4⟩ := ih (fun t ht => hS t (by simp [ht])) (fun t ht => hq t (by simp [ht])) b
      (fun k => if k = 0 then a 0 + (s.q : ℂ) * Complex.log (-(toC s.pos - c))
        else a k - (s.q : ℂ) * (toC s.pos - c)⁻¹ ^ k) (j + 1) (A + |s.q|) hA' (by positivity) hb2
      (by
        rw [hb3, if_pos rfl, add_mul]
        exact hF.caddR' h0 hlog (by rw [← add_mul]; exact hs.str hA' (k := 0) (by omega) (by simpa using hL)) (by omega) (by omega)) (fun k hk0 hk => by
        rw [hb4 k hk0 hk, if_neg (by omega), add_mul]
        have hp := hF.rsc hq0 (dv_ap hF hf1 hf2 hs1 (hF.inv _ _ hf1 hf2 hs1 (hs.le hζθ)) (k - 1) fun j hj => Or.inr (by
          rw [← pow_succ']; exact hs.powle hζθ (by omega))) (by
          rw [← pow_succ', Nat.sub_add_cancel hk0]
          exact hs.str hqs (by omega) (pow_le_pow_left₀ hs.th0.le hζθ k))
        rw [← pow_succ', ← pow_succ', Nat.sub_add_cancel hk0] at hp
        exact hF.csub' (h k hk0 hk) hp (by
          rw [← add_mul]; exact hs.str hA' (by omega) (pow_le_pow_left₀ hs.th0.le hζθ k)) (by omega) (by omega))
    refine ⟨arr', by rw [List.foldlM_cons, hb1, ok_bind, h1], h2, ?_, fun k hk0 hk => ?_⟩
    · simp only [if_true] at h3
      rw [totalStrength_cons, List.length_cons, List.map_cons, List.sum_cons, ← add_assoc A, ← add_assoc (a 0)]
      exact h3.mono hF.nonneg (by omega) le_rfl
    · have := h4 k hk0 hk
      rw [if_neg (by omega)] at this
      rw [totalStrength_cons, List.length_cons, List.map_cons, List.sum_cons, ← add_assoc A, ← sub_sub]
      exact this.mono hF.nonneg (by omega) le_rfl

/-- Local expansion of sources: `|S| + 3 p + 5` roundings. -/
theorem leOfSources_ap (hF : F.Low u η ρ) (bt : BinomialTable) (hbt : bt.Good) (center : Vec 2) (p : ℕ) (hs : Scale η ρ θ τ p)
    (hp : p ≤ 1029) {R ζ Λ : ℝ} (hR : 0 ≤ R) (hζθ : θ ≤ ζ) (hΛ : 0 ≤ Λ) (hθ : R * ζ < 1) (S : List (Source 2))
    (hS : ∀ s ∈ S, θ ≤ ‖toC s.pos - toC center‖ ∧ ‖toC s.pos - toC center‖⁻¹ ≤ ζ ∧
      |Real.log ‖toC s.pos - toC center‖| ≤ Λ) (hq : ∀ s ∈ S, Flr τ |s.q|) :
    ∃ bt' e, leOfSources F bt center p S = .ok (bt', e) ∧ bt'.Good ∧ bt'.maxOrder = max bt.maxOrder p ∧
      (p ≤ bt.maxOrder → bt' = bt) ∧
      AppL u (kap θ τ p) (3 * p + S.length + 5) e (toC center) p (leCoeff (toC center) S) R
        (totalStrength S * (Λ + Real.pi + R * ζ / (1 - R * ζ))) (totalStrength S * (ζ / (1 - R * ζ) ^ 2)) := by
  obtain ⟨bt', e, h1, h2, h3, h4, rfl⟩ := Exp2.new_ok bt hbt center p hp
  have hu := hF.nonneg
  obtain ⟨arr', h5, h6, h7, h8⟩ := leFold_ap hF p hs (toC center) hζθ hΛ S hS hq (Arr.new (p + 1)) (fun _ => 0) 0 0 Flr.zero le_rfl rfl
    (by simpa [Arr.new] using ApR.zero (le_refl (0 : ℝ)) hu)
    (fun k _ _ => by simpa [Arr.new] using Ap.zero (E := ℂ) (le_refl (0 : ℝ)) hu)
  simp only [zero_add, zero_sub] at h7 h8
  have hζ : 0 ≤ ζ := hs.th0.le.trans hζθ
  have hAf := totalStrength_flr hq
  set A := totalStrength S with hA
  have hA0 : 0 ≤ A := totalStrength_nonneg S
  refine ⟨bt', ⟨p, toC center, ⟨p + 1, fun k => if 0 < k ∧ k ≤ p then F.cdr (arr'.val k) k else arr'.val k⟩⟩,
    ?_, h2, h3, h4, rfl, rfl, rfl, fun k => if k = 0 then A * (Λ + Real.pi) else A * ζ ^ k, ?_, ?_, ?_, ?_, ?_⟩
  · unfold leOfSources
    rw [h1, ok_bind]
    simp only
    rw [h5, ok_bind, divByIndex_ok F p arr' h6, ok_bind]
  · simp only
    unfold leCoeff
    simp only [if_true, lt_irrefl, false_and, if_false]
    exact h7.mono hu (by omega) le_rfl
  · intro k hk0 hk
    simp only
    unfold leCoeff
    rw [if_neg (by omega : ¬ k = 0), if_pos ⟨hk0, hk⟩, if_neg (by omega : ¬ k = 0)]
    have h9 := h8 k hk0 hk
    have hk1 : (1 : ℝ) ≤ k := by exact_mod_cast hk0
    have := hF.cdr h9 (r := (k : ℝ)) (by linarith) (by
        rw [mul_div_assoc]
        exact hs.strdiv hAf (k := k) (by omega) hk0 (by omega)
          (div_le_div_of_nonneg_right (pow_le_pow_left₀ hs.th0.le hζθ k) (by linarith)))
    rw [Complex.ofReal_natCast] at this
    exact this.mono hu (by omega) (div_le_self h9.nonneg hk1)
  · rcases hAf with h0 | h0
    · exact Or.inl fun k _ => by simp only [h0, zero_mul, ite_self]
    · refine Or.inr fun k hk => ?_
      by_cases hk0 : k = 0
      · simp only [if_pos hk0]
        exact hs.kap_le h0 (k := 0) (by omega) (by rw [pow_zero]; linarith [Real.two_le_pi])
      · simp only [if_neg hk0]
        exact hs.kap_le h0 hk (pow_le_pow_left₀ hs.th0.le hζθ k)
  · rw [sum_range_succ']
    simp only [Nat.add_one_ne_zero, if_false, if_true, pow_zero, mul_one]
    have : ∑ k ∈ range p, A * ζ ^ (k + 1) * R ^ (k + 1) = A * ∑ k ∈ range p, (R * ζ) ^ (k + 1) := by
      rw [mul_sum]; exact sum_congr rfl fun k _ => by rw [mul_pow]; ring
    rw [this]
    have := mul_le_mul_of_nonneg_left (sum_geom_le (mul_nonneg hR hζ) hθ p) hA0
    linarith
  · simp only [Nat.add_one_ne_zero, if_false]
    have : ∑ i ∈ range p, ((i + 1 : ℕ) : ℝ) * (A * ζ ^ (i + 1)) * R ^ i
        = A * (ζ * ∑ i ∈ range p, ((i + 1 : ℕ) : ℝ) * (R * ζ) ^ i) := by
      rw [mul_sum, mul_sum]; exact sum_congr rfl fun k _ => by rw [mul_pow, pow_succ]; ring
    rw [this]
    have := mul_le_mul_of_nonneg_left (sum_geom_deriv_le (mul_nonneg hR hζ) hθ p) hζ
    rw [mul_one_div] at this
    exact mul_le_mul_of_nonneg_left this hA0

/-! ## Multipole-to-local -/

theorem m2l_ap (hF : F.Low u η ρ) (bt : BinomialTable) (hbt : bt.Good) {n : ℕ} {e : Exp2} {c : ℂ} {p : ℕ} {a : ℕ → ℂ}
    {A R : ℝ} (he : AppM u n e c p a A R) (hs : Scale η ρ θ τ p) (hAf : Flr τ A) (hR : θ ≤ R) (hp : p ≤ bt.maxOrder) (c' : ℂ)
    (hcθ : θ ≤ ‖c - c'‖) {ζ Λ : ℝ} (hζ : ‖c - c'‖⁻¹ ≤ ζ) (hζθ : θ ≤ ζ) (hΛ : |Real.log ‖c - c'‖| ≤ Λ) :
    ∃ arr, m2l F bt p c' e = .ok arr ∧ arr.size = p + 1 ∧
      ApR u (n + 9 * p + 5) (m2lMaj bt.maxOrder p A R ζ Λ 0) (arr.val 0) (Exp2.m2lCoeff bt.maxOrder p a (c - c') 0) ∧
      ∀ l, 0 < l → l ≤ p → Ap u (n + 9 * p + 5) (m2lMaj bt.maxOrder p A R ζ Λ l) (arr.val l)
        (Exp2.m2lCoeff bt.maxOrder p a (c - c') l) := by
  have hu := hF.nonneg
  have hc : c - c' ≠ 0 := norm_pos_iff.mp (hs.th0.trans_le hcθ)
  obtain ⟨hf1, hf2⟩ := hs.far hcθ
  have hA00 : 0 ≤ A := by simpa using (he.ap 0 (by omega)).nonneg
  have hR0 : 0 ≤ R := hs.th0.le.trans hR
  have hζ0 : 0 ≤ ζ := hs.th0.le.trans hζθ
  have hL : 1 ≤ Λ + Real.pi := by linarith [Real.two_le_pi, (abs_nonneg _).trans hΛ]
  set z' := F.csub c c' with hz'
  obtain ⟨inv, hinv, hisz, hiv⟩ := powTable_ok F (F.div 1 z') p
  have hpa : ∀ k ≤ p, Ap u (4 * k) (ζ ^ k) (inv.val k) ((c - c')⁻¹ ^ k) := fun k hk => by
    have := pw_ap hF (hF.inv c c' hf1 hf2 hζ (hs.le hζθ)) (Ap.refl (u := u) (le_of_eq (norm_one (α := ℂ)))) k fun j hj =>
      Or.inr (by rw [one_mul]; exact hs.powle hζθ (by omega))
    rw [hiv k hk]
    simpa using this
  have hz0 : z' ≠ 0 := hF.csub_ne hf1 hf2
  have ha' : ((a 0).re : ℂ) = a 0 := Complex.ext (by simp) (by simp [he.im'])
  have hv' : ((e.coeffs.val 0).re : ℂ) = e.coeffs.val 0 := Complex.ext (by simp) (by simp [he.im])
  have hA0 : Ap u n A (e.coeffs.val 0) (a 0) := by simpa using he.ap 0 (by omega)
  have hlog : ApR u (n + 4) (A * (Λ + Real.pi)) (F.mul (e.coeffs.val 0) (F.log (-z'))) (a 0 * Complex.log (-(c - c'))) := by
    have h1 := hF.logDiff (w' := -z') (w := -(c - c')) (neg_ne_zero.mpr hc) (by
      rw [norm_neg, ← neg_sub', norm_neg]
      exact hF.csub_rel hf1) (Λ := Λ) (by rwa [norm_neg])
    have h2 := h1.mul_real hu hA0.re
    rw [ha', hv'] at h2
    exact (h2.roundf hu (hs.str hAf (k := 0) (by omega) (by simpa using hL)) (hF.mul _ _) (hF.mul0 _ _)).mono hu (by omega) le_rfl
  have hfl : ∀ k ≤ p, Flr η (A * R ^ k * ζ ^ k) := fun k hk => by
    rw [mul_assoc]; exact hs.str hAf (by omega) (hs.pow2 hR hζθ k k)
  -- the terms
  have hterm : ∀ k, 0 < k → k ≤ p → Ap u (n + 4 * k + 2) (A * R ^ k * ζ ^ k)
      (F.mul (F.rsc (Exp2.altSign k) (e.coeffs.val k)) (inv.val k)) ((-1) ^ k * a k * (c - c')⁻¹ ^ k) := by
    intro k hk0 hk
    have := hF.cmul (hF.rsc (altSign_ap k) (he.ap k hk) (by
      rw [one_mul]; exact hs.str hAf (by omega) (pow_le_pow_left₀ hs.th0.le hR k))) (hpa k hk) (by
      rw [one_mul]; exact hfl k hk)
    rw [Exp2.altSign_eq, one_mul] at this
    exact this.mono hu (by omega) le_rfl
  obtain ⟨b0, hb0, hb0'⟩ := loopM_invariant (fun i (b : ℂ) => ApR u (n + 4 * p + 4 + i)
      (A * (Λ + Real.pi) + ∑ m ∈ range i, A * R ^ (m + 1) * ζ ^ (m + 1)) b
      (a 0 * Complex.log (-(c - c')) + ∑ m ∈ range i, (-1) ^ (m + 1) * a (m + 1) * (c - c')⁻¹ ^ (m + 1)))
    (fun i b => (do
      let k := i + 1
      let ak ← e.coeffs.rd k
      let p ← inv.rd k
      .ok (F.cadd b (F.mul (F.rsc (Exp2.altSign k) ak) p)) : Outcome ℂ)) (F.mul (e.coeffs.val 0) (F.log (-z'))) p
    (by simpa using hlog.mono hu (by omega) le_rfl)
    (by
      intro i hi b hb
      simp only
      refine ⟨_, by rw [he.rd (by omega), ok_bind, Arr.rd_ok _ (by omega), ok_bind], ?_⟩
      rw [sum_range_succ, sum_range_succ, ← add_assoc (A * _), ← add_assoc (a 0 * _)]
      exact hF.caddR' hb (hterm (i + 1) (by omega) (by omega)).toR (Flr.add (Flr.add
        (hs.str hAf (k := 0) (by omega) (by simpa using hL)) (Flr.sum i (fun j hj => hfl (j + 1) (by omega))
        fun j _ => by positivity) (by positivity) (sum_nonneg fun j _ => by positivity)) (hfl (i + 1) (by omega))
        (add_nonneg (by positivity) (sum_nonneg fun j _ => by positivity)) (by positivity)) (by omega) (by omega))
  obtain ⟨arr, hr, hrs, hr0, hrl⟩ := loopM_invariant (fun i (t : Arr ℂ) => t.size = p + 1 ∧ t.val 0 = b0 ∧
      ∀ l, 0 < l → l ≤ i → Ap u (n + 9 * p + 5) (m2lMaj bt.maxOrder p A R ζ Λ l) (t.val l)
        (Exp2.m2lCoeff bt.maxOrder p a (c - c') l))
    (fun i t => (do
      let l := i + 1
      let bl ← loopM (p - 1) (fun i' b => do
        let k := i' + 1
        let ak ← e.coeffs.rd k
        let p ← inv.rd k
        let bin ← bt.get (l + k - 1) (k - 1)
        .ok (F.cadd b (F.rsc (F.rnd bin) (F.mul (F.rsc (Exp2.altSign k) ak) p))))
        (F.cdr (-(e.coeffs.val 0)) ((l : ℕ) : ℝ))
      let p ← inv.rd l
      t.wr l (F.mul bl p) : Outcome (Arr ℂ))) ⟨p + 1, Function.update (fun _ => 0) 0 b0⟩ p
    ⟨rfl, by simp, fun l h0 h => absurd h (by omega)⟩
    (by
      rintro i hi t ⟨ht, ht0, htl⟩
      have hl0 : (0 : ℝ) < ((i + 1 : ℕ) : ℝ) := by positivity
      have hfd : Flr η (A / ((i + 1 : ℕ) : ℝ)) := by
        have := hs.strdiv hAf (k := 0) (l := i + 1) (X := 1 / ((i + 1 : ℕ) : ℝ)) (by omega) (by omega) (by omega) (by simp)
        rwa [mul_one_div] at this
      have hfb : ∀ j < p, Flr η (A * R ^ (j + 1) * ζ ^ (j + 1) * (binVal bt.maxOrder (i + 1 + j) j : ℝ)) := fun j hj => by
        rcases Nat.eq_zero_or_pos (binVal bt.maxOrder (i + 1 + j) j) with h0 | h0
        · rw [h0]; exact Or.inl (by simp)
        · rw [mul_comm]
          exact Flr.scale (hfl (j + 1) (by omega)) (by exact_mod_cast h0) (by positivity)
      obtain ⟨bl, hbl, hbl'⟩ := loopM_invariant (fun i' (b : ℂ) => Ap u (n + 4 * p + 4 + i')
          (A / ((i + 1 : ℕ) : ℝ) + ∑ m ∈ range i', A * R ^ (m + 1) * ζ ^ (m + 1)
            * (binVal bt.maxOrder (i + 1 + m) m : ℝ)) b
          (-a 0 / ((i + 1 : ℕ) : ℂ) + ∑ m ∈ range i', (-1) ^ (m + 1) * a (m + 1) * (c - c')⁻¹ ^ (m + 1)
            * (binVal bt.maxOrder (i + 1 + m) m : ℂ)))
        (fun i' b => (do
          let k := i' + 1
          let ak ← e.coeffs.rd k
          let p ← inv.rd k
          let bin ← bt.get (i + 1 + k - 1) (k - 1)
          .ok (F.cadd b (F.rsc (F.rnd bin) (F.mul (F.rsc (Exp2.altSign k) ak) p))) : Outcome ℂ))
        (F.cdr (-(e.coeffs.val 0)) ((i + 1 : ℕ) : ℝ)) (p - 1)
        (by
          have := hF.cdr hA0.neg hl0 hfd
          rw [Complex.ofReal_natCast] at this
          simpa using this.mono hu (by omega : n + 1 ≤ n + 4 * p + 4) le_rfl)
        (by
          intro i' hi' b hb
          simp only
          refine ⟨_, by rw [he.rd (by omega), ok_bind, Arr.rd_ok _ (by omega), ok_bind,
            BinomialTable.get_ok hbt (by omega) (by omega) (by omega), ok_bind], ?_⟩
          have e1 : i + 1 + (i' + 1) - 1 = i + 1 + i' := by omega
          rw [e1, Nat.add_sub_cancel, sum_range_succ, sum_range_succ, ← add_assoc (A / _), ← add_assoc (-a 0 / _)]
          have hb' : Ap u 1 (binVal bt.maxOrder (i + 1 + i') i' : ℝ) (F.rnd (binVal bt.maxOrder (i + 1 + i') i' : ℝ))
              (binVal bt.maxOrder (i + 1 + i') i' : ℝ) := hF.rrnd (Ap.refl (by
                rw [Real.norm_eq_abs, abs_of_nonneg (by positivity)])) (by
                rcases Nat.eq_zero_or_pos (binVal bt.maxOrder (i + 1 + i') i') with h0 | h0
                · rw [h0]; exact Or.inl (by simp)
                · exact Or.inr (hs.one.trans (by exact_mod_cast h0)))
          have h2 := hF.rsc hb' (hterm (i' + 1) (by omega) (by omega)) (by
            rw [mul_comm]; exact hfb i' (by omega))
          rw [Complex.ofReal_natCast, mul_comm (binVal _ _ _ : ℝ), mul_comm (binVal _ _ _ : ℂ)] at h2
          exact hF.cadd' hb h2 (Flr.add (Flr.add hfd (Flr.sum i' (fun j hj => hfb j (by omega)) fun j _ => by positivity)
            (by positivity) (sum_nonneg fun j _ => by positivity)) (hfb i' (by omega))
            (add_nonneg (by positivity) (sum_nonneg fun j _ => by positivity)) (by positivity)) (by omega) (by omega))
      have hbl2 : Ap u (n + 9 * p + 5) (m2lMaj bt.maxOrder p A R ζ Λ (i + 1)) (F.mul bl (inv.val (i + 1)))
          (Exp2.m2lCoeff bt.maxOrder p a (c - c') (i + 1)) := by
        unfold m2lMaj Exp2.m2lCoeff
        rw [if_neg (by omega), if_neg (by omega)]
        exact (hF.cmul hbl' (hpa (i + 1) (by omega)) (by
          rcases hAf with h0 | h0
          · left; rw [h0]; simp
          · right
            refine (hs.kmul (k := 0) (c := 1) (hs.kap_div h0 (k := i + 1) (l := i + 1) (by omega)
              (pow_le_pow_left₀ hs.th0.le hζθ (i + 1)) (by omega) (by omega)) (by simp) (by omega)).trans ?_
            rw [mul_one]
            refine mul_le_mul_of_nonneg_right ?_ (by positivity)
            have : 0 ≤ ∑ m ∈ range (p - 1), A * R ^ (m + 1) * ζ ^ (m + 1) * (binVal bt.maxOrder (i + 1 + m) m : ℝ) :=
              sum_nonneg fun m _ => by positivity
            linarith)).mono hu (by omega) le_rfl
      refine ⟨⟨t.size, Function.update t.val (i + 1) (F.mul bl (inv.val (i + 1)))⟩, ?_, ht, ?_, fun l h0 hl => ?_⟩
      · simp only
        simp only at hbl
        rw [hbl, ok_bind, Arr.rd_ok _ (by omega), ok_bind, Arr.wr_ok _ (by omega)]
      · simp only; rw [Function.update_of_ne (by omega), ht0]
      · simp only
        rcases Nat.lt_or_ge i l with h | h
        · obtain rfl : l = i + 1 := by omega
          rw [Function.update_self]; exact hbl2
        · rw [Function.update_of_ne (by omega)]; exact htl l h0 h)
  refine ⟨arr, ?_, hrs, ?_, hrl⟩
  · unfold m2l
    simp only
    rw [he.center, ← hz', if_neg hz0, hinv, ok_bind, he.rd (by omega), ok_bind]
    simp only at hb0
    rw [hb0, ok_bind, Arr.wr_ok _ (by simp [Arr.new]), ok_bind]
    exact hr
  · rw [hr0]
    unfold m2lMaj mePotMaj Exp2.m2lCoeff
    rw [if_pos rfl, if_pos rfl]
    exact hb0'.mono hu (by omega) le_rfl

/-- Conversion of one multipole expansion: `9 p + 5` more roundings. -/
theorem leOfMe_ap (hF : F.Low u η ρ) (bt : BinomialTable) (hbt : bt.Good) {n : ℕ} {e : Exp2} {c : ℂ} {p : ℕ} {a : ℕ → ℂ}
    {A R : ℝ} (he : AppM u n e c p a A R) (hs : Scale η ρ θ τ p) (hAf : Flr τ A) (hRθ : θ ≤ R) (hp : p ≤ 1029) (hp0 : 0 < p)
    (center : Vec 2) (hcθ : θ ≤ ‖c - toC center‖)
    {ζ Λ : ℝ} (hζ : ‖c - toC center‖⁻¹ ≤ ζ) (hζθ : θ ≤ ζ) (hΛ : |Real.log ‖c - toC center‖| ≤ Λ)
    (hρ : 2 * (R * ζ) < 1) :
    ∃ bt' f, leOfMe F bt center e = .ok (bt', f) ∧ bt'.Good ∧ bt'.maxOrder = max bt.maxOrder p ∧
      (p ≤ bt.maxOrder → bt' = bt) ∧
      AppL u (kap θ τ p) (n + 9 * p + 5) f (toC center) p (Exp2.m2lCoeff bt'.maxOrder p a (c - toC center)) R
        (A * m2lC (2 * (R * ζ)) Λ) (A * (ζ / (1 - 2 * (R * ζ)) ^ 3)) := by
  obtain ⟨bt', f, h1, h2, h3, h4, rfl⟩ := Exp2.new_ok bt hbt center p hp
  obtain ⟨arr, h5, h6, h7, h8⟩ := m2l_ap hF bt' h2 he hs hAf hRθ (by omega) (toC center) hcθ hζ hζθ hΛ
  have hR : 0 ≤ R := hs.th0.le.trans hRθ
  have hA : 0 ≤ A := by simpa using (he.ap 0 (by omega)).nonneg
  have hζ0 : 0 ≤ ζ := (inv_nonneg.mpr (norm_nonneg _)).trans hζ
  refine ⟨bt', ⟨p, toC center, arr⟩, ?_, h2, h3, h4, rfl, rfl, h6, m2lMaj bt'.maxOrder p A R ζ Λ, h7, h8, ?_,
    m2lMaj_sum _ _ hA hR hζ0 hρ, m2lMaj_dsum _ _ hA hR hζ0 hρ⟩
  · unfold leOfMe
    rw [he.order, h1, ok_bind]
    simp only
    rw [if_pos hp0, h5, ok_bind]
  · rcases hAf with h0 | h0
    · left
      intro l _
      unfold m2lMaj mePotMaj
      rw [h0]; simp
    · right
      intro l hl
      unfold m2lMaj
      by_cases hl0 : l = 0
      · rw [if_pos hl0]
        unfold mePotMaj
        have a1 : kap θ τ p ≤ A * (Λ + Real.pi) := hs.kap_le h0 (k := 0) (by omega) (by
          rw [pow_zero]; linarith [Real.two_le_pi, (abs_nonneg _).trans hΛ])
        have a2 : 0 ≤ ∑ i ∈ range p, A * R ^ (i + 1) * ζ ^ (i + 1) := sum_nonneg fun i _ => by positivity
        linarith
      · rw [if_neg hl0]
        refine (hs.kap_div h0 (k := l) (l := l) hl (pow_le_pow_left₀ hs.th0.le hζθ l) (by omega) (by omega)).trans ?_
        refine mul_le_mul_of_nonneg_right ?_ (by positivity)
        have : 0 ≤ ∑ i ∈ range (p - 1), A * R ^ (i + 1) * ζ ^ (i + 1) * (binVal bt'.maxOrder (l + i) i : ℝ) :=
          sum_nonneg fun i _ => by positivity
        linarith

/-- Conversion of a list of multipole expansions. -/
theorem leOfMes_ap (hF : F.Low u η ρ) (bt : BinomialTable) (hbt : bt.Good) (center : Vec 2) (p : ℕ) (hs : Scale η ρ θ τ p)
    (hp : p ≤ 1029) (hp0 : 0 < p) {n : ℕ} {R ζ Λ : ℝ} (hRθ : θ ≤ R) (hζθ : θ ≤ ζ) (hρ : 2 * (R * ζ) < 1)
    (L : List (Exp2 × ℂ × (ℕ → ℂ) × ℝ)) (hne : L ≠ [])
    (hL : ∀ x ∈ L, AppM u n x.1 x.2.1 p x.2.2.1 x.2.2.2 R ∧ Flr τ x.2.2.2 ∧ θ ≤ ‖x.2.1 - toC center‖ ∧ ‖x.2.1 - toC center‖⁻¹ ≤ ζ ∧
      |Real.log ‖x.2.1 - toC center‖| ≤ Λ) :
    ∃ bt' e, leOfMes F bt center (L.map (·.1)) = .ok (bt', e) ∧ bt'.Good ∧
      bt'.maxOrder = max bt.maxOrder p ∧ (p ≤ bt.maxOrder → bt' = bt) ∧
      AppL u (kap θ τ p) (n + 9 * p + 5 + L.length) e (toC center) p (fun k =>
        (L.map fun x => Exp2.m2lCoeff bt'.maxOrder p x.2.2.1 (x.2.1 - toC center) k).sum) R
        ((L.map (·.2.2.2)).sum * m2lC (2 * (R * ζ)) Λ) ((L.map (·.2.2.2)).sum * (ζ / (1 - 2 * (R * ζ)) ^ 3)) := by
  obtain ⟨bt', e, h1, h2, h3, h4, rfl⟩ := Exp2.new_ok bt hbt center p hp
  have hfold : ∀ (L : List (Exp2 × ℂ × (ℕ → ℂ) × ℝ)) (e : Exp2) (a : ℕ → ℂ) (j : ℕ) (A : ℝ),
      AppL u (kap θ τ p) (n + 9 * p + 5 + j) e (toC center) p a R (A * m2lC (2 * (R * ζ)) Λ) (A * (ζ / (1 - 2 * (R * ζ)) ^ 3)) →
      (∀ x ∈ L, AppM u n x.1 x.2.1 p x.2.2.1 x.2.2.2 R ∧ Flr τ x.2.2.2 ∧ θ ≤ ‖x.2.1 - toC center‖ ∧ ‖x.2.1 - toC center‖⁻¹ ≤ ζ ∧
        |Real.log ‖x.2.1 - toC center‖| ≤ Λ) →
      ∃ e', (L.map (·.1)).foldlM (fun (s : BinomialTable × Exp2) me => do
        let (bt, le) ← leOfMe F s.1 center me
        let e ← addEq F s.2 le
        .ok (bt, e)) (bt', e) = .ok (bt', e') ∧ AppL u (kap θ τ p) (n + 9 * p + 5 + (j + L.length)) e' (toC center) p (fun k => a k +
          (L.map fun x => Exp2.m2lCoeff bt'.maxOrder p x.2.2.1 (x.2.1 - toC center) k).sum) R
          ((A + (L.map (·.2.2.2)).sum) * m2lC (2 * (R * ζ)) Λ)
          ((A + (L.map (·.2.2.2)).sum) * (ζ / (1 - 2 * (R * ζ)) ^ 3)) := by
    intro L
    induction L with
    | nil => intro e a j A he _; exact ⟨e, rfl, by simpa using he⟩
    | cons x L ih =>
      intro e a j A he hx
      obtain ⟨hx0, hxf, hx1, hx2, hx3⟩ := hx x (by simp)
      obtain ⟨bt2, le, hl1, hl2, hl3, hl4, hl5⟩ := leOfMe_ap hF bt' h2 hx0 hs hxf hRθ hp hp0 center hx1 hx2 hζθ hx3 hρ
      obtain rfl := hl4 (by omega)
      obtain ⟨g, hg1, hg2⟩ := addEq_ap hF hs he hl5 (k := n + 9 * p + 5 + (j + 1)) (by omega) (by omega)
      rw [← add_mul, ← add_mul] at hg2
      obtain ⟨e', he1, he2⟩ := ih g _ (j + 1) _ hg2 fun y hy => hx y (by simp [hy])
      refine ⟨e', ?_, (he2.congr fun k _ => ?_).mono hF.nonneg (by simp; omega) (le_of_eq ?_) (le_of_eq ?_)⟩
      · rw [List.map_cons, List.foldlM_cons, hl1, ok_bind]
        simp only
        rw [hg1, ok_bind, ok_bind, he1]
      · simp [add_assoc]
      · simp [add_assoc]
      · simp [add_assoc]
  obtain ⟨e', he1, he2⟩ := hfold L ⟨p, toC center, Arr.new (p + 1)⟩ (fun _ => 0) 0 0
    (by simpa using (AppL.zero hF.nonneg (toC center) p R).mono hF.nonneg (Nat.zero_le (n + 9 * p + 5)) le_rfl le_rfl) hL
  refine ⟨bt', e', ?_, h2, h3, h4, by simpa using he2⟩
  cases L with
  | nil => exact absurd rfl hne
  | cons x L =>
    rw [List.map_cons] at he1 ⊢
    unfold leOfMes
    simp only
    rw [(hL x (by simp)).1.order, h1, ok_bind]
    exact he1

/-! ## Local-to-local -/

/-- Shift of a local expansion: `3 p` more roundings. -/
theorem leShift_ap (hF : F.Low u η ρ) {n : ℕ} {e : Exp2} {c : ℂ} {p : ℕ} {b : ℕ → ℂ} {R r Mj Dj σ : ℝ}
    (hsc : Scale η ρ θ τ p) (hσθ : θ ≤ σ) (he : AppL u (kap θ τ p) n e c p b R Mj Dj) {s' s : ℂ} (hs : Ap u 1 σ s' s) (hr : 0 ≤ r)
    (hrR : r + σ ≤ R) :
    ∃ (arr : Arr ℂ) (b' : ℕ → ℂ), leShift F e s' = .ok arr ∧ arr.size = p + 1 ∧
      (∀ w, ∑ k ∈ range (p + 1), b' k * w ^ k = ∑ k ∈ range (p + 1), b k * (w - s) ^ k) ∧
      ∃ N : ℕ → ℝ, ApR u (n + 3 * p) (N 0) (arr.val 0) (b' 0) ∧
        (∀ k, 0 < k → k ≤ p → Ap u (n + 3 * p) (N k) (arr.val k) (b' k)) ∧ Kfl (kap θ τ p) p N ∧
        ∑ k ∈ range (p + 1), N k * r ^ k ≤ Mj ∧ ∑ i ∈ range p, ((i + 1 : ℕ) : ℝ) * N (i + 1) * r ^ i ≤ Dj := by
  have hu := hF.nonneg
  have hσ := hs.nonneg
  obtain ⟨N0, hN0, hN1, hNκ, hN2, hN3⟩ := he.maj
  obtain ⟨arr, h1, h2, t, N, h3, h4, hκ', h5, h6⟩ := loopM_invariant (fun j (c : Arr ℂ) => c.size = p + 1 ∧
      ∃ (t : ℕ → ℂ) (N : ℕ → ℝ), ApR u (n + 3 * j) (N 0) (c.val 0) (t 0) ∧
        (∀ k, 0 < k → k ≤ p → Ap u (n + 3 * j) (N k) (c.val k) (t k)) ∧ Kfl (kap θ τ p) p N ∧
        (∀ w, ∑ k ∈ range (p - j), t k * (w - s) ^ k
          + (w - s) ^ (p - j) * ∑ i ∈ range (j + 1), t (p - j + i) * w ^ i = ∑ k ∈ range (p + 1), b k * (w - s) ^ k) ∧
        (∀ w, ∑ k ∈ range (p - j), N k * (w - -σ) ^ k
          + (w - -σ) ^ (p - j) * ∑ i ∈ range (j + 1), N (p - j + i) * w ^ i
          = ∑ k ∈ range (p + 1), N0 k * (w - -σ) ^ k))
    (fun j c => loopM (j + 1) (fun i (c : Arr ℂ) => (do
      let k := p - j - 1 + i
      let a ← c.rd k
      let b ← c.rd (k + 1)
      c.wr k (F.csub a (F.mul s' b)) : Outcome (Arr ℂ))) c) e.coeffs p
    ⟨he.size, b, N0, hN0, hN1, hNκ, fun w => by
      simp only [Nat.sub_zero, zero_add, range_one, sum_singleton, add_zero, pow_zero, mul_one]
      rw [sum_range_succ, mul_comm (b p)], fun w => by
      simp only [Nat.sub_zero, zero_add, range_one, sum_singleton, add_zero, pow_zero, mul_one]
      rw [sum_range_succ, mul_comm (N0 p)]⟩
    (by
      rintro j hj c ⟨hc, t, N, ht0, htk, htκ, ht, hN⟩
      have hNk : ∀ k ≤ p, 0 ≤ N k := fun k hk => by
        rcases Nat.eq_zero_or_pos k with rfl | h
        · exact ht0.nonneg
        · exact (htk k h hk).nonneg
      have hfm : ∀ k, k + 1 ≤ p → Flr η (σ * N (k + 1)) := fun k hk => by
        rw [mul_comm]; exact hsc.kfl htκ hk (j := 1) (by rwa [pow_one]) (by omega)
      refine ⟨_, leShift_inner F p j s' c hc hj, rfl, sweep p (p - j - 1) s t, sweep p (p - j - 1) (-σ) N, ?_, ?_, ?_, ?_, ?_⟩
      · simp only [sweep]
        by_cases h : p - j - 1 ≤ 0 ∧ 0 < p
        · rw [if_pos h, if_pos h, if_pos h, neg_mul, sub_neg_eq_add]
          exact hF.csubR' ht0 (hF.cmul hs (htk (0 + 1) (by omega) (by omega)) (hfm 0 (by omega))).toR
            ((hsc.kfl1 htκ (by omega)).add (hfm 0 (by omega)) (hNk 0 (by omega)) (mul_nonneg hσ (hNk _ (by omega)))) (by omega) (by omega)
        · rw [if_neg h, if_neg h, if_neg h]
          exact ht0.mono hu (by omega) le_rfl
      · intro k hk0 hk
        simp only [sweep]
        by_cases h : p - j - 1 ≤ k ∧ k < p
        · rw [if_pos h, if_pos h, if_pos h, neg_mul, sub_neg_eq_add]
          exact hF.csub' (htk k hk0 hk) (hF.cmul hs (htk (k + 1) (by omega) (by omega)) (hfm k (by omega)))
            ((hsc.kfl1 htκ hk).add (hfm k (by omega)) (hNk k hk) (mul_nonneg hσ (hNk _ (by omega)))) (by omega) (by omega)
        · rw [if_neg h, if_neg h, if_neg h]
          exact (htk k hk0 hk).mono hu (by omega) le_rfl
      · rcases htκ with h0 | h0
        · left
          intro k hk
          simp only [sweep]
          by_cases h : p - j - 1 ≤ k ∧ k < p
          · rw [if_pos h, h0 k hk, h0 (k + 1) (by omega)]; simp
          · rw [if_neg h, h0 k hk]
        · right
          intro k hk
          simp only [sweep]
          by_cases h : p - j - 1 ≤ k ∧ k < p
          · rw [if_pos h]
            have := mul_nonneg hσ (hNk (k + 1) (by omega))
            linarith [h0 k hk]
          · rw [if_neg h]; exact h0 k hk
      · intro w; rw [horner_step p j hj s w t, ht w]
      · intro w; rw [horner_step p j hj (-σ) w N, hN w])
  have h6' : ∀ w, ∑ k ∈ range (p + 1), N k * w ^ k = ∑ k ∈ range (p + 1), N0 k * (w + σ) ^ k := fun w => by
    have := h6 w
    simpa using this
  have hNn : ∀ k ≤ p, 0 ≤ N0 k := fun k hk => by
    rcases Nat.eq_zero_or_pos k with rfl | h0
    · exact hN0.nonneg
    · exact (hN1 k h0 hk).nonneg
  refine ⟨arr, t, ?_, h2, fun w => by have := h5 w; simpa using this, N, h3, h4, hκ', ?_, ?_⟩
  · unfold leShift
    rw [he.order]
    exact h1
  · rw [h6' r]
    refine le_trans (sum_le_sum fun k hk => ?_) hN2
    exact mul_le_mul_of_nonneg_left (pow_le_pow_left₀ (by linarith) hrR k)
      (hNn k (by have := mem_range.mp hk; omega))
  · have e : ∑ i ∈ range p, ((i + 1 : ℕ) : ℝ) * N (i + 1) * r ^ i
        = ∑ i ∈ range p, ((i + 1 : ℕ) : ℝ) * N0 (i + 1) * (r + σ) ^ i := by
      have d1 := poly_deriv N p r
      have d2 := (poly_deriv N0 p (r + σ)).comp_add_const r σ
      have : (fun w => ∑ k ∈ range (p + 1), N k * w ^ k) = fun w => ∑ k ∈ range (p + 1), N0 k * (w + σ) ^ k :=
        funext h6'
      rw [this] at d1
      exact d1.unique d2
    rw [e]
    refine le_trans (sum_le_sum fun k hk => ?_) hN3
    have := hNn (k + 1) (by have := mem_range.mp hk; omega)
    exact mul_le_mul_of_nonneg_left (pow_le_pow_left₀ (by linarith) hrR k) (by positivity)

/-- Local expansion of the expansion of the parent. -/
theorem leOfLe_ap (hF : F.Low u η ρ) (bt : BinomialTable) (hbt : bt.Good) {n : ℕ} {e : Exp2} {c : ℂ} {p : ℕ} {b : ℕ → ℂ}
    {R r Mj Dj σ : ℝ} (hs : Scale η ρ θ τ p) (hσθ : θ ≤ σ) (he : AppL u (kap θ τ p) n e c p b R Mj Dj) (hp : p ≤ 1029) (hp0 : 0 < p) (center : Vec 2)
    (hσ : ‖c - toC center‖ ≤ σ) (hr : 0 ≤ r) (hrR : r + σ ≤ R) :
    ∃ (bt' : BinomialTable) (f : Exp2) (b' : ℕ → ℂ), leOfLe F bt center e = .ok (bt', f) ∧ bt'.Good ∧ bt'.maxOrder = max bt.maxOrder p ∧
      (p ≤ bt.maxOrder → bt' = bt) ∧ AppL u (kap θ τ p) (n + 3 * p) f (toC center) p b' r Mj Dj ∧
      ∀ z, leSum b' p (z - toC center) = leSum b p (z - c) := by
  obtain ⟨bt', f, h1, h2, h3, h4, rfl⟩ := Exp2.new_ok bt hbt center p hp
  obtain ⟨arr, b', h5, h6, h7, N, h8⟩ := leShift_ap hF hs hσθ he (hF.diff c (toC center) hσ (Or.inr (hs.le hσθ))) hr hrR
  refine ⟨bt', ⟨p, toC center, arr⟩, b', ?_, h2, h3, h4, ⟨rfl, rfl, h6, N, h8⟩, fun z => ?_⟩
  · unfold leOfLe
    rw [he.order, h1, ok_bind]
    simp only
    rw [if_pos hp0, he.center, h5, ok_bind]
  · unfold leSum; rw [h7]; congr 1; funext k; congr 2; ring

/-! ## Evaluation -/

theorem lePot_ap (hF : F.Low u η ρ) {n : ℕ} {e : Exp2} {c : ℂ} {p : ℕ} {b : ℕ → ℂ} {R Mj Dj : ℝ}
    (hs : Scale η ρ θ τ p) (hR : θ ≤ R) (he : AppL u (kap θ τ p) n e c p b R Mj Dj) (x : Vec 2) (hx : ‖toC x - c‖ ≤ R) :
    ∃ v, lePot F e x = .ok v ∧ Ap u (n + 3 * p + 2) Mj v (leSum b p (toC x - c)).re := by
  have hu := hF.nonneg
  obtain ⟨N, h0, h1, hκ, h2, h3⟩ := he.maj
  have hN := AppL.nonneg h0 h1
  have hR0 : 0 ≤ R := hs.th0.le.trans hR
  obtain ⟨st, ht1, ht2, ht3⟩ := loopM_invariant (fun i (s : ℂ × ℂ) =>
      ApR u (n + 2 * p + 1 + i) (∑ k ∈ range i, N k * R ^ k) s.1 (∑ k ∈ range i, b k * (toC x - c) ^ k) ∧
      s.2 = pw F (F.csub (toC x) c) 1 i)
    (fun k (s : ℂ × ℂ) => (do
      let a ← e.coeffs.rd k
      .ok (F.cadd s.1 (F.mul a s.2), F.mul s.2 (F.csub (toC x) c)) : Outcome (ℂ × ℂ)))
    (0, 1) (p + 1)
    ⟨by simpa using ApR.zero le_rfl hu, rfl⟩
    (by
      rintro i hi t ⟨ht1, ht2⟩
      refine ⟨_, by rw [he.rd (by omega), ok_bind], ?_, by simp only [ht2]; rfl⟩
      simp only
      rw [sum_range_succ, sum_range_succ, ht2]
      have hfl : ∀ j ≤ p, Flr η (N j * R ^ j) := fun j hj => hs.kfl hκ hj (pow_le_pow_left₀ hs.th0.le hR j) (by omega)
      rcases Nat.eq_zero_or_pos i with rfl | hi0
      · have : ApR u (n + 1) (N 0 * R ^ 0) (F.mul (e.coeffs.val 0) (pw F (F.csub (toC x) c) 1 0))
            (b 0 * (toC x - c) ^ 0) := by
          rw [pow_zero, pow_zero, mul_one, mul_one]
          refine h0.roundf hu (hs.kfl1 hκ (by omega)) ?_ fun h => ?_
          · have := hF.mul (e.coeffs.val 0) 1
            rwa [mul_one] at this
          · have := hF.mul0 (e.coeffs.val 0) 1
            rw [mul_one] at this
            exact this h
        exact hF.caddR' ht1 this (by simpa using hs.kfl1 hκ (Nat.zero_le p)) (by omega) (by omega)
      · have h5 := pw_ap hF (hF.diff (toC x) c hx (Or.inr (hs.le hR))) (Ap.refl (u := u) (le_of_eq (norm_one (α := ℂ)))) i fun j hj =>
          Or.inr (by rw [one_mul]; exact hs.powle hR (by omega))
        rw [one_mul, one_mul] at h5
        exact hF.caddR' ht1 (hF.cmul (h1 i hi0 (by omega)) h5 (hfl i (by omega))).toR (Flr.add
          (Flr.sum i (fun j hj => hfl j (by omega)) fun j hj => mul_nonneg (hN j (by omega)) (pow_nonneg hR0 j))
          (hfl i (by omega)) (sum_nonneg fun j hj => mul_nonneg (hN j (by have := mem_range.mp hj; omega)) (pow_nonneg hR0 j))
          (mul_nonneg (hN i (by omega)) (pow_nonneg hR0 i))) (by omega) (by omega))
  refine ⟨st.1.re, ?_, ?_⟩
  · unfold lePot
    simp only
    rw [he.center, he.size, ht1, ok_bind]
  · exact ht2.re.mono hu (by omega) h2

theorem leForce_ap (hF : F.Low u η ρ) {n : ℕ} {e : Exp2} {c : ℂ} {p : ℕ} {b : ℕ → ℂ} {R Mj Dj : ℝ}
    (hs : Scale η ρ θ τ p) (hR : θ ≤ R) (he : AppL u (kap θ τ p) n e c p b R Mj Dj) (x : Vec 2) (hx : ‖toC x - c‖ ≤ R) :
    ∃ f, leForce F e x = .ok (Exp2.fieldOf f) ∧ Ap u (n + 3 * p + 3) Dj f (leDeriv b p (toC x - c)) := by
  have hu := hF.nonneg
  obtain ⟨N, h0, h1, hκ, h2, h3⟩ := he.maj
  have hN := AppL.nonneg h0 h1
  have hR0 : 0 ≤ R := hs.th0.le.trans hR
  obtain ⟨st, ht1, ht2, ht3⟩ := loopM_invariant (fun i (s : ℂ × ℂ) =>
      Ap u (n + 2 * p + 3 + i) (∑ k ∈ range i, ((k + 1 : ℕ) : ℝ) * N (k + 1) * R ^ k) s.1
        (∑ k ∈ range i, ((k + 1 : ℕ) : ℂ) * b (k + 1) * (toC x - c) ^ k) ∧
      s.2 = pw F (F.csub (toC x) c) 1 i)
    (fun i (s : ℂ × ℂ) => (do
      let a ← e.coeffs.rd (i + 1)
      .ok (F.cadd s.1 (F.mul (F.rsc ((i + 1 : ℕ) : ℝ) a) s.2), F.mul s.2 (F.csub (toC x) c)) : Outcome (ℂ × ℂ)))
    (0, 1) p
    ⟨by simpa using Ap.zero (E := ℂ) le_rfl hu, rfl⟩
    (by
      rintro i hi t ⟨ht1, ht2⟩
      refine ⟨_, by rw [he.rd (by omega), ok_bind], ?_, by simp only [ht2]; rfl⟩
      simp only
      rw [sum_range_succ, sum_range_succ, ht2]
      have hk : Ap u 0 ((i + 1 : ℕ) : ℝ) ((i + 1 : ℕ) : ℝ) ((i + 1 : ℕ) : ℝ) := Ap.refl (by
        rw [Real.norm_eq_abs, abs_of_nonneg (by positivity)])
      have h5 := pw_ap hF (hF.diff (toC x) c hx (Or.inr (hs.le hR))) (Ap.refl (u := u) (le_of_eq (norm_one (α := ℂ)))) i fun j hj =>
          Or.inr (by rw [one_mul]; exact hs.powle hR (by omega))
      rw [one_mul, one_mul] at h5
      have h1j : ∀ j : ℕ, (1 : ℝ) ≤ ((j + 1 : ℕ) : ℝ) := fun j => by exact_mod_cast Nat.succ_le_succ (Nat.zero_le j)
      have hfl : ∀ j < p, Flr η (((j + 1 : ℕ) : ℝ) * N (j + 1) * R ^ j) := fun j hj => by
        rw [mul_assoc]
        exact Flr.scale (hs.kfl hκ (by omega) (pow_le_pow_left₀ hs.th0.le hR j) (by omega)) (h1j j)
          (mul_nonneg (hN _ (by omega)) (pow_nonneg hR0 j))
      have hnn : ∀ j < p, 0 ≤ ((j + 1 : ℕ) : ℝ) * N (j + 1) * R ^ j := fun j hj =>
        mul_nonneg (mul_nonneg (Nat.cast_nonneg _) (hN _ (by omega))) (pow_nonneg hR0 j)
      have h6 := hF.cmul (hF.rsc hk (h1 (i + 1) (by omega) (by omega)) (Flr.scale (hs.kfl1 hκ (by omega)) (h1j i)
        (hN _ (by omega)))) h5 (hfl i hi)
      rw [Complex.ofReal_natCast] at h6
      exact hF.cadd' ht1 h6 (Flr.add (Flr.sum i (fun j hj => hfl j (by omega)) fun j hj => hnn j (by omega)) (hfl i hi)
        (sum_nonneg fun j hj => hnn j (by have := mem_range.mp hj; omega)) (hnn i hi)) (by omega) (by omega))
  refine ⟨st.1, ?_, ht2.mono hu (by omega) h3⟩
  unfold leForce
  simp only
  rw [he.center, he.size, Nat.add_sub_cancel, ht1, ok_bind]
  rfl

end Lo
end FMM
