import Verif.LowCalc
import Verif.FltOps

/-!
# Multipole operations with gradual underflow

The error bounds of `FltOps`, for operations with a floor: all lengths and their reciprocals are at least `θ`, strengths are
zero or at least `τ`, and the floor `η` is so small that no product of an expansion of order `p` falls below it.
-/

namespace FMM

/-- The floor is below all products which occur. -/
structure Scale (η ρ θ τ : ℝ) (p : ℕ) : Prop where
  th0 : 0 < θ
  th1 : θ ≤ 1
  tau0 : 0 < τ
  tau1 : τ ≤ 1
  eta : 0 ≤ η
  floor : η * (p + 1) ≤ τ * θ ^ (2 * p + 2)
  rho : 2 * ρ ≤ θ ^ 2

theorem Flr.sum {η : ℝ} {f : ℕ → ℝ} (n : ℕ) (h : ∀ i < n, Flr η (f i)) (h0 : ∀ i < n, 0 ≤ f i) :
    Flr η (∑ i ∈ Finset.range n, f i) := by
  induction n with
  | zero => exact Or.inl (by simp)
  | succ n ih =>
    rw [Finset.sum_range_succ]
    exact (ih (fun i hi => h i (by omega)) fun i hi => h0 i (by omega)).add (h n (by omega))
      (Finset.sum_nonneg fun i hi => h0 i (by have := Finset.mem_range.mp hi; omega)) (h0 n (by omega))

namespace Scale
variable {η ρ θ τ : ℝ} {p : ℕ} (hs : Scale η ρ θ τ p)
include hs

theorem tpow {k : ℕ} (hk : k ≤ 2 * p + 2) : η * (p + 1) ≤ τ * θ ^ k :=
  hs.floor.trans (mul_le_mul_of_nonneg_left (pow_le_pow_of_le_one hs.th0.le hs.th1 hk) hs.tau0.le)

theorem eta_le : η ≤ η * (p + 1) := by
  have := hs.eta
  have : (0 : ℝ) ≤ p := Nat.cast_nonneg p
  nlinarith

theorem pow {k : ℕ} (hk : k ≤ 2 * p + 2) : η ≤ θ ^ k := by
  have h1 := hs.tpow hk
  have h2 := hs.eta_le
  have h3 := mul_le_of_le_one_left (pow_nonneg hs.th0.le k) hs.tau1
  linarith

theorem powle {k : ℕ} {x : ℝ} (hx : θ ≤ x) (hk : k ≤ 2 * p + 2) : η ≤ x ^ k :=
  (hs.pow hk).trans (pow_le_pow_left₀ hs.th0.le hx k)

theorem le {x : ℝ} (hx : θ ≤ x) : η ≤ x := by have := hs.powle hx (k := 1) (by omega); rwa [pow_one] at this

theorem one : η ≤ 1 := by have := hs.powle hs.th1 (k := 0) (by omega); rwa [pow_zero] at this

/-- A strength times at most `2 p + 2` lengths. -/
theorem str {A c : ℝ} {k : ℕ} (hA : Flr τ A) (hk : k ≤ 2 * p + 2) (hc : θ ^ k ≤ c) : Flr η (A * c) := by
  rcases hA with rfl | hA
  · exact Or.inl (zero_mul _)
  · refine Or.inr (hs.eta_le.trans ((hs.tpow hk).trans ?_))
    exact mul_le_mul hA hc (pow_nonneg hs.th0.le k) (hs.tau0.le.trans hA)

theorem strdiv {A X : ℝ} {k l : ℕ} (hA : Flr τ A) (hk : k ≤ 2 * p + 2) (hl : 0 < l) (hlp : l ≤ p + 1)
    (hX : θ ^ k / l ≤ X) : Flr η (A * X) := by
  rcases hA with rfl | hA
  · exact Or.inl (zero_mul _)
  · right
    have h1 := hs.tpow hk
    have hl0 : (0 : ℝ) < l := by exact_mod_cast hl
    have hl1 : (l : ℝ) ≤ p + 1 := by exact_mod_cast hlp
    have hk0 := pow_nonneg hs.th0.le k
    have h2 : τ * (θ ^ k / l) ≤ A * X := mul_le_mul hA hX (by positivity) (hs.tau0.le.trans hA)
    refine le_trans ?_ h2
    rw [← mul_div_assoc, le_div_iff₀ hl0]
    exact (mul_le_mul_of_nonneg_left hl1 hs.eta).trans h1

theorem pow2 {x y : ℝ} (hx : θ ≤ x) (hy : θ ≤ y) (a b : ℕ) : θ ^ (a + b) ≤ x ^ a * y ^ b := by
  rw [pow_add]
  have := hs.th0.le
  exact mul_le_mul (pow_le_pow_left₀ this hx a) (pow_le_pow_left₀ this hy b) (pow_nonneg this b)
    (pow_nonneg (this.trans hx) a)

/-- A separation. -/
theorem far {z : ℂ} (hz : θ ≤ ‖z‖) : η ≤ ‖z‖ ∧ 2 * ρ ≤ ‖z‖ := by
  refine ⟨hs.le hz, hs.rho.trans ?_⟩
  have := hs.th0
  have := hs.th1
  nlinarith

theorem far2 {z : ℂ} (hz : θ ≤ ‖z‖) : η ≤ ‖z‖ * ‖z‖ ∧ 2 * ρ ≤ ‖z‖ * ‖z‖ := by
  have := pow_le_pow_left₀ hs.th0.le hz 2
  rw [pow_two ‖z‖] at this
  exact ⟨(hs.pow (by omega)).trans this, hs.rho.trans this⟩

end Scale

namespace Lo
open Finset Fl
variable {F : Flt} {u η ρ θ τ : ℝ}

/-! ## Running products and quotients -/

theorem pw_ap (hF : F.Low u η ρ) {m n0 : ℕ} {D M : ℝ} {x' x a' a : ℂ} (hx : Ap u m D x' x) (ha : Ap u n0 M a' a) (i : ℕ)
    (hf : ∀ j ≤ i, Flr η (M * D ^ j)) :
    Ap u (n0 + (m + 1) * i) (M * D ^ i) (pw F x' a' i) (a * x ^ i) := by
  induction i with
  | zero => simpa [pw] using ha
  | succ i ih =>
    have := hF.cmul (ih fun j hj => hf j (by omega)) hx (by
      have := hf (i + 1) le_rfl
      rwa [pow_succ, ← mul_assoc] at this)
    rw [pow_succ, pow_succ, ← mul_assoc, ← mul_assoc]
    exact this.mono hF.nonneg (by ring_nf; rfl) le_rfl

theorem dv_ap (hF : F.Low u η ρ) {n0 : ℕ} {D M : ℝ} {x y a' a : ℂ} (h : η ≤ ‖x - y‖) (h2 : 2 * ρ ≤ ‖x - y‖)
    (hD : ‖x - y‖⁻¹ ≤ D) (ha : Ap u n0 M a' a) (i : ℕ) (hf : ∀ j ≤ i, Flr η (M * D ^ j)) :
    Ap u (n0 + 3 * i) (M * D ^ i) (dv F (F.csub x y) a' i) (a * (x - y)⁻¹ ^ i) := by
  induction i with
  | zero => simpa [dv] using ha
  | succ i ih =>
    have := hF.divDiff x y h h2 hD (ih fun j hj => hf j (by omega)) (by
      have := hf (i + 1) le_rfl
      rwa [pow_succ, ← mul_assoc] at this)
    rw [pow_succ, pow_succ, ← mul_assoc, ← mul_assoc]
    exact this.mono hF.nonneg (by ring_nf; rfl) le_rfl

theorem meFold_ap (hF : F.Low u η ρ) (p : ℕ) (hs : Scale η ρ θ τ p) (c : ℂ) {R : ℝ} (hR : θ ≤ R) (S : List (Source 2))
    (hS : ∀ s ∈ S, ‖toC s.pos - c‖ ≤ R) (hq : ∀ s ∈ S, Flr τ |s.q|) :
    ∀ (arr : Arr ℂ) (a : ℕ → ℂ) (j : ℕ) (A : ℝ), Flr τ A → 0 ≤ A → arr.size = p + 1 → (arr.val 0).im = 0 → (a 0).im = 0 →
      (∀ k ≤ p, Ap u (2 * p + j) (A * R ^ k) (arr.val k) (a k)) →
      ∃ arr', S.foldlM (meAddSource F p c) arr = .ok arr' ∧ arr'.size = p + 1 ∧ (arr'.val 0).im = 0 ∧
        ∀ k ≤ p, Ap u (2 * p + (j + S.length)) ((A + totalStrength S) * R ^ k) (arr'.val k)
          (a k + (if k = 0 then (S.map fun s => (s.q : ℂ)).sum
            else -(S.map fun s => (s.q : ℂ) * (toC s.pos - c) ^ k).sum)) := by
  induction S with
  | nil =>
    intro arr a j A _ _ hsz h0 _ h
    exact ⟨arr, rfl, hsz, h0, fun k hk => by simpa [totalStrength_eq] using h k hk⟩
  | cons s S ih =>
    intro arr a j A hA hA0 hsz h0 h0' h
    have hqs := hq s (by simp)
    have hA' : Flr τ (A + |s.q|) := hA.add hqs hA0 (abs_nonneg _)
    obtain ⟨b, hb1, hb2, hb3, hb4⟩ := meAddSource_ok F p c arr hsz s
    have hz : Ap u 1 R (F.csub (toC s.pos) c) (toC s.pos - c) := hF.diff _ _ (hS s (by simp)) (Or.inr (hs.le hR))
    have hq0 : Ap u 0 |s.q| s.q s.q := Ap.refl (by rw [Real.norm_eq_abs])
    have hstep := hF.caddr (h 0 (by omega)) h0 h0' (le_refl |s.q|) (by
      have := hs.str hA' (k := 0) (c := 1) (by omega) (by simp)
      simpa using this)
    obtain ⟨arr', h1, h2, h3, h4⟩ := ih (fun t ht => hS t (by simp [ht])) (fun t ht => hq t (by simp [ht])) b
      (fun k => a k + (if k = 0 then (s.q : ℂ) else -((s.q : ℂ) * (toC s.pos - c) ^ k))) (j + 1) (A + |s.q|) hA' (by positivity) hb2
      (by rw [hb3]; exact hstep.2) (by simp [h0']) (fun k hk => by
        rcases Nat.eq_zero_or_pos k with rfl | hk0
        · rw [hb3, if_pos rfl]
          exact hstep.1.mono hF.nonneg le_rfl (by simp)
        · rw [hb4 k hk0 hk, if_neg (by omega), ← sub_eq_add_neg, add_mul]
          have hp := hF.rsc hq0 (pw_ap hF hz hz (k - 1) fun j hj => Or.inr (by
            rw [← pow_succ']; exact hs.powle hR (by omega))) (by
            rw [← pow_succ', Nat.sub_add_cancel hk0]
            exact hs.str hqs (by omega) (pow_le_pow_left₀ hs.th0.le hR k))
          have e1 : R * R ^ (k - 1) = R ^ k := by rw [← pow_succ', Nat.sub_add_cancel hk0]
          have e2 : (toC s.pos - c) * (toC s.pos - c) ^ (k - 1) = (toC s.pos - c) ^ k := by
            rw [← pow_succ', Nat.sub_add_cancel hk0]
          rw [e1, e2] at hp
          exact (hF.csub (h k hk) (hp.mono hF.nonneg (m := 2 * p + j) (by omega) le_rfl) (by
            rw [← add_mul]
            exact hs.str hA' (by omega) (pow_le_pow_left₀ hs.th0.le hR k))).mono hF.nonneg (by omega) le_rfl)
    refine ⟨arr', by rw [List.foldlM_cons, hb1, ok_bind, h1], h2, h3, fun k hk => ?_⟩
    have := h4 k hk
    rw [totalStrength_cons, List.length_cons]
    have e3 : a k + (if k = 0 then ((s :: S).map fun s => (s.q : ℂ)).sum
            else -((s :: S).map fun s => (s.q : ℂ) * (toC s.pos - c) ^ k).sum)
        = a k + (if k = 0 then (s.q : ℂ) else -((s.q : ℂ) * (toC s.pos - c) ^ k))
          + (if k = 0 then (S.map fun s => (s.q : ℂ)).sum
            else -(S.map fun s => (s.q : ℂ) * (toC s.pos - c) ^ k).sum) := by
      simp only [List.map_cons, List.sum_cons]
      split_ifs <;> ring
    rw [e3]
    exact this.mono hF.nonneg (by omega) (by rw [add_assoc])

theorem totalStrength_flr {S : List (Source 2)} (hq : ∀ s ∈ S, Flr τ |s.q|) : Flr τ (totalStrength S) := by
  induction S with
  | nil => rw [totalStrength_nil]; exact Flr.zero
  | cons s S ih =>
    rw [totalStrength_cons]
    exact (hq s (by simp)).add (ih fun t ht => hq t (by simp [ht])) (abs_nonneg _) (totalStrength_nonneg S)

/-- Multipole expansion of sources: `2 p + |S| + 1` roundings. -/
theorem meOfSources_ap (hF : F.Low u η ρ) (bt : BinomialTable) (hbt : bt.Good) (center : Vec 2) (p : ℕ) (hs : Scale η ρ θ τ p)
    (hp : p ≤ 1029) (S : List (Source 2)) {R : ℝ} (hR : θ ≤ R) (hS : ∀ s ∈ S, ‖toC s.pos - toC center‖ ≤ R)
    (hq : ∀ s ∈ S, Flr τ |s.q|) :
    ∃ bt' e, meOfSources F bt center p S = .ok (bt', e) ∧ bt'.Good ∧ bt'.maxOrder = max bt.maxOrder p ∧
      (p ≤ bt.maxOrder → bt' = bt) ∧
      AppM u (2 * p + S.length + 1) e (toC center) p (meCoeff (toC center) S) (totalStrength S) R := by
  obtain ⟨bt', e, h1, h2, h3, h4, rfl⟩ := Exp2.new_ok bt hbt center p hp
  obtain ⟨arr', h5, h6, h7, h8⟩ := meFold_ap hF p hs (toC center) hR S hS hq (Arr.new (p + 1)) (fun _ => 0) 0 0 Flr.zero le_rfl rfl rfl rfl
    (fun k _ => by simpa [Arr.new] using Ap.zero (E := ℂ) (le_refl (0 : ℝ)) hF.nonneg)
  refine ⟨bt', ⟨p, toC center, ⟨p + 1, fun k => if 0 < k ∧ k ≤ p then F.cdr (arr'.val k) k else arr'.val k⟩⟩,
    ?_, h2, h3, h4, ?_⟩
  · unfold meOfSources
    rw [h1, ok_bind]
    simp only
    rw [h5, ok_bind, divByIndex_ok F p arr' h6, ok_bind]
  · refine ⟨rfl, rfl, rfl, by simpa using h7, meCoeff_zero_im _ _, fun k hk => ?_⟩
    have h9 := h8 k hk
    simp only [zero_add] at h9
    have hT : 0 ≤ totalStrength S * R ^ k := h9.nonneg
    simp only
    unfold meCoeff
    rcases Nat.eq_zero_or_pos k with rfl | hk0
    · rw [if_neg (by omega), if_pos rfl]
      exact h9.mono hF.nonneg (by omega) le_rfl
    · rw [if_pos ⟨hk0, hk⟩, if_neg (by omega)]
      rw [if_neg (by omega)] at h9
      have hk1 : (1 : ℝ) ≤ k := by exact_mod_cast hk0
      have := hF.cdr h9 (r := (k : ℝ)) (by linarith) (by
        rw [mul_div_assoc]
        exact hs.strdiv (totalStrength_flr hq) (k := k) (by omega) hk0 (by omega)
          (div_le_div_of_nonneg_right (pow_le_pow_left₀ hs.th0.le hR k) (by linarith)))
      rw [Complex.ofReal_natCast] at this
      exact this.mono hF.nonneg le_rfl (div_le_self hT hk1)

/-! ## Multipole-to-multipole -/

/-- Shift of a multipole expansion: `3 p + 3` more roundings. -/
theorem meShift_ap (hF : F.Low u η ρ) (bt : BinomialTable) (hbt : bt.Good) {n : ℕ} {e : Exp2} {c : ℂ} {p : ℕ} {a : ℕ → ℂ}
    {A R σ : ℝ} (he : AppM u n e c p a A R) (hsc : Scale η ρ θ τ p) (hAf : Flr τ A) (hRθ : θ ≤ R) (hσθ : θ ≤ σ)
    (hp : p ≤ bt.maxOrder) {s' s : ℂ} (hs : Ap u 1 σ s' s) :
    ∃ arr, meShift F bt e s' = .ok arr ∧ arr.size = p + 1 ∧ (arr.val 0).im = 0 ∧
      ∀ l ≤ p, Ap u (n + 3 * p + 3) (A * (R + σ) ^ l) (arr.val l) (Exp2.shiftCoeff a s l) := by
  obtain ⟨pow, hpow, hpsz, hpv⟩ := powTable_ok F s' p
  have hσ : 0 ≤ σ := hs.nonneg
  have hR : 0 ≤ R := hsc.th0.le.trans hRθ
  have hu := hF.nonneg
  have hA : 0 ≤ A := by simpa using (he.ap 0 (by omega)).nonneg
  have hpa : ∀ k ≤ p, Ap u (2 * k) (σ ^ k) (pow.val k) (s ^ k) := fun k hk => by
    have := pw_ap hF hs (Ap.refl (u := u) (le_of_eq (norm_one (α := ℂ)))) k fun j hj => Or.inr (by
      rw [one_mul]; exact hsc.powle hσθ (by omega))
    rw [hpv k hk]
    simpa using this
  have ha' : ((a 0).re : ℂ) = a 0 := Complex.ext (by simp) (by simp [he.im'])
  have hQ : Ap u n A (e.coeffs.val 0).re (a 0).re := by
    have := (he.ap 0 (by omega)).re
    simpa using this
  have hmain := loopM_invariant (fun i (sc : Arr ℂ) => sc.size = p + 1 ∧ (sc.val 0).im = 0 ∧
      ∀ l, l ≤ i → Ap u (n + 3 * p + 3) (A * (R + σ) ^ l) (sc.val l) (Exp2.shiftCoeff a s l))
    (fun i sc => (do
      let l := i + 1
      let p ← pow.rd l
      let sc ← sc.wr l (F.cdr (F.rsc (-(e.coeffs.val 0).re) p) ((l : ℕ) : ℝ))
      loopM l (fun i' sc => do
        let k := i' + 1
        let a ← sc.rd l
        let ck ← e.coeffs.rd k
        let p ← pow.rd (l - k)
        let b ← bt.get (l - 1) (k - 1)
        sc.wr l (F.cadd a (F.rsc (F.rnd b) (F.mul ck p)))) sc : Outcome (Arr ℂ)))
    ⟨p + 1, Function.update (fun _ => 0) 0 ((e.coeffs.val 0).re : ℂ)⟩ p
    ⟨rfl, by simp, fun l hl => by
      obtain rfl : l = 0 := by omega
      simp only [Function.update_self, Exp2.shiftCoeff, if_true, pow_zero, mul_one]
      rw [← ha']
      exact hQ.ofReal.mono hu (by omega) le_rfl⟩
    (by
      rintro i hi sc ⟨hsz, him, hap⟩
      have hl0 : (0 : ℝ) < ((i + 1 : ℕ) : ℝ) := by positivity
      have h0 : Ap u (n + 2 * p + 3) (A * (σ ^ (i + 1) / ((i + 1 : ℕ) : ℝ)))
          (F.cdr (F.rsc (-(e.coeffs.val 0).re) (pow.val (i + 1))) ((i + 1 : ℕ) : ℝ))
          (-a 0 * s ^ (i + 1) / ((i + 1 : ℕ) : ℂ)) := by
        have h1 := hF.cdr (hF.rsc hQ.neg (hpa (i + 1) (by omega))
          (hsc.str hAf (by omega) (pow_le_pow_left₀ hsc.th0.le hσθ (i + 1)))) hl0 (by
          rw [mul_div_assoc]
          exact hsc.strdiv hAf (k := i + 1) (by omega) (by omega) (by omega)
            (div_le_div_of_nonneg_right (pow_le_pow_left₀ hsc.th0.le hσθ (i + 1)) hl0.le))
        rw [Complex.ofReal_neg, ha', Complex.ofReal_natCast, mul_div_assoc] at h1
        exact h1.mono hu (by omega) le_rfl
      obtain ⟨sc', hr, hsz', hk, hv⟩ := loopM_invariant (fun i' (sc' : Arr ℂ) => sc'.size = p + 1 ∧
          (∀ k, k ≠ i + 1 → sc'.val k = sc.val k) ∧
          Ap u (n + 2 * p + 3 + i') (A * (σ ^ (i + 1) / ((i + 1 : ℕ) : ℝ)
            + ∑ m ∈ range i', R ^ (m + 1) * σ ^ (i + 1 - (m + 1)) * ((i + 1 - 1).choose m : ℝ)))
            (sc'.val (i + 1)) (-a 0 * s ^ (i + 1) / ((i + 1 : ℕ) : ℂ)
              + ∑ m ∈ range i', a (m + 1) * s ^ (i + 1 - (m + 1)) * ((i + 1 - 1).choose m : ℂ)))
        (fun i' sc => (do
          let k := i' + 1
          let a ← sc.rd (i + 1)
          let ck ← e.coeffs.rd k
          let p ← pow.rd (i + 1 - k)
          let b ← bt.get (i + 1 - 1) (k - 1)
          sc.wr (i + 1) (F.cadd a (F.rsc (F.rnd b) (F.mul ck p))) : Outcome (Arr ℂ)))
        ⟨p + 1, Function.update sc.val (i + 1)
          (F.cdr (F.rsc (-(e.coeffs.val 0).re) (pow.val (i + 1))) ((i + 1 : ℕ) : ℝ))⟩ (i + 1)
        ⟨rfl, fun k hk => Function.update_of_ne hk _ _, by simpa using h0⟩
        (by
          rintro i' hi' t ⟨ht, htk, htv⟩
          simp only
          rw [Arr.rd_ok _ (by omega), ok_bind, he.rd (by omega), ok_bind, Arr.rd_ok _ (by omega), ok_bind,
            BinomialTable.get_ok hbt (by omega) (by omega) (by omega), ok_bind, Arr.wr_ok _ (by omega)]
          refine ⟨_, rfl, ht, fun k hk => ?_, ?_⟩
          · simp only; rw [Function.update_of_ne hk, htk k hk]
          · simp only [Function.update_self]
            rw [sum_range_succ, sum_range_succ, ← add_assoc (σ ^ (i + 1) / _), ← add_assoc (-a 0 * s ^ (i + 1) / _),
              mul_add A]
            have hbv : (binVal bt.maxOrder (i + 1 - 1) (i' + 1 - 1) : ℝ) = ((i + 1 - 1).choose i' : ℝ) := by
              unfold binVal; rw [if_pos (by omega)]; rfl
            rw [hbv]
            have hb1 : (1 : ℝ) ≤ ((i + 1 - 1).choose i' : ℝ) := by exact_mod_cast Nat.choose_pos (by omega)
            have hb : Ap u 1 ((i + 1 - 1).choose i' : ℝ) (F.rnd ((i + 1 - 1).choose i' : ℝ))
                ((i + 1 - 1).choose i' : ℝ) := hF.rrnd (Ap.refl (by
                  rw [Real.norm_eq_abs, abs_of_nonneg (by positivity)])) (Or.inr (hsc.one.trans hb1))
            have hfl : Flr η (A * R ^ (i' + 1) * σ ^ (i + 1 - (i' + 1))) := by
              rw [mul_assoc]
              exact hsc.str hAf (by omega) (hsc.pow2 hRθ hσθ (i' + 1) (i + 1 - (i' + 1)))
            have h2 := hF.rsc hb (hF.cmul (he.ap (i' + 1) (by omega)) (hpa (i + 1 - (i' + 1)) (by omega)) hfl)
              (hfl.scale hb1 (by positivity))
            rw [Complex.ofReal_natCast] at h2
            have e1 : ((i + 1 - 1).choose i' : ℝ) * (A * R ^ (i' + 1) * σ ^ (i + 1 - (i' + 1)))
              = A * (R ^ (i' + 1) * σ ^ (i + 1 - (i' + 1)) * ((i + 1 - 1).choose i' : ℝ)) := by ring
            have e2 : ((i + 1 - 1).choose i' : ℂ) * (a (i' + 1) * s ^ (i + 1 - (i' + 1)))
              = a (i' + 1) * s ^ (i + 1 - (i' + 1)) * ((i + 1 - 1).choose i' : ℂ) := by ring
            rw [e1, e2] at h2
            exact hF.cadd' htv h2 (by
              rw [← mul_add]
              refine hsc.strdiv hAf (k := i + 1) (l := i + 1) (by omega) (by omega) (by omega) ?_
              have a1 : θ ^ (i + 1) / ((i + 1 : ℕ) : ℝ) ≤ σ ^ (i + 1) / ((i + 1 : ℕ) : ℝ) :=
                div_le_div_of_nonneg_right (pow_le_pow_left₀ hsc.th0.le hσθ (i + 1)) hl0.le
              have a2 : 0 ≤ ∑ m ∈ range i', R ^ (m + 1) * σ ^ (i + 1 - (m + 1)) * ((i + 1 - 1).choose m : ℝ) :=
                sum_nonneg fun m _ => by positivity
              have a3 : 0 ≤ R ^ (i' + 1) * σ ^ (i + 1 - (i' + 1)) * ((i + 1 - 1).choose i' : ℝ) := by positivity
              linarith) (by omega) (by omega))
      refine ⟨sc', ?_, hsz', by rw [hk 0 (by omega)]; exact him, fun l hl => ?_⟩
      · simp only
        rw [Arr.rd_ok _ (by omega), ok_bind, Arr.wr_ok _ (by omega), ok_bind, hsz]
        exact hr
      · rcases Nat.lt_or_ge i l with h | h
        · obtain rfl : l = i + 1 := by omega
          have hb := sum_binomial_le R σ hR hσ (i + 1) (by omega)
          unfold Exp2.shiftCoeff
          rw [if_neg (by omega)]
          exact hv.mono hu (by omega) (mul_le_mul_of_nonneg_left hb hA)
        · rw [hk l (by omega)]; exact hap l h)
  obtain ⟨arr, h1, h2, h3, h4⟩ := hmain
  refine ⟨arr, ?_, h2, h3, h4⟩
  unfold meShift
  rw [he.order, hpow, ok_bind, he.rd (by omega), ok_bind]
  simp only
  rw [Arr.wr_ok _ (by simp [Arr.new]), ok_bind]
  exact h1

/-- Multipole expansion of the expansions of the children. -/
theorem meOfMes_ap (hF : F.Low u η ρ) (bt : BinomialTable) (hbt : bt.Good) (center : Vec 2) (p : ℕ) (hp : p ≤ 1029) {n : ℕ}
    {R σ : ℝ} (hs : Scale η ρ θ τ p) (hRθ : θ ≤ R) (hσθ : θ ≤ σ) (L : List (Exp2 × ℂ × List (Source 2))) (hne : L ≠ [])
    (hL : ∀ x ∈ L, AppM u n x.1 x.2.1 p (meCoeff x.2.1 x.2.2) (totalStrength x.2.2) R ∧ ‖x.2.1 - toC center‖ ≤ σ ∧
      ∀ s ∈ x.2.2, Flr τ |s.q|) :
    ∃ bt' e, meOfMes F bt center (L.map (·.1)) = .ok (bt', e) ∧ bt'.Good ∧
      bt'.maxOrder = max bt.maxOrder p ∧ (p ≤ bt.maxOrder → bt' = bt) ∧
      AppM u (n + 3 * p + 3 + L.length) e (toC center) p (meCoeff (toC center) (L.flatMap (·.2.2)))
        (totalStrength (L.flatMap (·.2.2))) (R + σ) := by
  obtain ⟨bt', e, h1, h2, h3, h4, rfl⟩ := Exp2.new_ok bt hbt center p hp
  have hfold : ∀ (L : List (Exp2 × ℂ × List (Source 2))) (arr : Arr ℂ) (a : ℕ → ℂ) (j : ℕ) (A : ℝ), Flr τ A → 0 ≤ A → arr.size = p + 1 →
      (arr.val 0).im = 0 →
      (∀ x ∈ L, AppM u n x.1 x.2.1 p (meCoeff x.2.1 x.2.2) (totalStrength x.2.2) R ∧ ‖x.2.1 - toC center‖ ≤ σ ∧
        ∀ s ∈ x.2.2, Flr τ |s.q|) →
      (∀ k ≤ p, Ap u (n + 3 * p + 3 + j) (A * (R + σ) ^ k) (arr.val k) (a k)) →
      ∃ arr', (L.map (·.1)).foldlM (fun c me => do
        let sh ← meShift F bt' me (F.csub me.center (toC center))
        addCoeffs F c sh) arr = .ok arr' ∧ arr'.size = p + 1 ∧ (arr'.val 0).im = 0 ∧
        ∀ k ≤ p, Ap u (n + 3 * p + 3 + (j + L.length)) ((A + totalStrength (L.flatMap (·.2.2))) * (R + σ) ^ k)
          (arr'.val k) (a k + meCoeff (toC center) (L.flatMap (·.2.2)) k) := by
    intro L
    induction L with
    | nil =>
      intro arr a j A _ _ ha hi _ h
      exact ⟨arr, rfl, ha, hi, fun k hk => by simpa [meCoeff_nil, totalStrength_eq] using h k hk⟩
    | cons x L ih =>
      intro arr a j A hA hA0 ha hi hx h
      obtain ⟨hx0, hx1, hx2⟩ := hx x (by simp)
      have hfx := totalStrength_flr hx2
      have hAx : Flr τ (A + totalStrength x.2.2) := hA.add hfx hA0 (totalStrength_nonneg _)
      obtain ⟨sh, hs1, hs2, hs3, hs4⟩ := meShift_ap hF bt' h2 hx0 hs hfx hRθ hσθ (by omega)
        (hF.diff x.2.1 (toC center) hx1 (Or.inr (hs.le hσθ)))
      obtain ⟨arr', ha1, ha2, ha3, ha4⟩ := ih ⟨arr.size, fun k => if k < arr.size then F.cadd (arr.val k) (sh.val k)
        else arr.val k⟩ (fun k => a k + meCoeff (toC center) x.2.2 k) (j + 1) (A + totalStrength x.2.2) hAx (add_nonneg hA0 (totalStrength_nonneg _)) ha (by
          simp only
          rw [if_pos (by omega)]
          unfold Flt.cadd
          simp only [hi, hs3, add_zero]
          exact hF.rnd0) (fun y hy => hx y (by simp [hy])) (fun k hk => by
          simp only
          rw [if_pos (by omega), add_mul]
          have h9 := hs4 k hk
          rw [Exp2.shiftCoeff_meCoeff] at h9
          exact hF.cadd' (h k hk) h9 (by
            rw [← add_mul]
            exact hs.str hAx (k := k) (by omega) (pow_le_pow_left₀ hs.th0.le (by linarith [hs.th0]) k)) (by omega) (by omega))
      refine ⟨arr', ?_, ha2, ha3, fun k hk => ?_⟩
      · rw [List.map_cons, List.foldlM_cons, hx0.center, hs1, ok_bind, addCoeffs_ok F _ _ (by omega), ok_bind, ha1]
      · have := ha4 k hk
        rw [List.flatMap_cons, meCoeff_append, totalStrength_append, List.length_cons, ← add_assoc (a k),
          ← add_assoc A]
        exact this.mono hF.nonneg (by omega) le_rfl
  obtain ⟨arr', ha1, ha2, ha3, ha4⟩ := hfold L (Arr.new (p + 1)) (fun _ => 0) 0 0 Flr.zero le_rfl rfl rfl hL (fun k _ => by
    simpa [Arr.new] using Ap.zero (E := ℂ) (le_refl (0 : ℝ)) hF.nonneg)
  refine ⟨bt', ⟨p, toC center, arr'⟩, ?_, h2, h3, h4, rfl, rfl, ha2, ha3, meCoeff_zero_im _ _, fun k hk => ?_⟩
  · cases L with
    | nil => exact absurd rfl hne
    | cons x L =>
      rw [List.map_cons] at ha1 ⊢
      unfold meOfMes
      simp only
      rw [(hL x (by simp)).1.order, h1, ok_bind]
      simp only
      rw [ha1, ok_bind]
  · have := ha4 k hk
    simpa using this

/-! ## Evaluation -/

theorem mePot_ap (hF : F.Low u η ρ) {n : ℕ} {e : Exp2} {c : ℂ} {p : ℕ} {a : ℕ → ℂ} {A R : ℝ} (he : AppM u n e c p a A R)
    (hs : Scale η ρ θ τ p) (hA : Flr τ A) (hR : θ ≤ R) (x : Vec 2) (hxθ : θ ≤ ‖toC x - c‖) {ζ Λ : ℝ} (hζ : ‖toC x - c‖⁻¹ ≤ ζ)
    (hζθ : θ ≤ ζ) (hΛ : |Real.log ‖toC x - c‖| ≤ Λ) :
    ∃ v, mePot F e x = .ok v ∧ Ap u (n + 4 * p + 4) (mePotMaj A R ζ Λ p) v (meSum a p (toC x - c)).re := by
  have hu := hF.nonneg
  have hx : toC x - c ≠ 0 := norm_pos_iff.mp (hs.th0.trans_le hxθ)
  obtain ⟨hf1, hf2⟩ := hs.far hxθ
  have hA0 : 0 ≤ A := by simpa using (he.ap 0 (by omega)).nonneg
  have hR0 : 0 ≤ R := hs.th0.le.trans hR
  have hζ0 : 0 ≤ ζ := hs.th0.le.trans hζθ
  have hQ : Ap u n A (e.coeffs.val 0).re (a 0).re := by
    have := (he.ap 0 (by omega)).re
    simpa using this
  have ha' : ((a 0).re : ℂ) = a 0 := Complex.ext (by simp) (by simp [he.im'])
  have hL : 1 ≤ Λ + Real.pi := by linarith [Real.two_le_pi, (abs_nonneg _).trans hΛ]
  have hlog := hF.rscR hQ (hF.logDiff hx (hF.csub_rel hf1) hΛ) (hs.str hA (k := 0) (by omega) (by simpa using hL))
  rw [ha'] at hlog
  have hinv := hF.inv (toC x) c hf1 hf2 hζ (hs.le hζθ)
  obtain ⟨st, h1, h2, h3⟩ := loopM_invariant (fun i (s : ℂ × ℂ) =>
      ApR u (n + 3 * p + 4 + i) (A * (Λ + Real.pi) + ∑ m ∈ range i, A * R ^ (m + 1) * ζ ^ (m + 1)) s.1
        (a 0 * Complex.log (toC x - c) + ∑ m ∈ range i, a (m + 1) * (toC x - c)⁻¹ ^ (m + 1)) ∧
      s.2 = dv F (F.csub (toC x) c) (F.div 1 (F.csub (toC x) c)) i)
    (fun i (s : ℂ × ℂ) => (do
      let a ← e.coeffs.rd (i + 1)
      .ok (F.cadd s.1 (F.mul a s.2), F.div s.2 (F.csub (toC x) c)) : Outcome (ℂ × ℂ)))
    (F.rsc (e.coeffs.val 0).re (F.log (F.csub (toC x) c)), F.div 1 (F.csub (toC x) c)) p
    ⟨by simpa using hlog.mono hu (by omega) le_rfl, rfl⟩
    (by
      rintro i hi t ⟨ht1, ht2⟩
      refine ⟨_, by rw [he.rd (by omega), ok_bind], ?_, by simp only [ht2]; rfl⟩
      simp only
      rw [sum_range_succ, sum_range_succ, ← add_assoc (A * _), ← add_assoc (a 0 * _)]
      have h5 := dv_ap hF hf1 hf2 hζ hinv i fun j hj => Or.inr (by rw [← pow_succ']; exact hs.powle hζθ (by omega))
      rw [← pow_succ', ← pow_succ'] at h5
      have hfl : Flr η (A * R ^ (i + 1) * ζ ^ (i + 1)) := by
        rw [mul_assoc]; exact hs.str hA (by omega) (hs.pow2 hR hζθ (i + 1) (i + 1))
      have h6 := hF.cmul (he.ap (i + 1) (by omega)) h5 hfl
      rw [ht2]
      exact hF.caddR' ht1 h6.toR (Flr.add (Flr.add
        (hs.str hA (k := 0) (by omega) (by simpa using hL)) (Flr.sum i (fun j hj => by
          rw [mul_assoc]; exact hs.str hA (by omega) (hs.pow2 hR hζθ (j + 1) (j + 1))) fun j _ => by positivity)
        (by positivity) (sum_nonneg fun j _ => by positivity)) hfl
        (add_nonneg (by positivity) (sum_nonneg fun j _ => by positivity)) (by positivity)) (by omega) (by omega))
  refine ⟨st.1.re, ?_, ?_⟩
  · unfold mePot
    simp only
    rw [he.rd (by omega), ok_bind, he.center, if_neg (hF.csub_ne hf1 hf2), he.size, Nat.add_sub_cancel, h1, ok_bind]
  · have := h2.re.mono hu (by omega : n + 3 * p + 4 + p ≤ n + 4 * p + 4) le_rfl
    exact this

theorem meForce_ap (hF : F.Low u η ρ) {n : ℕ} {e : Exp2} {c : ℂ} {p : ℕ} {a : ℕ → ℂ} {A R : ℝ} (he : AppM u n e c p a A R)
    (hs : Scale η ρ θ τ p) (hA : Flr τ A) (hR : θ ≤ R) (x : Vec 2) (hxθ : θ ≤ ‖toC x - c‖) {ζ : ℝ} (hζ : ‖toC x - c‖⁻¹ ≤ ζ)
    (hζθ : θ ≤ ζ) :
    ∃ f, meForce F e x = .ok (Exp2.fieldOf f) ∧ Ap u (n + 4 * p + 9) (meForceMaj A R ζ p) f (meDeriv a p (toC x - c)) := by
  have hu := hF.nonneg
  have hx : toC x - c ≠ 0 := norm_pos_iff.mp (hs.th0.trans_le hxθ)
  obtain ⟨hf1, hf2⟩ := hs.far hxθ
  have hA0 : 0 ≤ A := by simpa using (he.ap 0 (by omega)).nonneg
  have hR0 : 0 ≤ R := hs.th0.le.trans hR
  have hζ0 : 0 ≤ ζ := hs.th0.le.trans hζθ
  have hQ : Ap u n A ((e.coeffs.val 0).re : ℂ) (a 0) := by
    have := (he.ap 0 (by omega)).re.ofReal
    have ha' : ((a 0).re : ℂ) = a 0 := Complex.ext (by simp) (by simp [he.im'])
    simpa [ha'] using this
  have h0 := hF.divDiff (toC x) c hf1 hf2 hζ hQ (by
    have := hs.str hA (k := 1) (by omega) (by rwa [pow_one] : θ ^ 1 ≤ ζ)
    exact this)
  have hinv2 : Ap u 7 (ζ ^ 2) (F.div 1 (F.mul (F.csub (toC x) c) (F.csub (toC x) c))) ((toC x - c)⁻¹ ^ 2) := by
    have h1 := hF.diff (toC x) c (le_refl ‖toC x - c‖) (Or.inr hf1)
    have h2 := hF.cmul h1 h1 (Or.inr (hs.far2 hxθ).1)
    have hxx : (toC x - c) * (toC x - c) ≠ 0 := mul_ne_zero hx hx
    have hu3 : (1 + u) ^ 3 ≤ 3 / 2 := by
      have : (1 + u) ^ 3 ≤ (1 + 1 / 16) ^ 3 := pow_le_pow_left₀ (by linarith) (by linarith [hF.small]) 3
      norm_num at this ⊢; linarith
    obtain ⟨h3, h4⟩ := Ap.invk hu 3 hu3 hxx (by have := h2.1; rwa [norm_mul])
    have hρ : ρ ≤ ‖F.mul (F.csub (toC x) c) (F.csub (toC x) c)‖ := by
      have a1 := h2.1
      have a2 := norm_sub_norm_le ((toC x - c) * (toC x - c)) (F.mul (F.csub (toC x) c) (F.csub (toC x) c))
      rw [norm_sub_rev, norm_mul (toC x - c)] at a2
      have a3 := (hs.far2 hxθ).2
      have e : 1 + 1 + 1 = 3 := rfl
      rw [e] at a1
      have a4 : 0 ≤ ‖toC x - c‖ * ‖toC x - c‖ := by positivity
      nlinarith
    have e1 : ((toC x - c) * (toC x - c))⁻¹ = (toC x - c)⁻¹ ^ 2 := by rw [← pow_two, inv_pow]
    rw [e1] at h4
    refine Ap.roundf hu (h4.mono hu (m := 6) le_rfl (?_ : _ ≤ ζ ^ 2)) (Or.inr (hs.powle hζθ (by omega))) ?_
      fun h0 => absurd h0 (inv_ne_zero h3)
    · rw [norm_mul, mul_inv, pow_two]
      exact mul_le_mul hζ hζ (by positivity) ((inv_nonneg.mpr (norm_nonneg _)).trans hζ)
    · have := hF.div 1 _ hρ
      rwa [one_div] at this
  obtain ⟨st, h1, h2, h3⟩ := loopM_invariant (fun i (s : ℂ × ℂ) =>
      Ap u (n + 3 * p + 9 + i) (A * ζ + ∑ m ∈ range i, ((m + 1 : ℕ) : ℝ) * (A * R ^ (m + 1)) * ζ ^ (m + 2)) s.1
        (a 0 / (toC x - c) - ∑ m ∈ range i, ((m + 1 : ℕ) : ℂ) * a (m + 1) * (toC x - c)⁻¹ ^ (m + 2)) ∧
      s.2 = dv F (F.csub (toC x) c) (F.div 1 (F.mul (F.csub (toC x) c) (F.csub (toC x) c))) i)
    (fun i (s : ℂ × ℂ) => (do
      let a ← e.coeffs.rd (i + 1)
      .ok (F.csub s.1 (F.mul (F.rsc ((i + 1 : ℕ) : ℝ) a) s.2), F.div s.2 (F.csub (toC x) c)) : Outcome (ℂ × ℂ)))
    (F.div ((e.coeffs.val 0).re : ℂ) (F.csub (toC x) c), F.div 1 (F.mul (F.csub (toC x) c) (F.csub (toC x) c))) p
    ⟨by simpa [div_eq_mul_inv] using h0.mono hu (by omega) le_rfl, rfl⟩
    (by
      rintro i hi t ⟨ht1, ht2⟩
      refine ⟨_, by rw [he.rd (by omega), ok_bind], ?_, by simp only [ht2]; rfl⟩
      simp only
      rw [sum_range_succ, sum_range_succ, ← add_assoc (A * ζ), ← sub_sub]
      have h5 := dv_ap hF hf1 hf2 hζ hinv2 i fun j hj => Or.inr (by rw [← pow_add]; exact hs.powle hζθ (by omega))
      rw [← pow_add, ← pow_add, add_comm 2 i] at h5
      have hk : Ap u 0 ((i + 1 : ℕ) : ℝ) ((i + 1 : ℕ) : ℝ) ((i + 1 : ℕ) : ℝ) := Ap.refl (by
        rw [Real.norm_eq_abs, abs_of_nonneg (by positivity)])
      have hi1 : (1 : ℝ) ≤ ((i + 1 : ℕ) : ℝ) := by exact_mod_cast Nat.succ_le_succ (Nat.zero_le i)
      have hfl : ∀ j < p, Flr η (((j + 1 : ℕ) : ℝ) * (A * R ^ (j + 1)) * ζ ^ (j + 2)) := fun j hj => by
        rw [mul_assoc, mul_assoc]
        refine Flr.scale (hs.str hA (k := j + 1 + (j + 2)) (by omega) (hs.pow2 hR hζθ (j + 1) (j + 2))) ?_ (by positivity)
        exact_mod_cast Nat.succ_le_succ (Nat.zero_le j)
      have h6 := hF.cmul (hF.rsc hk (he.ap (i + 1) (by omega))
        (Flr.scale (hs.str hA (by omega) (pow_le_pow_left₀ hs.th0.le hR (i + 1))) hi1 (by positivity))) h5 (hfl i hi)
      rw [Complex.ofReal_natCast] at h6
      rw [ht2]
      exact hF.csub' ht1 h6 (Flr.add (Flr.add (hs.str hA (k := 1) (by omega) (by rwa [pow_one]))
        (Flr.sum i (fun j hj => hfl j (by omega)) fun j _ => by positivity) (by positivity)
        (sum_nonneg fun j _ => by positivity)) (hfl i hi)
        (add_nonneg (by positivity) (sum_nonneg fun j _ => by positivity)) (by positivity)) (by omega) (by omega))
  refine ⟨st.1, ?_, ?_⟩
  · unfold meForce
    simp only
    rw [he.rd (by omega), ok_bind, he.center, if_neg (hF.csub_ne hf1 hf2), he.size, Nat.add_sub_cancel, h1, ok_bind]
    rfl
  · exact h2.mono hu (by omega : n + 3 * p + 9 + p ≤ n + 4 * p + 9) le_rfl

end Lo
end FMM
