import Verif.FltCalc
import Verif.Exp2Bounds

/-!
# Rounding errors of the multipole operations

Error bounds for the floating-point constructors of multipole expansions (sources, shifted children).
-/

namespace FMM

namespace Flt.Ok
variable {F : Flt} {u : ℝ} (hF : F.Ok u) {n m k : ℕ} {M N : ℝ} {x' x y' y : ℂ}
include hF

theorem cadd' (h : Ap u n M x' x) (h' : Ap u m N y' y) (hn : n + 1 ≤ k) (hm : m + 1 ≤ k) :
    Ap u k (M + N) (F.cadd x' y') (x + y) := by
  obtain ⟨k, rfl⟩ : ∃ j, k = j + 1 := ⟨k - 1, by omega⟩
  exact hF.cadd (h.mono hF.nonneg (by omega) le_rfl) (h'.mono hF.nonneg (by omega) le_rfl)

theorem csub' (h : Ap u n M x' x) (h' : Ap u m N y' y) (hn : n + 1 ≤ k) (hm : m + 1 ≤ k) :
    Ap u k (M + N) (F.csub x' y') (x - y) := by
  obtain ⟨k, rfl⟩ : ∃ j, k = j + 1 := ⟨k - 1, by omega⟩
  exact hF.csub (h.mono hF.nonneg (by omega) le_rfl) (h'.mono hF.nonneg (by omega) le_rfl)

theorem caddR' (h : ApR u n M x' x) (h' : ApR u m N y' y) (hn : n + 1 ≤ k) (hm : m + 1 ≤ k) :
    ApR u k (M + N) (F.cadd x' y') (x + y) := by
  obtain ⟨k, rfl⟩ : ∃ j, k = j + 1 := ⟨k - 1, by omega⟩
  exact hF.caddR (h.mono hF.nonneg (by omega) le_rfl) (h'.mono hF.nonneg (by omega) le_rfl)

theorem csubR' (h : ApR u n M x' x) (h' : ApR u m N y' y) (hn : n + 1 ≤ k) (hm : m + 1 ≤ k) :
    ApR u k (M + N) (F.csub x' y') (x - y) := by
  obtain ⟨k, rfl⟩ : ∃ j, k = j + 1 := ⟨k - 1, by omega⟩
  exact hF.csubR (h.mono hF.nonneg (by omega) le_rfl) (h'.mono hF.nonneg (by omega) le_rfl)

end Flt.Ok

namespace Fl
open Finset
variable {F : Flt} {u : ℝ}

/-! ## Running products and quotients -/

/-- `a, a x, a x x, …` in floating point. -/
noncomputable def pw (F : Flt) (x a : ℂ) : ℕ → ℂ
  | 0 => a
  | i + 1 => F.mul (pw F x a i) x

/-- `a, a / x, a / x / x, …` in floating point. -/
noncomputable def dv (F : Flt) (x a : ℂ) : ℕ → ℂ
  | 0 => a
  | i + 1 => F.div (dv F x a i) x

theorem pw_ap (hF : F.Ok u) {m n0 : ℕ} {D M : ℝ} {x' x a' a : ℂ} (hx : Ap u m D x' x) (ha : Ap u n0 M a' a) (i : ℕ) :
    Ap u (n0 + (m + 1) * i) (M * D ^ i) (pw F x' a' i) (a * x ^ i) := by
  induction i with
  | zero => simpa [pw] using ha
  | succ i ih =>
    have := hF.cmul ih hx
    rw [pow_succ, pow_succ, ← mul_assoc, ← mul_assoc]
    exact this.mono hF.nonneg (by ring_nf; rfl) le_rfl

theorem dv_ap (hF : F.Ok u) {n0 : ℕ} {D M : ℝ} {x y a' a : ℂ} (h : x - y ≠ 0) (hD : ‖x - y‖⁻¹ ≤ D)
    (ha : Ap u n0 M a' a) (i : ℕ) :
    Ap u (n0 + 3 * i) (M * D ^ i) (dv F (F.csub x y) a' i) (a * (x - y)⁻¹ ^ i) := by
  induction i with
  | zero => simpa [dv] using ha
  | succ i ih =>
    have := hF.divDiff x y h hD ih
    rw [pow_succ, pow_succ, ← mul_assoc, ← mul_assoc]
    exact this.mono hF.nonneg (by ring_nf; rfl) le_rfl

theorem powTable_ok (F : Flt) (x : ℂ) (p : ℕ) :
    ∃ t, powTable F x p = .ok t ∧ t.size = p + 1 ∧ ∀ k ≤ p, t.val k = pw F x 1 k := by
  refine ⟨⟨p + 1, fun k => if 0 ≤ k ∧ k < 0 + (p + 1) then pw F x 1 (k - 0) else 0⟩, ?_, rfl, fun k hk => ?_⟩
  · unfold powTable
    rw [loopM_rmw (p + 1) 0 _ (fun _ y _ => y) (pw F x 1) 1 rfl (Arr.new (p + 1)) (by simp [Arr.new]) ?_]
    · rfl
    · intro i hi c' hc'
      simp only [Arr.new] at hc'
      simp only
      rw [Arr.wr_ok _ (by omega), ok_bind]
      rfl
  · simp only; rw [if_pos (by omega)]; simp

/-! ## Multipole expansions of sources -/

theorem meAddSource_ok (F : Flt) (p : ℕ) (c : ℂ) (arr : Arr ℂ) (hs : arr.size = p + 1) (s : Source 2) :
    ∃ arr', meAddSource F p c arr s = .ok arr' ∧ arr'.size = p + 1 ∧ arr'.val 0 = F.caddr (arr.val 0) s.q ∧
      ∀ k, 0 < k → k ≤ p → arr'.val k = F.csub (arr.val k)
        (F.rsc s.q (pw F (F.csub (toC s.pos) c) (F.csub (toC s.pos) c) (k - 1))) := by
  refine ⟨⟨p + 1, fun k => if 1 ≤ k ∧ k < 1 + p then F.csub (arr.val k)
        (F.rsc s.q (pw F (F.csub (toC s.pos) c) (F.csub (toC s.pos) c) (k - 1)))
        else Function.update arr.val 0 (F.caddr (arr.val 0) s.q) k⟩, ?_, rfl, ?_, fun k h0 hk => ?_⟩
  · unfold meAddSource
    simp only
    rw [Arr.rd_ok _ (by omega), ok_bind, Arr.wr_ok _ (by omega), ok_bind]
    rw [loopM_rmw p 1 _ (fun i y a => F.csub a (F.rsc s.q y)) (pw F (F.csub (toC s.pos) c) (F.csub (toC s.pos) c))
      (F.csub (toC s.pos) c) rfl _ (by simp only; omega) ?_]
    · simp only [ok_bind, Except.ok.injEq]
      refine Arr.ext' hs fun k => ?_
      simp only
      by_cases h : 1 ≤ k ∧ k < 1 + p
      · rw [if_pos h, if_pos h, Function.update_of_ne (by omega)]
      · rw [if_neg h, if_neg h]
    · intro i hi c' hc'
      simp only at hc'
      rw [Arr.rd_ok _ (by simp only; omega), ok_bind, Arr.wr_ok _ (by simp only; omega), ok_bind]
      rfl
  · simp
  · simp only; rw [if_pos (by omega)]

theorem divByIndex_ok (F : Flt) (p : ℕ) (arr : Arr ℂ) (hs : arr.size = p + 1) :
    divByIndex F p arr = .ok ⟨p + 1, fun k => if 0 < k ∧ k ≤ p then F.cdr (arr.val k) k else arr.val k⟩ := by
  unfold divByIndex
  rw [loopM_rmw1 p 1 _ (fun i a => F.cdr a ((i + 1 : ℕ) : ℝ)) _ (by omega) ?_]
  · simp only [Except.ok.injEq]
    refine Arr.ext' hs fun k => ?_
    simp only
    by_cases h : 0 < k ∧ k ≤ p
    · rw [if_pos h, if_pos (by omega), Nat.sub_add_cancel h.1]
    · rw [if_neg h, if_neg (by omega)]
  · intro i hi c' hc'
    rw [Arr.rd_ok _ (by omega), ok_bind, Arr.wr_ok _ (by omega)]

/-- The computed expansion `e` of order `p` about `c` approximates the multipole expansion with coefficients `a`; the
`k`-th coefficient has majorant `A R^k` and `n` rounding errors. -/
structure AppM (u : ℝ) (n : ℕ) (e : Exp2) (c : ℂ) (p : ℕ) (a : ℕ → ℂ) (A R : ℝ) : Prop where
  order : e.order = p
  center : e.center = c
  size : e.coeffs.size = p + 1
  im : (e.coeffs.val 0).im = 0
  im' : (a 0).im = 0
  ap : ∀ k ≤ p, Ap u n (A * R ^ k) (e.coeffs.val k) (a k)

theorem AppM.rd {n : ℕ} {e : Exp2} {c : ℂ} {p : ℕ} {a : ℕ → ℂ} {A R : ℝ} (h : AppM u n e c p a A R) {k : ℕ}
    (hk : k ≤ p) : e.coeffs.rd k = .ok (e.coeffs.val k) := Arr.rd_ok _ (by rw [h.size]; omega)

theorem AppM.mono (hu : 0 ≤ u) {n m : ℕ} {e : Exp2} {c : ℂ} {p : ℕ} {a : ℕ → ℂ} {A R A' R' : ℝ} (h : AppM u n e c p a A R)
    (hn : n ≤ m) (hA : A ≤ A') (hR : 0 ≤ R) (hR' : R ≤ R') : AppM u m e c p a A' R' := by
  refine ⟨h.order, h.center, h.size, h.im, h.im', fun k hk => (h.ap k hk).mono hu hn ?_⟩
  have hA0 : 0 ≤ A := by simpa using (h.ap 0 (by omega)).nonneg
  have hA1 := hA0.trans hA
  gcongr

theorem meFold_ap (hF : F.Ok u) (p : ℕ) (c : ℂ) {R : ℝ} (S : List (Source 2))
    (hS : ∀ s ∈ S, ‖toC s.pos - c‖ ≤ R) :
    ∀ (arr : Arr ℂ) (a : ℕ → ℂ) (j : ℕ) (A : ℝ), arr.size = p + 1 → (arr.val 0).im = 0 → (a 0).im = 0 →
      (∀ k ≤ p, Ap u (2 * p + j) (A * R ^ k) (arr.val k) (a k)) →
      ∃ arr', S.foldlM (meAddSource F p c) arr = .ok arr' ∧ arr'.size = p + 1 ∧ (arr'.val 0).im = 0 ∧
        ∀ k ≤ p, Ap u (2 * p + (j + S.length)) ((A + totalStrength S) * R ^ k) (arr'.val k)
          (a k + (if k = 0 then (S.map fun s => (s.q : ℂ)).sum
            else -(S.map fun s => (s.q : ℂ) * (toC s.pos - c) ^ k).sum)) := by
  induction S with
  | nil =>
    intro arr a j A hs h0 _ h
    exact ⟨arr, rfl, hs, h0, fun k hk => by simpa [totalStrength_eq] using h k hk⟩
  | cons s S ih =>
    intro arr a j A hs h0 h0' h
    obtain ⟨b, hb1, hb2, hb3, hb4⟩ := meAddSource_ok F p c arr hs s
    have hz : Ap u 1 R (F.csub (toC s.pos) c) (toC s.pos - c) := hF.diff _ _ (hS s (by simp))
    have hq : Ap u 0 |s.q| s.q s.q := Ap.refl (by rw [Real.norm_eq_abs])
    have hstep := hF.caddr (h 0 (by omega)) h0 h0' (le_refl |s.q|)
    obtain ⟨arr', h1, h2, h3, h4⟩ := ih (fun t ht => hS t (by simp [ht])) b
      (fun k => a k + (if k = 0 then (s.q : ℂ) else -((s.q : ℂ) * (toC s.pos - c) ^ k))) (j + 1) (A + |s.q|) hb2
      (by rw [hb3]; exact hstep.2) (by simp [h0']) (fun k hk => by
        rcases Nat.eq_zero_or_pos k with rfl | hk0
        · rw [hb3, if_pos rfl]
          exact hstep.1.mono hF.nonneg le_rfl (by simp)
        · rw [hb4 k hk0 hk, if_neg (by omega), ← sub_eq_add_neg, add_mul]
          have hp := hF.rsc hq (pw_ap hF hz hz (k - 1))
          have e1 : R * R ^ (k - 1) = R ^ k := by rw [← pow_succ', Nat.sub_add_cancel hk0]
          have e2 : (toC s.pos - c) * (toC s.pos - c) ^ (k - 1) = (toC s.pos - c) ^ k := by
            rw [← pow_succ', Nat.sub_add_cancel hk0]
          rw [e1, e2] at hp
          exact (hF.csub (h k hk) (hp.mono hF.nonneg (m := 2 * p + j) (by omega) le_rfl)).mono hF.nonneg (by omega) le_rfl)
    refine ⟨arr', by rw [List.foldlM_cons, hb1, ok_bind, h1], h2, h3, fun k hk => ?_⟩
    have := h4 k hk
    rw [totalStrength_cons, List.length_cons]
    have e3 : a k + (if k = 0 then ((s :: S).map fun s => (s.q : ℂ)).sum
            else -((s :: S).map fun s => (s.q : ℂ) * (toC s.pos - c) ^ k).sum)
        = a k + (if k = 0 then (s.q : ℂ) else -((s.q : ℂ) * (toC s.pos - c) ^ k))
          + (if k = 0 then (S.map fun s => (s.q : ℂ)).sum
            else -(S.map fun s => (s.q : ℂ) * (toC s.pos - c) ^ k).sum) := by
      simp only [List.map_cons, List.sum_cons]
      split_ifs <;> ring
    rw [e3]
    exact this.mono hF.nonneg (by omega) (by rw [add_assoc])

/-- Multipole expansion of sources: `2 p + |S| + 1` roundings. -/
theorem meOfSources_ap (hF : F.Ok u) (bt : BinomialTable) (hbt : bt.Good) (center : Vec 2) (p : ℕ) (hp : p ≤ 1029)
    (S : List (Source 2)) {R : ℝ} (hS : ∀ s ∈ S, ‖toC s.pos - toC center‖ ≤ R) :
    ∃ bt' e, meOfSources F bt center p S = .ok (bt', e) ∧ bt'.Good ∧ bt'.maxOrder = max bt.maxOrder p ∧
      (p ≤ bt.maxOrder → bt' = bt) ∧
      AppM u (2 * p + S.length + 1) e (toC center) p (meCoeff (toC center) S) (totalStrength S) R := by
  obtain ⟨bt', e, h1, h2, h3, h4, rfl⟩ := Exp2.new_ok bt hbt center p hp
  obtain ⟨arr', h5, h6, h7, h8⟩ := meFold_ap hF p (toC center) S hS (Arr.new (p + 1)) (fun _ => 0) 0 0 rfl rfl rfl
    (fun k _ => by simpa [Arr.new] using Ap.zero (E := ℂ) (le_refl (0 : ℝ)) hF.nonneg)
  refine ⟨bt', ⟨p, toC center, ⟨p + 1, fun k => if 0 < k ∧ k ≤ p then F.cdr (arr'.val k) k else arr'.val k⟩⟩,
    ?_, h2, h3, h4, ?_⟩
  · unfold meOfSources
    rw [h1, ok_bind]
    simp only
    rw [h5, ok_bind, divByIndex_ok F p arr' h6, ok_bind]
  · refine ⟨rfl, rfl, rfl, by simpa using h7, meCoeff_zero_im _ _, fun k hk => ?_⟩
    have h9 := h8 k hk
    simp only [zero_add] at h9
    have hT : 0 ≤ totalStrength S * R ^ k := h9.nonneg
    simp only
    unfold meCoeff
    rcases Nat.eq_zero_or_pos k with rfl | hk0
    · rw [if_neg (by omega), if_pos rfl]
      exact h9.mono hF.nonneg (by omega) le_rfl
    · rw [if_pos ⟨hk0, hk⟩, if_neg (by omega)]
      rw [if_neg (by omega)] at h9
      have hk1 : (1 : ℝ) ≤ k := by exact_mod_cast hk0
      have := hF.cdr h9 (r := (k : ℝ)) (by linarith)
      rw [Complex.ofReal_natCast] at this
      exact this.mono hF.nonneg le_rfl (div_le_self hT hk1)

/-! ## Multipole-to-multipole -/

theorem sum_binomial_le (R s : ℝ) (hR : 0 ≤ R) (hs : 0 ≤ s) (l : ℕ) (hl : 0 < l) :
    s ^ l / l + ∑ i ∈ range l, R ^ (i + 1) * s ^ (l - (i + 1)) * ((l - 1).choose i : ℝ) ≤ (R + s) ^ l := by
  obtain ⟨m, rfl⟩ : ∃ m, l = m + 1 := ⟨l - 1, by omega⟩
  have e : ∑ i ∈ range (m + 1), R ^ (i + 1) * s ^ (m + 1 - (i + 1)) * ((m + 1 - 1).choose i : ℝ) = R * (R + s) ^ m := by
    rw [add_pow, mul_sum]
    refine sum_congr rfl fun i hi => ?_
    rw [Nat.add_sub_add_right, Nat.add_sub_cancel, pow_succ']; ring
  rw [e]
  have h1 : s ^ (m + 1) / ((m + 1 : ℕ) : ℝ) ≤ s ^ (m + 1) :=
    div_le_self (by positivity) (by exact_mod_cast Nat.succ_le_succ (Nat.zero_le m))
  have h2 : s ^ (m + 1) ≤ s * (R + s) ^ m := by
    rw [pow_succ']
    exact mul_le_mul_of_nonneg_left (pow_le_pow_left₀ hs (by linarith) m) hs
  have h3 : (R + s) ^ (m + 1) = R * (R + s) ^ m + s * (R + s) ^ m := by ring
  linarith

/-- Shift of a multipole expansion: `3 p + 3` more roundings. -/
theorem meShift_ap (hF : F.Ok u) (bt : BinomialTable) (hbt : bt.Good) {n : ℕ} {e : Exp2} {c : ℂ} {p : ℕ} {a : ℕ → ℂ}
    {A R σ : ℝ} (he : AppM u n e c p a A R) (hR : 0 ≤ R) (hp : p ≤ bt.maxOrder) {s' s : ℂ} (hs : Ap u 1 σ s' s) :
    ∃ arr, meShift F bt e s' = .ok arr ∧ arr.size = p + 1 ∧ (arr.val 0).im = 0 ∧
      ∀ l ≤ p, Ap u (n + 3 * p + 3) (A * (R + σ) ^ l) (arr.val l) (Exp2.shiftCoeff a s l) := by
  obtain ⟨pow, hpow, hpsz, hpv⟩ := powTable_ok F s' p
  have hσ : 0 ≤ σ := hs.nonneg
  have hu := hF.nonneg
  have hA : 0 ≤ A := by simpa using (he.ap 0 (by omega)).nonneg
  have hpa : ∀ k ≤ p, Ap u (2 * k) (σ ^ k) (pow.val k) (s ^ k) := fun k hk => by
    have := pw_ap hF hs (Ap.refl (u := u) (le_of_eq (norm_one (α := ℂ)))) k
    rw [hpv k hk]
    simpa using this
  have ha' : ((a 0).re : ℂ) = a 0 := Complex.ext (by simp) (by simp [he.im'])
  have hQ : Ap u n A (e.coeffs.val 0).re (a 0).re := by
    have := (he.ap 0 (by omega)).re
    simpa using this
  have hmain := loopM_invariant (fun i (sc : Arr ℂ) => sc.size = p + 1 ∧ (sc.val 0).im = 0 ∧
      ∀ l, l ≤ i → Ap u (n + 3 * p + 3) (A * (R + σ) ^ l) (sc.val l) (Exp2.shiftCoeff a s l))
    (fun i sc => (do
      let l := i + 1
      let p ← pow.rd l
      let sc ← sc.wr l (F.cdr (F.rsc (-(e.coeffs.val 0).re) p) ((l : ℕ) : ℝ))
      loopM l (fun i' sc => do
        let k := i' + 1
        let a ← sc.rd l
        let ck ← e.coeffs.rd k
        let p ← pow.rd (l - k)
        let b ← bt.get (l - 1) (k - 1)
        sc.wr l (F.cadd a (F.rsc (F.rnd b) (F.mul ck p)))) sc : Outcome (Arr ℂ)))
    ⟨p + 1, Function.update (fun _ => 0) 0 ((e.coeffs.val 0).re : ℂ)⟩ p
    ⟨rfl, by simp, fun l hl => by
      obtain rfl : l = 0 := by omega
      simp only [Function.update_self, Exp2.shiftCoeff, if_true, pow_zero, mul_one]
      rw [← ha']
      exact hQ.ofReal.mono hu (by omega) le_rfl⟩
    (by
      rintro i hi sc ⟨hsz, him, hap⟩
      have hl0 : (0 : ℝ) < ((i + 1 : ℕ) : ℝ) := by positivity
      have h0 : Ap u (n + 2 * p + 3) (A * (σ ^ (i + 1) / ((i + 1 : ℕ) : ℝ)))
          (F.cdr (F.rsc (-(e.coeffs.val 0).re) (pow.val (i + 1))) ((i + 1 : ℕ) : ℝ))
          (-a 0 * s ^ (i + 1) / ((i + 1 : ℕ) : ℂ)) := by
        have h1 := hF.cdr (hF.rsc hQ.neg (hpa (i + 1) (by omega))) hl0
        rw [Complex.ofReal_neg, ha', Complex.ofReal_natCast, mul_div_assoc] at h1
        exact h1.mono hu (by omega) le_rfl
      obtain ⟨sc', hr, hsz', hk, hv⟩ := loopM_invariant (fun i' (sc' : Arr ℂ) => sc'.size = p + 1 ∧
          (∀ k, k ≠ i + 1 → sc'.val k = sc.val k) ∧
          Ap u (n + 2 * p + 3 + i') (A * (σ ^ (i + 1) / ((i + 1 : ℕ) : ℝ)
            + ∑ m ∈ range i', R ^ (m + 1) * σ ^ (i + 1 - (m + 1)) * ((i + 1 - 1).choose m : ℝ)))
            (sc'.val (i + 1)) (-a 0 * s ^ (i + 1) / ((i + 1 : ℕ) : ℂ)
              + ∑ m ∈ range i', a (m + 1) * s ^ (i + 1 - (m + 1)) * ((i + 1 - 1).choose m : ℂ)))
        (fun i' sc => (do
          let k := i' + 1
          let a ← sc.rd (i + 1)
          let ck ← e.coeffs.rd k
          let p ← pow.rd (i + 1 - k)
          let b ← bt.get (i + 1 - 1) (k - 1)
          sc.wr (i + 1) (F.cadd a (F.rsc (F.rnd b) (F.mul ck p))) : Outcome (Arr ℂ)))
        ⟨p + 1, Function.update sc.val (i + 1)
          (F.cdr (F.rsc (-(e.coeffs.val 0).re) (pow.val (i + 1))) ((i + 1 : ℕ) : ℝ))⟩ (i + 1)
        ⟨rfl, fun k hk => Function.update_of_ne hk _ _, by simpa using h0⟩
        (by
          rintro i' hi' t ⟨ht, htk, htv⟩
          simp only
          rw [Arr.rd_ok _ (by omega), ok_bind, he.rd (by omega), ok_bind, Arr.rd_ok _ (by omega), ok_bind,
            BinomialTable.get_ok hbt (by omega) (by omega) (by omega), ok_bind, Arr.wr_ok _ (by omega)]
          refine ⟨_, rfl, ht, fun k hk => ?_, ?_⟩
          · simp only; rw [Function.update_of_ne hk, htk k hk]
          · simp only [Function.update_self]
            rw [sum_range_succ, sum_range_succ, ← add_assoc (σ ^ (i + 1) / _), ← add_assoc (-a 0 * s ^ (i + 1) / _),
              mul_add A]
            have hbv : (binVal bt.maxOrder (i + 1 - 1) (i' + 1 - 1) : ℝ) = ((i + 1 - 1).choose i' : ℝ) := by
              unfold binVal; rw [if_pos (by omega)]; rfl
            rw [hbv]
            have hb : Ap u 1 ((i + 1 - 1).choose i' : ℝ) (F.rnd ((i + 1 - 1).choose i' : ℝ))
                ((i + 1 - 1).choose i' : ℝ) := hF.rrnd (Ap.refl (by
                  rw [Real.norm_eq_abs, abs_of_nonneg (by positivity)]))
            have h2 := hF.rsc hb (hF.cmul (he.ap (i' + 1) (by omega)) (hpa (i + 1 - (i' + 1)) (by omega)))
            rw [Complex.ofReal_natCast] at h2
            have e1 : ((i + 1 - 1).choose i' : ℝ) * (A * R ^ (i' + 1) * σ ^ (i + 1 - (i' + 1)))
              = A * (R ^ (i' + 1) * σ ^ (i + 1 - (i' + 1)) * ((i + 1 - 1).choose i' : ℝ)) := by ring
            have e2 : ((i + 1 - 1).choose i' : ℂ) * (a (i' + 1) * s ^ (i + 1 - (i' + 1)))
              = a (i' + 1) * s ^ (i + 1 - (i' + 1)) * ((i + 1 - 1).choose i' : ℂ) := by ring
            rw [e1, e2] at h2
            exact hF.cadd' htv h2 (by omega) (by omega))
      refine ⟨sc', ?_, hsz', by rw [hk 0 (by omega)]; exact him, fun l hl => ?_⟩
      · simp only
        rw [Arr.rd_ok _ (by omega), ok_bind, Arr.wr_ok _ (by omega), ok_bind, hsz]
        exact hr
      · rcases Nat.lt_or_ge i l with h | h
        · obtain rfl : l = i + 1 := by omega
          have hb := sum_binomial_le R σ hR hσ (i + 1) (by omega)
          unfold Exp2.shiftCoeff
          rw [if_neg (by omega)]
          exact hv.mono hu (by omega) (mul_le_mul_of_nonneg_left hb hA)
        · rw [hk l (by omega)]; exact hap l h)
  obtain ⟨arr, h1, h2, h3, h4⟩ := hmain
  refine ⟨arr, ?_, h2, h3, h4⟩
  unfold meShift
  rw [he.order, hpow, ok_bind, he.rd (by omega), ok_bind]
  simp only
  rw [Arr.wr_ok _ (by simp [Arr.new]), ok_bind]
  exact h1

theorem addCoeffs_ok (F : Flt) (c other : Arr ℂ) (h : c.size ≤ other.size) :
    addCoeffs F c other = .ok ⟨c.size, fun k => if k < c.size then F.cadd (c.val k) (other.val k) else c.val k⟩ := by
  unfold addCoeffs
  rw [loopM_rmw1 c.size 0 _ (fun i a => F.cadd a (other.val i)) _ (by omega) ?_]
  · simp
  · intro i hi c' hc'
    rw [Arr.rd_ok _ (by omega), ok_bind, Arr.rd_ok _ (by omega), ok_bind, Arr.wr_ok _ (by omega)]
    simp

/-- Multipole expansion of the expansions of the children. -/
theorem meOfMes_ap (hF : F.Ok u) (bt : BinomialTable) (hbt : bt.Good) (center : Vec 2) (p : ℕ) (hp : p ≤ 1029) {n : ℕ}
    {R σ : ℝ} (hR : 0 ≤ R) (L : List (Exp2 × ℂ × List (Source 2))) (hne : L ≠ [])
    (hL : ∀ x ∈ L, AppM u n x.1 x.2.1 p (meCoeff x.2.1 x.2.2) (totalStrength x.2.2) R ∧ ‖x.2.1 - toC center‖ ≤ σ) :
    ∃ bt' e, meOfMes F bt center (L.map (·.1)) = .ok (bt', e) ∧ bt'.Good ∧
      bt'.maxOrder = max bt.maxOrder p ∧ (p ≤ bt.maxOrder → bt' = bt) ∧
      AppM u (n + 3 * p + 3 + L.length) e (toC center) p (meCoeff (toC center) (L.flatMap (·.2.2)))
        (totalStrength (L.flatMap (·.2.2))) (R + σ) := by
  obtain ⟨bt', e, h1, h2, h3, h4, rfl⟩ := Exp2.new_ok bt hbt center p hp
  have hfold : ∀ (L : List (Exp2 × ℂ × List (Source 2))) (arr : Arr ℂ) (a : ℕ → ℂ) (j : ℕ) (A : ℝ), arr.size = p + 1 →
      (arr.val 0).im = 0 →
      (∀ x ∈ L, AppM u n x.1 x.2.1 p (meCoeff x.2.1 x.2.2) (totalStrength x.2.2) R ∧ ‖x.2.1 - toC center‖ ≤ σ) →
      (∀ k ≤ p, Ap u (n + 3 * p + 3 + j) (A * (R + σ) ^ k) (arr.val k) (a k)) →
      ∃ arr', (L.map (·.1)).foldlM (fun c me => do
        let sh ← meShift F bt' me (F.csub me.center (toC center))
        addCoeffs F c sh) arr = .ok arr' ∧ arr'.size = p + 1 ∧ (arr'.val 0).im = 0 ∧
        ∀ k ≤ p, Ap u (n + 3 * p + 3 + (j + L.length)) ((A + totalStrength (L.flatMap (·.2.2))) * (R + σ) ^ k)
          (arr'.val k) (a k + meCoeff (toC center) (L.flatMap (·.2.2)) k) := by
    intro L
    induction L with
    | nil =>
      intro arr a j A ha hi _ h
      exact ⟨arr, rfl, ha, hi, fun k hk => by simpa [meCoeff_nil, totalStrength_eq] using h k hk⟩
    | cons x L ih =>
      intro arr a j A ha hi hx h
      obtain ⟨hx0, hx1⟩ := hx x (by simp)
      obtain ⟨sh, hs1, hs2, hs3, hs4⟩ := meShift_ap hF bt' h2 hx0 hR (by omega) (hF.diff x.2.1 (toC center) hx1)
      obtain ⟨arr', ha1, ha2, ha3, ha4⟩ := ih ⟨arr.size, fun k => if k < arr.size then F.cadd (arr.val k) (sh.val k)
        else arr.val k⟩ (fun k => a k + meCoeff (toC center) x.2.2 k) (j + 1) (A + totalStrength x.2.2) ha (by
          simp only
          rw [if_pos (by omega)]
          unfold Flt.cadd
          simp only [hi, hs3, add_zero]
          have := hF.rnd 0
          simpa using this) (fun y hy => hx y (by simp [hy])) (fun k hk => by
          simp only
          rw [if_pos (by omega), add_mul]
          have h9 := hs4 k hk
          rw [Exp2.shiftCoeff_meCoeff] at h9
          exact hF.cadd' (h k hk) h9 (by omega) (by omega))
      refine ⟨arr', ?_, ha2, ha3, fun k hk => ?_⟩
      · rw [List.map_cons, List.foldlM_cons, hx0.center, hs1, ok_bind, addCoeffs_ok F _ _ (by omega), ok_bind, ha1]
      · have := ha4 k hk
        rw [List.flatMap_cons, meCoeff_append, totalStrength_append, List.length_cons, ← add_assoc (a k),
          ← add_assoc A]
        exact this.mono hF.nonneg (by omega) le_rfl
  obtain ⟨arr', ha1, ha2, ha3, ha4⟩ := hfold L (Arr.new (p + 1)) (fun _ => 0) 0 0 rfl rfl hL (fun k _ => by
    simpa [Arr.new] using Ap.zero (E := ℂ) (le_refl (0 : ℝ)) hF.nonneg)
  refine ⟨bt', ⟨p, toC center, arr'⟩, ?_, h2, h3, h4, rfl, rfl, ha2, ha3, meCoeff_zero_im _ _, fun k hk => ?_⟩
  · cases L with
    | nil => exact absurd rfl hne
    | cons x L =>
      rw [List.map_cons] at ha1 ⊢
      unfold meOfMes
      simp only
      rw [(hL x (by simp)).1.order, h1, ok_bind]
      simp only
      rw [ha1, ok_bind]
  · have := ha4 k hk
    simpa using this

/-! ## Evaluation -/

/-- Majorant of the evaluation of a multipole expansion at distance at least `1 / ζ`. -/
noncomputable def mePotMaj (A R ζ Λ : ℝ) (p : ℕ) : ℝ :=
  A * (Λ + Real.pi) + ∑ i ∈ range p, A * R ^ (i + 1) * ζ ^ (i + 1)

theorem mePot_ap (hF : F.Ok u) {n : ℕ} {e : Exp2} {c : ℂ} {p : ℕ} {a : ℕ → ℂ} {A R : ℝ} (he : AppM u n e c p a A R)
    (x : Vec 2) (hx : toC x - c ≠ 0) {ζ Λ : ℝ} (hζ : ‖toC x - c‖⁻¹ ≤ ζ) (hΛ : |Real.log ‖toC x - c‖| ≤ Λ) :
    ∃ v, mePot F e x = .ok v ∧ Ap u (n + 4 * p + 4) (mePotMaj A R ζ Λ p) v (meSum a p (toC x - c)).re := by
  have hu := hF.nonneg
  have hQ : Ap u n A (e.coeffs.val 0).re (a 0).re := by
    have := (he.ap 0 (by omega)).re
    simpa using this
  have ha' : ((a 0).re : ℂ) = a 0 := Complex.ext (by simp) (by simp [he.im'])
  have hlog := hF.rscR hQ (hF.logDiff hx (hF.csub_err (toC x) c) hΛ)
  rw [ha'] at hlog
  have hinv := hF.inv (toC x) c hx hζ
  obtain ⟨st, h1, h2, h3⟩ := loopM_invariant (fun i (s : ℂ × ℂ) =>
      ApR u (n + 3 * p + 4 + i) (A * (Λ + Real.pi) + ∑ m ∈ range i, A * R ^ (m + 1) * ζ ^ (m + 1)) s.1
        (a 0 * Complex.log (toC x - c) + ∑ m ∈ range i, a (m + 1) * (toC x - c)⁻¹ ^ (m + 1)) ∧
      s.2 = dv F (F.csub (toC x) c) (F.div 1 (F.csub (toC x) c)) i)
    (fun i (s : ℂ × ℂ) => (do
      let a ← e.coeffs.rd (i + 1)
      .ok (F.cadd s.1 (F.mul a s.2), F.div s.2 (F.csub (toC x) c)) : Outcome (ℂ × ℂ)))
    (F.rsc (e.coeffs.val 0).re (F.log (F.csub (toC x) c)), F.div 1 (F.csub (toC x) c)) p
    ⟨by simpa using hlog.mono hu (by omega) le_rfl, rfl⟩
    (by
      rintro i hi t ⟨ht1, ht2⟩
      refine ⟨_, by rw [he.rd (by omega), ok_bind], ?_, by simp only [ht2]; rfl⟩
      simp only
      rw [sum_range_succ, sum_range_succ, ← add_assoc (A * _), ← add_assoc (a 0 * _)]
      have h5 := dv_ap hF hx hζ hinv i
      rw [← pow_succ', ← pow_succ'] at h5
      have h6 := hF.cmul (he.ap (i + 1) (by omega)) h5
      rw [ht2]
      exact hF.caddR' ht1 h6.toR (by omega) (by omega))
  refine ⟨st.1.re, ?_, ?_⟩
  · unfold mePot
    simp only
    rw [he.rd (by omega), ok_bind, he.center, if_neg (hF.csub_ne hx), he.size, Nat.add_sub_cancel, h1, ok_bind]
  · have := h2.re.mono hu (by omega : n + 3 * p + 4 + p ≤ n + 4 * p + 4) le_rfl
    exact this

/-- Majorant of the evaluation of the field. -/
noncomputable def meForceMaj (A R ζ : ℝ) (p : ℕ) : ℝ :=
  A * ζ + ∑ i ∈ range p, ((i + 1 : ℕ) : ℝ) * (A * R ^ (i + 1)) * ζ ^ (i + 2)

theorem meForce_ap (hF : F.Ok u) {n : ℕ} {e : Exp2} {c : ℂ} {p : ℕ} {a : ℕ → ℂ} {A R : ℝ} (he : AppM u n e c p a A R)
    (x : Vec 2) (hx : toC x - c ≠ 0) {ζ : ℝ} (hζ : ‖toC x - c‖⁻¹ ≤ ζ) :
    ∃ f, meForce F e x = .ok (Exp2.fieldOf f) ∧ Ap u (n + 4 * p + 9) (meForceMaj A R ζ p) f (meDeriv a p (toC x - c)) := by
  have hu := hF.nonneg
  have hQ : Ap u n A ((e.coeffs.val 0).re : ℂ) (a 0) := by
    have := (he.ap 0 (by omega)).re.ofReal
    have ha' : ((a 0).re : ℂ) = a 0 := Complex.ext (by simp) (by simp [he.im'])
    simpa [ha'] using this
  have h0 := hF.divDiff (toC x) c hx hζ hQ
  have hinv2 : Ap u 7 (ζ ^ 2) (F.div 1 (F.mul (F.csub (toC x) c) (F.csub (toC x) c))) ((toC x - c)⁻¹ ^ 2) := by
    have h1 := hF.diff (toC x) c (le_refl ‖toC x - c‖)
    have h2 := hF.cmul h1 h1
    have hxx : (toC x - c) * (toC x - c) ≠ 0 := mul_ne_zero hx hx
    have hu3 : (1 + u) ^ 3 ≤ 3 / 2 := by
      have : (1 + u) ^ 3 ≤ (1 + 1 / 16) ^ 3 := pow_le_pow_left₀ (by linarith) (by linarith [hF.small]) 3
      norm_num at this ⊢; linarith
    obtain ⟨h3, h4⟩ := Ap.invk hu 3 hu3 hxx (by have := h2.1; rwa [norm_mul])
    have h5 := h4.round hu (y' := F.div 1 (F.mul (F.csub (toC x) c) (F.csub (toC x) c))) (by
      have := hF.div 1 _ h3
      rwa [one_div] at this)
    have e1 : ((toC x - c) * (toC x - c))⁻¹ = (toC x - c)⁻¹ ^ 2 := by rw [← pow_two, inv_pow]
    rw [e1] at h5
    refine h5.mono hu le_rfl ?_
    rw [norm_mul, mul_inv, pow_two]
    exact mul_le_mul hζ hζ (by positivity) ((inv_nonneg.mpr (norm_nonneg _)).trans hζ)
  obtain ⟨st, h1, h2, h3⟩ := loopM_invariant (fun i (s : ℂ × ℂ) =>
      Ap u (n + 3 * p + 9 + i) (A * ζ + ∑ m ∈ range i, ((m + 1 : ℕ) : ℝ) * (A * R ^ (m + 1)) * ζ ^ (m + 2)) s.1
        (a 0 / (toC x - c) - ∑ m ∈ range i, ((m + 1 : ℕ) : ℂ) * a (m + 1) * (toC x - c)⁻¹ ^ (m + 2)) ∧
      s.2 = dv F (F.csub (toC x) c) (F.div 1 (F.mul (F.csub (toC x) c) (F.csub (toC x) c))) i)
    (fun i (s : ℂ × ℂ) => (do
      let a ← e.coeffs.rd (i + 1)
      .ok (F.csub s.1 (F.mul (F.rsc ((i + 1 : ℕ) : ℝ) a) s.2), F.div s.2 (F.csub (toC x) c)) : Outcome (ℂ × ℂ)))
    (F.div ((e.coeffs.val 0).re : ℂ) (F.csub (toC x) c), F.div 1 (F.mul (F.csub (toC x) c) (F.csub (toC x) c))) p
    ⟨by simpa [div_eq_mul_inv] using h0.mono hu (by omega) le_rfl, rfl⟩
    (by
      rintro i hi t ⟨ht1, ht2⟩
      refine ⟨_, by rw [he.rd (by omega), ok_bind], ?_, by simp only [ht2]; rfl⟩
      simp only
      rw [sum_range_succ, sum_range_succ, ← add_assoc (A * ζ), ← sub_sub]
      have h5 := dv_ap hF hx hζ hinv2 i
      rw [← pow_add, ← pow_add, add_comm 2 i] at h5
      have hk : Ap u 0 ((i + 1 : ℕ) : ℝ) ((i + 1 : ℕ) : ℝ) ((i + 1 : ℕ) : ℝ) := Ap.refl (by
        rw [Real.norm_eq_abs, abs_of_nonneg (by positivity)])
      have h6 := hF.cmul (hF.rsc hk (he.ap (i + 1) (by omega))) h5
      rw [Complex.ofReal_natCast] at h6
      rw [ht2]
      exact hF.csub' ht1 h6 (by omega) (by omega))
  refine ⟨st.1, ?_, ?_⟩
  · unfold meForce
    simp only
    rw [he.rd (by omega), ok_bind, he.center, if_neg (hF.csub_ne hx), he.size, Nat.add_sub_cancel, h1, ok_bind]
    rfl
  · exact h2.mono hu (by omega : n + 3 * p + 9 + p ≤ n + 4 * p + 9) le_rfl

end Fl
end FMM
