import Verif.LowRun3
import Verif.FltOps3
import Verif.LowDirect

/-!
# Multipole operations with gradual underflow in three dimensions

The error bounds of `FltOps3` for operations with a floor: all lengths and their reciprocals are at least `θ`, strengths are zero
or at least `τ`. Single coefficients may be arbitrarily small; what is lost in them is covered by the majorant of their degree.
-/

namespace FMM
open Finset

namespace Lo3
open Fl3
variable {F : Flt3} {u g η ρ θ τ ν : ℝ}

theorem totalStrength_flr {S : List (Source 3)} (hq : ∀ s ∈ S, Flr τ |s.q|) : Flr τ (totalStrength S) := by
  rw [totalStrength_eq]
  exact Lo.Flr.listSum _ _ hq fun _ _ => abs_nonneg _

theorem eta_of' (hu : 0 ≤ u) (hg : 0 ≤ g) (p : ℕ) {K : ℕ} (hK : K + 1 ≤ roundings p) :
    ((1 + u) ^ K * (1 + eps u g p) - 1) * (1 + u) ≤ eta u g p := by
  refine le_trans ?_ (eta_of hu hg p hK)
  rw [pow_succ]
  linarith

/-! ## Majorants -/

/-- The coefficients within the triangle. -/
def trunc (p : ℕ) (b : ℕ → ℤ → ℂ) (n : ℕ) (k : ℤ) : ℂ := if n ≤ p ∧ |k| ≤ n then b n k else 0

theorem trunc_of {p n : ℕ} {k : ℤ} {b : ℕ → ℤ → ℂ} (hn : n ≤ p) (hk : |k| ≤ n) : trunc p b n k = b n k := if_pos ⟨hn, hk⟩

section
variable {p : ℕ} (hs : Scale3 u η θ τ ν p)
include hs

theorem maj_of {b : ℕ → ℤ → ℂ} {m : ℕ → ℝ} (h0 : ∀ j, 0 ≤ m j) (hz : ∀ j ≤ p, m j = 0 → ∀ k : ℤ, |k| ≤ j → b j k = 0)
    (hfl : ∀ j ≤ p, Flr (τ * θ ^ (p + 1)) (m j)) : Maj θ τ ν p (trunc p b) (fun n k => ‖trunc p b n k‖ + ν * m n) := by
  refine ⟨fun n k => le_add_of_nonneg_right (mul_nonneg hs.nu0 (h0 n)), fun n hn k => ?_⟩
  rcases hfl n hn with h | h
  · left
    have : trunc p b n k = 0 := by
      unfold trunc
      by_cases hk : n ≤ p ∧ |k| ≤ n
      · rw [if_pos hk]; exact hz n hn h k hk.2
      · rw [if_neg hk]
    rw [this, h, norm_zero, mul_zero, add_zero]
  · right
    have h1 := mul_le_mul_of_nonneg_left h hs.nu0
    have h2 := norm_nonneg (trunc p b n k)
    linarith

theorem maj_l2 {b : ℕ → ℤ → ℂ} {m : ℕ → ℝ} {j : ℕ} (hj : j ≤ p) (h0 : 0 ≤ m j) :
    l2 (Ir j) (fun k => ‖trunc p b j k‖ + ν * m j) ≤ l2 (Ir j) (b j) + ν * Real.sqrt (2 * j + 1) * m j := by
  have h2 := l2_add (Ir j) (fun k => ‖trunc p b j k‖) (fun _ => ν * m j)
  have hm := mul_nonneg hs.nu0 h0
  have h3 := l2_le_card (s := Ir j) (x := fun _ => ν * m j) (b := ν * m j) hm (fun _ _ => by rw [Real.norm_of_nonneg hm])
  rw [l2_norm, l2_congr (y := b j) fun k hk => trunc_of hj (mem_Ir.mp hk)] at h2
  rw [card_Ir] at h3
  push_cast at h3
  linarith

/-- Majorants of a computed multipole expansion. -/
theorem maj3 {n : ℕ} {e : Exp3} {c : Vec 3} {a : ℕ → ℤ → ℂ} {A R : ℝ} (he : AppM3 u n e c p a A R) (hA : Flr τ A) (hR : θ ≤ R) :
    ∃ a' α, e.Is c p a' ∧ (∀ j ≤ p, VAp u n (A * R ^ j) (Ir j) (a' j) (a j)) ∧ Maj θ τ ν p a' α ∧
      ∀ j ≤ p, l2 (Ir j) (α j) ≤ (1 + u) ^ (n + 1) * (A * R ^ j) := by
  obtain ⟨a', e1, e2⟩ := he
  have hu := hs.u0
  have hθ := hs.th0
  have hA0 : 0 ≤ A := by have := (e2 0 (Nat.zero_le p)).nonneg; rwa [pow_zero, mul_one] at this
  have hm0 : ∀ j, 0 ≤ A * R ^ j := fun j => mul_nonneg hA0 (pow_nonneg (hθ.le.trans hR) j)
  refine ⟨trunc p a', _, e1.congr fun n hn m hm => (trunc_of hn hm).symm, fun j hj => (e2 j hj).congr (fun k hk =>
    (trunc_of hj (mem_Ir.mp hk)).symm) fun _ _ => rfl, maj_of hs (m := fun j => A * R ^ j) hm0 (fun j hj h k hk => ?_) (fun j hj => ?_), fun j hj => ?_⟩
  · have h1 := (e2 j hj).norm
    have h2 := norm_le_l2 (x := a' j) (mem_Ir.mpr hk)
    rw [h, mul_zero] at h1
    exact norm_le_zero_iff.mp (h2.trans h1)
  · refine (hA.mulge (pow_le_pow_left₀ hθ.le hR j) hs.tau0.le (pow_nonneg hθ.le j)).mono ?_
    exact mul_le_mul_of_nonneg_left (hs.thpow (by omega)) hs.tau0.le
  · refine (maj_l2 hs (m := fun j => A * R ^ j) hj (hm0 j)).trans ?_
    have h1 := (e2 j hj).norm
    have h2 := mul_le_mul_of_nonneg_right (hs.nu_sqrt (l := j) (by omega)) (hm0 j)
    have h3 : u * (A * R ^ j) ≤ (1 + u) ^ n * (u * (A * R ^ j)) :=
      le_mul_of_one_le_left (mul_nonneg hu (hm0 j)) (one_le_pow_u hu n)
    rw [pow_succ]
    linarith

end

theorem m2mA_mono {α α' y : ℤ → ℝ} (h0 : ∀ m, 0 ≤ α m) (h : ∀ m, α m ≤ α' m) (j n : ℕ) (k : ℤ) : m2mA α y j n k ≤ m2mA α' y j n k := by
  unfold m2mA
  refine sum_le_sum fun m _ => mul_le_mul_of_nonneg_right (mul_le_mul_of_nonneg_left ?_ (wW_pos _ _ _ _).le) (abs_nonneg _)
  exact abs_le_abs_of_nonneg (h0 _) (h _)

theorem m2lA_mono {α α' y : ℤ → ℝ} (h0 : ∀ m, 0 ≤ α m) (h : ∀ m, α m ≤ α' m) (j n : ℕ) (k : ℤ) : m2lA α y j n k ≤ m2lA α' y j n k := by
  unfold m2lA
  refine sum_le_sum fun m _ => mul_le_mul_of_nonneg_right (mul_le_mul_of_nonneg_left ?_ (wW_pos _ _ _ _).le) (abs_nonneg _)
  exact abs_le_abs_of_nonneg (h0 _) (h _)

theorem l2lA_mono {α α' y : ℤ → ℝ} (h0 : ∀ m, 0 ≤ α m) (h : ∀ m, α m ≤ α' m) (j n : ℕ) (k : ℤ) : l2lA α y j n k ≤ l2lA α' y j n k := by
  unfold l2lA
  refine sum_le_sum fun m _ => mul_le_mul_of_nonneg_right (mul_le_mul_of_nonneg_left ?_ (wW_pos _ _ _ _).le) (abs_nonneg _)
  exact abs_le_abs_of_nonneg (h0 _) (h _)

/-! ## Multipole expansions -/

/-- Accumulation of computed coefficients over a list. -/
theorem fold_vap {F : Flt} (hF : F.Low u η ρ) {κ : ℝ} (hκ : u ≤ κ) {α : Type} {p m : ℕ} (hs : Scale3 u η θ τ ν p) (f : Arr ℂ → α → Outcome (Arr ℂ))
    (ς : α → ℕ → ℤ → ℂ) (M : α → ℕ → ℝ) (S : List α)
    (h : ∀ s ∈ S, ∃ t : ℕ → ℤ → ℂ, (∀ c : Arr ℂ, c.size = (p + 1) * (p + 1) → ∃ c', f c s = .ok c' ∧
      c'.size = (p + 1) * (p + 1) ∧ ∀ n ≤ p, ∀ k : ℤ, |k| ≤ n → c'.val (cell n k) = F.cadd (c.val (cell n k)) (t n k)) ∧
      (∀ n ≤ p, VAp κ m (M s n) (Ir n) (t n) (ς s n)) ∧ ∀ n ≤ p, Flr (τ * θ ^ (p + 1)) (M s n)) :
    ∀ (N : ℕ) (x : ℕ → ℤ → ℂ) (M0 : ℕ → ℝ) (c : Arr ℂ), m ≤ N → c.size = (p + 1) * (p + 1) → (∀ n ≤ p, Flr (τ * θ ^ (p + 1)) (M0 n)) →
      (∀ n ≤ p, VAp κ N (M0 n) (Ir n) (fun k => c.val (cell n k)) (x n)) →
      ∃ c', S.foldlM f c = .ok c' ∧ c'.size = (p + 1) * (p + 1) ∧
      ∀ n ≤ p, VAp κ (N + S.length) (M0 n + (S.map fun s => M s n).sum) (Ir n) (fun k => c'.val (cell n k))
        (fun k => x n k + (S.map fun s => ς s n k).sum) := by
  induction S with
  | nil => exact fun N x M0 c _ hc _ hx => ⟨c, rfl, hc, fun n hn => by simpa using hx n hn⟩
  | cons s S ih =>
    intro N x M0 c hm hc h0 hx
    obtain ⟨t, h1, h2, h3⟩ := h s (by simp)
    obtain ⟨c1, g1, g2, g3⟩ := h1 c hc
    obtain ⟨c2, g4, g5, g6⟩ := ih (fun t ht => h t (by simp [ht])) (N + 1) (fun n k => x n k + ς s n k) (fun n => M0 n + M s n) c1
      (by omega) g2 (fun n hn => (h0 n hn).add (h3 n hn) (hx n hn).nonneg (h2 n hn).nonneg) fun n hn => by
        have hfl := ((h0 n hn).add (h3 n hn) (hx n hn).nonneg (h2 n hn).nonneg).mono (hs.vfl hn)
        have := vcadd hF hκ hfl rfl (hx n hn) (h2 n hn) (k := N + 1) le_rfl (by omega)
        exact this.congr (fun k hk => (g3 n hn k (mem_Ir.mp hk)).symm) fun _ _ => rfl
    refine ⟨c2, ?_, g5, fun n hn => ?_⟩
    · rw [List.foldlM_cons, g1, ok_bind, g4]
    · have := g6 n hn
      rw [List.map_cons, List.sum_cons, ← add_assoc, List.length_cons, show N + (S.length + 1) = N + 1 + S.length by ring]
      exact this.congr (fun _ _ => rfl) fun k _ => by simp only [List.map_cons, List.sum_cons]; ring

/-- One computed source term. -/
theorem srcTerm (hF : F.Low u g η ρ) {p κ : ℕ} (hs : Scale3 u η θ τ ν p) (hκ : Cost u g p κ) {n : ℕ} {q : ℝ} (hq : Flr τ |q|) (P : ℝ) (y z : ℤ → ℂ) {ζ : ℝ}
    (hζ' : θ ^ (p + 1) ≤ ζ) (hβ : l2 (Ir n) (fun m => (‖P‖ + ν * ζ) * (‖y m‖ + ν)) ≤ (1 + u) ^ 2 * (1 + eps u g p) * ζ)
    (hz' : l2 (Ir n) (fun m => (P : ℂ) * y m - z m) ≤ eps u g p * ζ) (hz : l2 (Ir n) z ≤ ζ) :
    VAp u κ (|q| * ζ) (Ir n) (fun m => F.rsc (F.rnd (q * P)) (y (-m))) (fun m => (q : ℂ) * z (-m)) := by
  have hu := hF.nonneg
  have hg := gpos hF
  have hF' := hF.toLow
  have hν := hs.nu0
  have hθ := pow_nonneg hs.th0.le (p + 1)
  have hζ : 0 ≤ ζ := (l2_nonneg _ _).trans hz
  have hqζ := mul_nonneg (abs_nonneg q) hζ
  have hνζ := mul_nonneg hν hζ
  constructor
  · have h := bilinf hu (eps_nonneg hu hg p) (K := 2) (K₁ := 2) ({()} : Finset Unit) (Ir n) (fun _ => n)
      (fun _ y k => (q : ℂ) * y (-k)) (fun _ y k => |q| * |y (-k)|) (fun _ => |q|) (fun _ => ζ)
      (fun _ m => (‖P‖ + ν * ζ) * (‖y m‖ + ν))
      (fun _ m => (P : ℂ) * y m) (fun _ => z) (fun m => F.rsc (F.rnd (q * P)) (y (-m)))
      (fun _ _ k _ => by
        simp only
        rw [← mul_sub, norm_mul, Complex.norm_real, Real.norm_eq_abs, abs_norm])
      (fun _ _ y k => mul_nonneg (abs_nonneg _) (abs_nonneg _))
      (fun _ _ y => by
        rw [l2_smulR _ (abs_nonneg q), l2_Ir_neg n fun m => |y m|]
        exact le_of_eq (congrArg _ (l2_norm (Ir n) y)))
      (fun _ _ => abs_nonneg q) (fun _ _ => hz') (fun _ _ => hβ) (fun _ _ => hζ)
      (fun k _ => by
        rw [sum_singleton, sum_singleton]
        have f1 : Flr (τ * (ν * θ ^ (p + 1))) (|q| * (‖P‖ + ν * ζ)) := hq.mulge (by
          have := mul_le_mul_of_nonneg_left hζ' hν
          have := norm_nonneg P
          linarith) hs.tau0.le (mul_nonneg hν hθ)
        have f2 : Flr (τ * (ν * θ ^ (p + 1)) * ν) (|q| * (‖P‖ + ν * ζ) * (‖y (-k)‖ + ν)) := f1.mulge (by
          have := norm_nonneg (y (-k))
          linarith) (mul_nonneg hs.tau0.le (mul_nonneg hν hθ)) hν
        have k0 : Ap u 0 (|q| * (‖P‖ + ν * ζ)) (q * P) (q * P) := Ap.refl (by
          rw [norm_mul, Real.norm_eq_abs]
          exact mul_le_mul_of_nonneg_left (by linarith) (abs_nonneg q))
        have k1 := hF'.rsc (hF'.rrnd k0 (f1.mono ((hs.fl1 (i := 1) (k := p + 1) (by omega) (by omega)).trans (le_of_eq (by ring)))))
          (show Ap u 0 (‖y (-k)‖ + ν) (y (-k)) (y (-k)) from Ap.refl (by linarith))
          (f2.mono ((hs.fl1 (i := 2) (k := p + 1) (by omega) (by omega)).trans (le_of_eq (by ring))))
        have := k1.1
        rw [abs_of_nonneg (show 0 ≤ (‖P‖ + ν * ζ) * (‖y (-k)‖ + ν) by positivity), ← mul_assoc (q : ℂ), ← mul_assoc |q|]
        rwa [Complex.ofReal_mul] at this)
    rw [sum_singleton] at h
    simp only [sum_singleton] at h
    refine h.trans (mul_le_mul_of_nonneg_right ?_ hqζ)
    exact ((eta_of hu hg p (by unfold roundings; nlinarith)).trans (eta_le_kap hu hg p)).trans hκ.one
  · rw [l2_smul, l2_Ir_neg, Complex.norm_real, Real.norm_eq_abs]
    exact mul_le_mul_of_nonneg_left hz (abs_nonneg q)

theorem meOfSources_ap (hF : F.Low u g η ρ) {p κ : ℕ} (hs : Scale3 u η θ τ ν p) (hκ : Cost u g p κ) (st : Stat3) (hst : st.Good) (c : Vec 3) (hp : p ≤ 42) {R : ℝ} (hR : θ ≤ R)
    (S : List (Source 3)) (hS : ∀ s ∈ S, len3 (s.pos - c) ≤ R) (hq : ∀ s ∈ S, Flr τ |s.q|) :
    ∃ st' e, meOfSources F st c p S = .ok (st', e) ∧ st'.Good ∧ p ≤ st'.alm.maxOrder ∧ (p ≤ st.alm.maxOrder → st' = st) ∧
      AppM3 u (S.length + κ) e c p (meCoeff3 c S) (totalStrength S) R := by
  have hu := hF.nonneg
  have hg := gpos hF
  have hF' := hF.toLow
  obtain ⟨st', e, h1, h2, h3, h4, h5⟩ := Exp3.new_ok st hst c p hp
  unfold meOfSources
  rw [h1, ok_bind]
  simp only [h5.center]
  obtain ⟨a, g1, g2, g3⟩ := fold_vap hF' le_rfl hs (m := κ) (meAddSource F p c)
    (fun s n m => (s.q : ℂ) * rY (s.pos - c) n (-m)) (fun s n => |s.q| * R ^ n) S (fun s hss => by
      refine ⟨fun n m => F.rsc (F.rnd (s.q * rpw F (F.nrm3 (F.vsub s.pos c)) 1 n))
          (yv F p (F.rcos (F.sph (F.vsub s.pos c) 1)) (F.sph (F.vsub s.pos c) 2) n (-m)),
        fun a ha => meAddSource_run hF p c s a ha, fun n hn => ?_, fun n hn => ?_⟩
      · exact srcTerm hF hs hκ (hq s hss) _ _ _ ((hs.thpow (by omega)).trans (pow_le_pow_left₀ hs.th0.le hR n))
          (beta_l2 hF hs _ hn (by omega) (by omega) (pw_r hF hs _ _ (hS s hss) hR hn))
          (tab_reg hF hs s.pos c (hS s hss) hR hn hn)
          ((l2_rY _ n).le.trans (pow_le_pow_left₀ (len3_nonneg _) (hS s hss) n))
      · refine ((hq s hss).mulge (pow_le_pow_left₀ hs.th0.le hR n) hs.tau0.le (pow_nonneg hs.th0.le n)).mono ?_
        exact mul_le_mul_of_nonneg_left (hs.thpow (by omega)) hs.tau0.le)
    κ (fun _ _ => 0) (fun _ => 0) e.coeffs le_rfl h5.size (fun _ _ => Or.inl rfl) (fun n hn => by
      have := (VAp.zero (n := κ) (s := Ir n) hu (le_refl (0 : ℝ)))
      exact this.congr (fun k hk => (h5.val n hn k (mem_Ir.mp hk)).symm) fun _ _ => rfl)
  rw [g1, ok_bind]
  refine ⟨st', _, rfl, h2, h3, h4, fun n m => a.val (cell n m), ⟨h5.order, rfl, g2, fun n hn m hm => rfl⟩, fun n hn => ?_⟩
  have := g3 n hn
  rw [zero_add, Nat.add_comm] at this
  rw [totalStrength_eq, ← List.sum_map_mul_right]
  exact this.congr (fun _ _ => rfl) fun k _ => by rw [zero_add]; rfl

/-! ### Shift -/

theorem pow_err_nonneg (hu : 0 ≤ u) (hg : 0 ≤ g) (p K : ℕ) : 0 ≤ (1 + u) ^ K * (1 + eps u g p) - 1 := by
  have h1 := one_le_pow_u hu K
  have h2 := eps_nonneg hu hg p
  nlinarith

theorem meShift_vap (hF : F.Low u g η ρ) {p κ : ℕ} (hs : Scale3 u η θ τ ν p) (hκ : Cost u g p κ) {st : Stat3} (hst : st.Good)
    {n : ℕ} {e : Exp3} {c : Vec 3} {a : ℕ → ℤ → ℂ} {A R σ : ℝ}
    (he : AppM3 u n e c p a A R) (hA : Flr τ A) (hA0 : 0 ≤ A) (hR : θ ≤ R) (hp0 : 0 < p) (hp : p ≤ 42) (hM : p ≤ st.alm.maxOrder)
    (x c' : Vec 3) (hσ : len3 (x - c') ≤ σ) (hσθ : θ ≤ σ) :
    ∃ (d : Arr ℂ), meShift F st e (F.vsub x c') = .ok d ∧ d.size = (p + 1) * (p + 1) ∧
      ∀ j ≤ p, VAp u (n + κ) (A * (R + σ) ^ j) (Ir j) (fun k => d.val (cell j k)) (m2mC a (x - c') j) := by
  have hu := hF.nonneg
  have hg := gpos hF
  have hη := eta_nonneg hu hg p
  have hθ := hs.th0.le
  have hσ0 : 0 ≤ σ := hθ.trans hσθ
  have hR0 : 0 ≤ R := hθ.trans hR
  obtain ⟨a', α, e1, e2, hα, hα2⟩ := maj3 hs he hA hR
  obtain ⟨d, w, h1, h2, h3⟩ := meShift_ap hF hst hs hα e1 hp0 hp hM (F.vsub x c') (ζ := fun i => σ ^ i) (fun i => pow_nonneg hσ0 i)
    (fun i hi => (hs.thpow (by omega)).trans (pow_le_pow_left₀ hθ hσθ i))
  refine ⟨d, h1, h2, fun j hj => ?_⟩
  have hl := len3_nonneg (x - c')
  have hNN := one_le_pow_u hu n
  -- the exact part
  have hex : ∀ (b : ℕ → ℤ → ℂ) (B : ℝ), 0 ≤ B → (∀ i ≤ p, l2 (Ir i) (b i) ≤ B * (A * R ^ i)) →
      l2 (Ir j) (m2mC b (x - c') j) ≤ B * (A * (R + σ) ^ j) := by
    intro b B hb0 hb
    refine (l2_m2mC b (x - c') j).trans ?_
    rw [← binom_sum R, mul_sum, mul_sum]
    refine sum_le_sum fun i hi => ?_
    rw [mem_range] at hi
    refine (mul_le_mul (mul_le_mul_of_nonneg_left (pow_le_pow_left₀ hl hσ i) (by positivity)) (hb (j - i) (by omega)) (l2_nonneg _ _)
      (by positivity)).trans (le_of_eq ?_)
    ring
  constructor
  · have hb := bilinf hu (eps_nonneg hu hg p) (K := 3 * p + 32) (K₁ := 2) (range (j + 1)) (Ir j) (fun i => i)
      (fun i y k => m2mB (a' (j - i)) y j i k) (fun i y k => m2mA (α (j - i)) y j i k)
      (fun i => Real.sqrt ((2 * j).choose (2 * i)) * l2 (Ir (j - i)) (α (j - i))) (fun i => σ ^ i)
      (fun i m => (‖rpw F (F.nrm3 (F.vsub x c')) 1 i‖ + ν * σ ^ i)
        * (‖yv F p (F.rcos (F.sph (F.vsub x c') 1)) (F.sph (F.vsub x c') 2) i m‖ + ν))
      (fun i m => (rpw F (F.nrm3 (F.vsub x c')) 1 i : ℂ) * yv F p (F.rcos (F.sph (F.vsub x c') 1)) (F.sph (F.vsub x c') 2) i m) (fun i => rY (x - c') i)
      (fun k => d.val (cell j k))
      (fun i hi k _ => (norm_m2mB_sub _ _ _ (by rw [mem_range] at hi; omega) k).trans
        (m2mA_mono (fun _ => norm_nonneg _) (fun m => hα.le _ m) _ _ _))
      (fun i _ y k => m2mA_nonneg _ _ _ _ _)
      (fun i hi y => l2_m2mA (α (j - i)) y (show i ≤ j by rw [mem_range] at hi; omega))
      (fun i _ => mul_nonneg (Real.sqrt_nonneg _) (l2_nonneg _ _))
      (fun i hi => by
        rw [mem_range] at hi
        exact tab_reg hF hs x c' hσ hσθ (by omega) (by omega))
      (fun i hi => by
        rw [mem_range] at hi
        exact beta_l2 hF hs _ (by omega) (by omega) (by omega) (pw_r hF hs _ _ hσ hσθ (by omega)))
      (fun i _ => pow_nonneg hσ0 i)
      (fun k hk => by
        obtain ⟨g1, g2⟩ := h3 j hj k (mem_Ir.mp hk)
        rw [g1]; exact g2.1)
    have hsum : ∑ i ∈ range (j + 1), Real.sqrt ((2 * j).choose (2 * i)) * l2 (Ir (j - i)) (α (j - i)) * σ ^ i
        ≤ Real.sqrt (2 * p + 1) * ((1 + u) ^ (n + 1) * (A * (R + σ) ^ j)) := by
      rw [← binom_sum R, mul_sum, mul_sum, mul_sum]
      refine sum_le_sum fun i hi => ?_
      rw [mem_range] at hi
      have a1 := sqrt_choose_le j i (D := 2 * p + 1) (by
        have : (i : ℝ) ≤ p := by exact_mod_cast (by omega : i ≤ p)
        linarith)
      have a2 := hα2 (j - i) (by omega)
      have a3 := mul_le_mul a1 a2 (l2_nonneg _ _) (mul_nonneg (Real.sqrt_nonneg _) (Nat.cast_nonneg _))
      refine (mul_le_mul_of_nonneg_right a3 (pow_nonneg hσ0 i)).trans (le_of_eq ?_)
      ring
    have hb2 : l2 (Ir j) (fun k => d.val (cell j k) - m2mC a' (x - c') j k)
        ≤ Fl3.kap u g p * ((1 + u) ^ n * (A * (R + σ) ^ j)) := by
      have e3 : (fun k => d.val (cell j k) - m2mC a' (x - c') j k) = fun k => d.val (cell j k)
          - ∑ i ∈ range (j + 1), m2mB (a' (j - i)) (rY (x - c') i) j i k := by
        funext k; rw [m2mC_parts]; rfl
      rw [e3]
      refine hb.trans ?_
      have b1 := eta_of' hu hg p (K := 3 * p + 32 + 2) (by unfold roundings; nlinarith)
      have b0 := pow_err_nonneg hu hg p (3 * p + 32 + 2)
      refine (mul_le_mul_of_nonneg_left hsum b0).trans ?_
      have b2 := mul_le_mul_of_nonneg_left b1 (show 0 ≤ Real.sqrt (2 * p + 1) * ((1 + u) ^ n * (A * (R + σ) ^ j)) by positivity)
      unfold Fl3.kap
      rw [pow_succ (1 + u) n]
      linarith
    have hb3 : l2 (Ir j) (fun k => m2mC a' (x - c') j k - m2mC a (x - c') j k) ≤ ((1 + u) ^ n - 1) * (A * (R + σ) ^ j) := by
      have e3 : (fun k => m2mC a' (x - c') j k - m2mC a (x - c') j k) = m2mC (fun n m => a' n m - a n m) (x - c') j := by
        funext k; exact m2mC_sub _ _ _ _ _
      rw [e3]
      exact hex _ _ (by linarith) fun i hi => (e2 i hi).1
    have hb4 := l2_tri (Ir j) (fun k => d.val (cell j k)) (m2mC a' (x - c') j) (m2mC a (x - c') j)
    exact hb4.trans (hκ.step hu (mul_nonneg hA0 (pow_nonneg (by linarith) j)) hb2 hb3)
  · have := hex a 1 zero_le_one fun i hi => by rw [one_mul]; exact (e2 i hi).2
    rwa [one_mul] at this

theorem meOfMes_ap (hF : F.Low u g η ρ) {p κ : ℕ} (hs : Scale3 u η θ τ ν p) (hκ : Cost u g p κ) (st : Stat3) (hst : st.Good) (c : Vec 3) (hp : p ≤ 42) (hp0 : 0 < p) {n : ℕ} {R σ : ℝ}
    (hR : θ ≤ R) (hσ : θ ≤ σ) (L : List (Exp3 × Vec 3 × List (Source 3))) (hne : L ≠ [])
    (hL : ∀ x ∈ L, AppM3 u n x.1 x.2.1 p (meCoeff3 x.2.1 x.2.2) (totalStrength x.2.2) R ∧ len3 (x.2.1 - c) ≤ σ) (hq : ∀ x ∈ L, ∀ s ∈ x.2.2, Flr τ |s.q|) :
    ∃ st' e, meOfMes F st c (L.map (·.1)) = .ok (st', e) ∧ st'.Good ∧ p ≤ st'.alm.maxOrder ∧
      (p ≤ st.alm.maxOrder → st' = st) ∧
      AppM3 u (n + κ + L.length) e c p (meCoeff3 c (L.flatMap (·.2.2))) (totalStrength (L.flatMap (·.2.2))) (R + σ) := by
  have hu := hF.nonneg
  have hg := gpos hF
  have hF' := hF.toLow
  obtain ⟨x0, L', rfl⟩ := List.exists_cons_of_ne_nil hne
  obtain ⟨st', e, h1, h2, h3, h4, h5⟩ := Exp3.new_ok st hst c p hp
  have ho : x0.1.order = p := by
    obtain ⟨a, ha, -⟩ := (hL x0 (by simp)).1
    exact ha.order
  unfold meOfMes
  rw [List.map_cons]
  simp only
  rw [ho, h1, ok_bind, ← List.map_cons (f := Prod.fst), List.foldlM_map]
  simp only [h5.center]
  obtain ⟨d, g1, g2, g3⟩ := fold_vap hF' le_rfl hs (m := n + κ) (p := p)
    (fun (c' : Arr ℂ) (x : Exp3 × Vec 3 × List (Source 3)) => do
      let sh ← meShift F st' x.1 (F.vsub x.1.center c)
      Fl.addCoeffs F.toFlt c' sh) (fun x j k => meCoeff3 c x.2.2 j k)
    (fun x j => totalStrength x.2.2 * (R + σ) ^ j) (x0 :: L') (by
      intro x hx
      obtain ⟨k1, k2⟩ := hL x hx
      obtain ⟨d, m1, m2, m3⟩ := meShift_vap hF hs hκ h2 k1 (totalStrength_flr (hq x hx)) (totalStrength_nonneg _) hR hp0 hp h3 x.2.1 c k2 hσ
      refine ⟨fun j k => d.val (cell j k), fun a ha => ?_, fun j hj => ?_, fun j hj => ?_⟩
      · have hc : x.1.center = x.2.1 := by
          obtain ⟨a, ha, -⟩ := k1
          exact ha.center
        rw [hc, m1, ok_bind, Fl.addCoeffs_ok _ _ _ (by rw [ha, m2])]
        refine ⟨_, rfl, ha, fun i hi m hm => ?_⟩
        have : cell i m < a.size := by
          obtain ⟨b0, b1⟩ := lmIndex_bounds hm hi
          rw [ha]; unfold cell; omega
        simp only
        rw [if_pos this]
      · exact (m3 j hj).congr (fun _ _ => rfl) fun k hk => m2mC_sources _ _ _ rfl _ _ (mem_Ir.mp hk)
      · refine ((totalStrength_flr (hq x hx)).mulge (pow_le_pow_left₀ hs.th0.le (show θ ≤ R + σ by linarith [hs.th0]) j) hs.tau0.le
          (pow_nonneg hs.th0.le j)).mono ?_
        exact mul_le_mul_of_nonneg_left (hs.thpow (by omega)) hs.tau0.le)
    (n + κ) (fun _ _ => 0) (fun _ => 0) e.coeffs le_rfl h5.size (fun _ _ => Or.inl rfl) (fun j hj => by
      have := (VAp.zero (n := n + κ) (s := Ir j) hu (le_refl (0 : ℝ)))
      exact this.congr (fun k hk => (h5.val j hj k (mem_Ir.mp hk)).symm) fun _ _ => rfl)
  rw [g1, ok_bind]
  refine ⟨st', _, rfl, h2, h3, h4, fun j k => d.val (cell j k), ⟨h5.order, rfl, g2, fun j hj k hk => rfl⟩, fun j hj => ?_⟩
  have := g3 j hj
  rw [zero_add] at this
  rw [totalStrength_flatMap', ← List.sum_map_mul_right]
  exact this.congr (fun _ _ => rfl) fun k _ => by rw [zero_add, meCoeff3_flatMap]

end Lo3
end FMM
