import Verif.FltRun3
import Verif.FltOps

/-!
# Rounding errors of the operations on three-dimensional expansions

Multipole expansions are measured degree by degree in the Euclidean norm, local expansions in the weighted sum of these norms.
Errors are counted in units of `u`: an addition costs one unit, an operation on expansions of order `p` costs `κ` units,
where `(1 + u)^κ` covers its relative error.
-/

namespace FMM
open Finset

namespace Fl3
variable {F : Flt3} {u g : ℝ}

/-! ## The relative error of one operation -/

/-- Roundings in one coefficient or one value. -/
def roundings (p : ℕ) : ℕ := (p + 1) ^ 2 + 3 * p + 40

/-- Relative error of one coefficient, in terms of the majorants. -/
noncomputable def eta (u g : ℝ) (p : ℕ) : ℝ := (1 + u) ^ roundings p * (1 + eps u g p) - 1

/-- Relative error of one operation on expansions of order `p`. -/
noncomputable def kap (u g : ℝ) (p : ℕ) : ℝ := Real.sqrt (2 * p + 1) * eta u g p

section
variable (hu : 0 ≤ u) (hg : 0 ≤ g) (p : ℕ)
include hu hg

theorem eta_of {K : ℕ} (hK : K ≤ roundings p) : (1 + u) ^ K * (1 + eps u g p) - 1 ≤ eta u g p := by
  have h := eps_nonneg hu hg p
  have := pow_le_pow_right₀ (show 1 ≤ 1 + u by linarith) hK
  unfold eta
  nlinarith

theorem u_le_eta : u ≤ eta u g p := by
  have h := eps_nonneg hu hg p
  have h1 := eta_of hu hg p (K := 1) (by unfold roundings; omega)
  rw [pow_one] at h1
  nlinarith

theorem eta_nonneg : 0 ≤ eta u g p := hu.trans (u_le_eta hu hg p)

omit hu hg in
theorem one_le_sqrtD : 1 ≤ Real.sqrt (2 * p + 1) := by
  rw [Real.one_le_sqrt]
  have : (0 : ℝ) ≤ p := Nat.cast_nonneg p
  linarith

theorem eta_le_kap : eta u g p ≤ kap u g p :=
  le_mul_of_one_le_left (eta_nonneg hu hg p) (one_le_sqrtD p)

theorem u_le_kap : u ≤ kap u g p := (u_le_eta hu hg p).trans (eta_le_kap hu hg p)

theorem kap_nonneg : 0 ≤ kap u g p := hu.trans (u_le_kap hu hg p)

end

/-- `κ` units cover the error of one operation on expansions of order `p`. -/
def Cost (u g : ℝ) (p κ : ℕ) : Prop := 1 + kap u g p ≤ (1 + u) ^ κ

theorem Cost.step {p κ : ℕ} (hκ : Cost u g p κ) (hu : 0 ≤ u) {n : ℕ} {M a b : ℝ} (hM : 0 ≤ M)
    (ha : a ≤ kap u g p * ((1 + u) ^ n * M)) (hb : b ≤ ((1 + u) ^ n - 1) * M) : a + b ≤ ((1 + u) ^ (n + κ) - 1) * M := by
  have h1 : 0 ≤ (1 + u) ^ n * M := mul_nonneg (by positivity) hM
  have h2 := mul_le_mul_of_nonneg_right hκ h1
  rw [pow_add]
  linarith

theorem Cost.one {p κ : ℕ} (hκ : Cost u g p κ) : kap u g p ≤ (1 + u) ^ κ - 1 := by
  have h : 1 + kap u g p ≤ (1 + u) ^ κ := hκ
  linarith

/-! ## Multipole expansions -/

/-- The expansion `e` approximates the multipole coefficients `a`; degree `j` has majorant `A R^j`. -/
def AppM3 (κ : ℝ) (n : ℕ) (e : Exp3) (c : Vec 3) (p : ℕ) (a : ℕ → ℤ → ℂ) (A R : ℝ) : Prop :=
  ∃ a', e.Is c p a' ∧ ∀ j ≤ p, VAp κ n (A * R ^ j) (Ir j) (a' j) (a j)

theorem AppM3.mono {κ : ℝ} (hκ : 0 ≤ κ) {n m : ℕ} {e : Exp3} {c : Vec 3} {p : ℕ} {a : ℕ → ℤ → ℂ} {A R A' R' : ℝ}
    (h : AppM3 κ n e c p a A R) (hn : n ≤ m) (hA : A ≤ A') (hA' : 0 ≤ A') (hR : 0 ≤ R) (hR' : R ≤ R') : AppM3 κ m e c p a A' R' := by
  obtain ⟨a', h1, h2⟩ := h
  refine ⟨a', h1, fun j hj => (h2 j hj).mono hκ hn ?_⟩
  exact mul_le_mul hA (pow_le_pow_left₀ hR hR' j) (pow_nonneg hR j) hA'

theorem AppM3.congr {κ : ℝ} {n : ℕ} {e : Exp3} {c : Vec 3} {p : ℕ} {a b : ℕ → ℤ → ℂ} {A R : ℝ}
    (h : AppM3 κ n e c p a A R) (hab : ∀ j ≤ p, ∀ k : ℤ, |k| ≤ j → a j k = b j k) : AppM3 κ n e c p b A R := by
  obtain ⟨a', h1, h2⟩ := h
  exact ⟨a', h1, fun j hj => (h2 j hj).congr (fun _ _ => rfl) fun k hk => hab j hj k (mem_Ir.mp hk)⟩

/-- Accumulation of computed coefficients over a list. -/
theorem fold_vap {F : Flt} (hF : F.Ok u) {κ : ℝ} (hκ : u ≤ κ) {α : Type} {p m : ℕ} (f : Arr ℂ → α → Outcome (Arr ℂ))
    (τ : α → ℕ → ℤ → ℂ) (M : α → ℕ → ℝ) (S : List α)
    (h : ∀ s ∈ S, ∃ t : ℕ → ℤ → ℂ, (∀ c : Arr ℂ, c.size = (p + 1) * (p + 1) → ∃ c', f c s = .ok c' ∧
      c'.size = (p + 1) * (p + 1) ∧ ∀ n ≤ p, ∀ k : ℤ, |k| ≤ n → c'.val (cell n k) = F.cadd (c.val (cell n k)) (t n k)) ∧
      ∀ n ≤ p, VAp κ m (M s n) (Ir n) (t n) (τ s n)) :
    ∀ (N : ℕ) (x : ℕ → ℤ → ℂ) (M0 : ℕ → ℝ) (c : Arr ℂ), m ≤ N → c.size = (p + 1) * (p + 1) →
      (∀ n ≤ p, VAp κ N (M0 n) (Ir n) (fun k => c.val (cell n k)) (x n)) →
      ∃ c', S.foldlM f c = .ok c' ∧ c'.size = (p + 1) * (p + 1) ∧
      ∀ n ≤ p, VAp κ (N + S.length) (M0 n + (S.map fun s => M s n).sum) (Ir n) (fun k => c'.val (cell n k))
        (fun k => x n k + (S.map fun s => τ s n k).sum) := by
  induction S with
  | nil => exact fun N x M0 c _ hc hx => ⟨c, rfl, hc, fun n hn => by simpa using hx n hn⟩
  | cons s S ih =>
    intro N x M0 c hm hc hx
    obtain ⟨t, h1, h2⟩ := h s (by simp)
    obtain ⟨c1, g1, g2, g3⟩ := h1 c hc
    obtain ⟨c2, g4, g5, g6⟩ := ih (fun t ht => h t (by simp [ht])) (N + 1) (fun n k => x n k + τ s n k) (fun n => M0 n + M s n) c1
      (by omega) g2 fun n hn => by
        have := (hx n hn).cadd hF hκ (h2 n hn) (k := N + 1) le_rfl (by omega)
        exact this.congr (fun k hk => (g3 n hn k (mem_Ir.mp hk)).symm) fun _ _ => rfl
    refine ⟨c2, ?_, g5, fun n hn => ?_⟩
    · rw [List.foldlM_cons, g1, ok_bind, g4]
    · have := g6 n hn
      rw [List.map_cons, List.sum_cons, ← add_assoc, List.length_cons, show N + (S.length + 1) = N + 1 + S.length by ring]
      exact this.congr (fun _ _ => rfl) fun k _ => by simp only [List.map_cons, List.sum_cons]; ring

/-- One computed source term. -/
theorem srcTerm (hF : F.Ok u g) {p κ : ℕ} (hκ : Cost u g p κ) {n : ℕ} (q P : ℝ) (y z : ℤ → ℂ) {ζ : ℝ}
    (hz' : l2 (Ir n) (fun m => (P : ℂ) * y m - z m) ≤ eps u g p * ζ) (hz : l2 (Ir n) z ≤ ζ) :
    VAp u κ (|q| * ζ) (Ir n) (fun m => F.rsc (F.rnd (q * P)) (y (-m))) (fun m => (q : ℂ) * z (-m)) := by
  have hu := hF.nonneg
  have hg := hF.leg_nonneg
  have hF' := hF.toOk
  have hζ : 0 ≤ ζ := (l2_nonneg _ _).trans hz
  have hq := mul_nonneg (abs_nonneg q) hζ
  constructor
  · have h := bilin hu (ε := eps u g p) (K := 2) ({()} : Finset Unit) (Ir n) (fun _ => n)
      (fun _ y k => (q : ℂ) * y (-k)) (fun _ y k => |q| * |y (-k)|) (fun _ => |q|) (fun _ => ζ)
      (fun _ m => (P : ℂ) * y m) (fun _ => z) (fun m => F.rsc (F.rnd (q * P)) (y (-m)))
      (fun _ _ k _ => by
        simp only
        rw [← mul_sub, norm_mul, Complex.norm_real, Real.norm_eq_abs, abs_norm])
      (fun _ _ y k => mul_nonneg (abs_nonneg _) (abs_nonneg _))
      (fun _ _ y => by
        rw [l2_smulR _ (abs_nonneg q), l2_Ir_neg n fun m => |y m|]
        exact le_of_eq (congrArg _ (l2_norm (Ir n) y)))
      (fun _ _ => abs_nonneg q) (fun _ _ => hz') (fun _ _ => hz)
      (fun k _ => by
        rw [sum_singleton, sum_singleton]
        have k1 := hF.rsc (hF.rrnd (rl hu (q * P) 0)) (rl hu (y (-k)) 0)
        have := k1.1
        rw [norm_mul, Real.norm_eq_abs] at this
        rw [abs_norm, norm_mul, Complex.norm_real, ← mul_assoc (q : ℂ), ← mul_assoc |q|]
        rwa [Complex.ofReal_mul] at this)
    rw [sum_singleton] at h
    simp only [sum_singleton] at h
    refine h.trans (mul_le_mul_of_nonneg_right ?_ hq)
    exact ((eta_of hu hg p (by unfold roundings; nlinarith)).trans (eta_le_kap hu hg p)).trans hκ.one
  · rw [l2_smul, l2_Ir_neg, Complex.norm_real, Real.norm_eq_abs]
    exact mul_le_mul_of_nonneg_left hz (abs_nonneg q)

theorem meOfSources_ap (hF : F.Ok u g) {p κ : ℕ} (hκ : Cost u g p κ) (st : Stat3) (hst : st.Good) (c : Vec 3) (hp : p ≤ 42) {R : ℝ}
    (S : List (Source 3)) (hS : ∀ s ∈ S, len3 (s.pos - c) ≤ R) :
    ∃ st' e, meOfSources F st c p S = .ok (st', e) ∧ st'.Good ∧ p ≤ st'.alm.maxOrder ∧ (p ≤ st.alm.maxOrder → st' = st) ∧
      AppM3 u (S.length + κ) e c p (meCoeff3 c S) (totalStrength S) R := by
  have hu := hF.nonneg
  have hg := hF.leg_nonneg
  have hF' := hF.toOk
  obtain ⟨st', e, h1, h2, h3, h4, h5⟩ := Exp3.new_ok st hst c p hp
  unfold meOfSources
  rw [h1, ok_bind]
  simp only [h5.center]
  obtain ⟨a, g1, g2, g3⟩ := fold_vap hF' le_rfl (m := κ) (meAddSource F p c)
    (fun s n m => (s.q : ℂ) * rY (s.pos - c) n (-m)) (fun s n => |s.q| * R ^ n) S (fun s hs => by
      refine ⟨fun n m => F.rsc (F.rnd (s.q * rpw F (F.nrm3 (F.vsub s.pos c)) 1 n))
          (yv F p (F.rcos (F.sph (F.vsub s.pos c) 1)) (F.sph (F.vsub s.pos c) 2) n (-m)),
        fun a ha => meAddSource_run hF p c s a ha, fun n hn => ?_⟩
      have hv := vsub_close hF' s.pos c
      have h := srcTerm hF hκ s.q _ _ _ (tab_reg hF hv hn (by omega) (by omega) (pw_r hF hv n)) (l2_rY _ n).le
      refine h.mono hu le_rfl ?_
      exact mul_le_mul_of_nonneg_left (pow_le_pow_left₀ (len3_nonneg _) (hS s hs) n) (abs_nonneg _))
    κ (fun _ _ => 0) (fun _ => 0) e.coeffs le_rfl h5.size (fun n hn => by
      have := (VAp.zero (n := κ) (s := Ir n) hu (le_refl (0 : ℝ)))
      exact this.congr (fun k hk => (h5.val n hn k (mem_Ir.mp hk)).symm) fun _ _ => rfl)
  rw [g1, ok_bind]
  refine ⟨st', _, rfl, h2, h3, h4, fun n m => a.val (cell n m), ⟨h5.order, rfl, g2, fun n hn m hm => rfl⟩, fun n hn => ?_⟩
  have := g3 n hn
  rw [zero_add, Nat.add_comm] at this
  rw [totalStrength_eq, ← List.sum_map_mul_right]
  exact this.congr (fun _ _ => rfl) fun k _ => by rw [zero_add]; rfl

/-! ### Shift -/

theorem m2mC_sub (a b : ℕ → ℤ → ℂ) (h : Vec 3) (j : ℕ) (k : ℤ) :
    m2mC a h j k - m2mC b h j k = m2mC (fun n m => a n m - b n m) h j k := by
  unfold m2mC
  rw [← sub_div, ← sum_sub_distrib]
  congr 1
  refine sum_congr rfl fun n _ => ?_
  rw [← sum_sub_distrib]
  exact sum_congr rfl fun m _ => by ring

theorem binom_sum (R ρ : ℝ) (j : ℕ) : ∑ n ∈ range (j + 1), (j.choose n : ℝ) * ρ ^ n * R ^ (j - n) = (R + ρ) ^ j := by
  rw [add_comm R ρ, add_pow]
  exact sum_congr rfl fun n _ => by ring

theorem meShift_vap (hF : F.Ok u g) {p κ : ℕ} (hκ : Cost u g p κ) {st : Stat3} (hst : st.Good)
    {n : ℕ} {e : Exp3} {c : Vec 3} {a : ℕ → ℤ → ℂ} {A R σ : ℝ}
    (he : AppM3 u n e c p a A R) (hA : 0 ≤ A) (hR : 0 ≤ R) (hp0 : 0 < p) (hp : p ≤ 42) (hM : p ≤ st.alm.maxOrder)
    {v v' : Vec 3} (hv : len3 (v' - v) ≤ u * len3 v) (hσ : len3 v ≤ σ) :
    ∃ (d : Arr ℂ), meShift F st e v' = .ok d ∧ d.size = (p + 1) * (p + 1) ∧
      ∀ j ≤ p, VAp u (n + κ) (A * (R + σ) ^ j) (Ir j) (fun k => d.val (cell j k)) (m2mC a v j) := by
  have hu := hF.nonneg
  have hg := hF.leg_nonneg
  have hη := eta_nonneg hu hg p
  obtain ⟨a', e1, e2⟩ := he
  obtain ⟨d, w, h1, h2, h3⟩ := meShift_ap hF hst e1 hp0 hp hM v'
  refine ⟨d, h1, h2, fun j hj => ?_⟩
  have hl := len3_nonneg v
  have hRσ : (R + len3 v) ^ j ≤ (R + σ) ^ j := pow_le_pow_left₀ (by linarith) (by linarith) j
  have hNN := one_le_pow_u hu n
  -- the exact part
  have hex : ∀ (b : ℕ → ℤ → ℂ) (B : ℝ), (∀ i ≤ p, l2 (Ir i) (b i) ≤ B * (A * R ^ i)) →
      l2 (Ir j) (m2mC b v j) ≤ B * (A * (R + len3 v) ^ j) := by
    intro b B hb
    refine (l2_m2mC b v j).trans ?_
    rw [← binom_sum R, mul_sum, mul_sum]
    refine sum_le_sum fun i hi => ?_
    rw [mem_range] at hi
    refine (mul_le_mul_of_nonneg_left (hb (j - i) (by omega)) (by positivity)).trans (le_of_eq ?_)
    ring
  refine VAp.mono hu (M := A * (R + len3 v) ^ j) ⟨?_, ?_⟩ le_rfl (mul_le_mul_of_nonneg_left hRσ hA)
  · have hb := bilin hu (ε := eps u g p) (K := 3 * p + 32) (range (j + 1)) (Ir j) (fun i => i)
      (fun i y k => m2mB (a' (j - i)) y j i k) (fun i y k => m2mA (fun m => ‖a' (j - i) m‖) y j i k)
      (fun i => Real.sqrt ((2 * j).choose (2 * i)) * l2 (Ir (j - i)) (a' (j - i))) (fun i => len3 v ^ i)
      (fun i m => (rpw F (F.nrm3 v') 1 i : ℂ) * yv F p (F.rcos (F.sph v' 1)) (F.sph v' 2) i m) (fun i => rY v i)
      (fun k => d.val (cell j k))
      (fun i hi k _ => norm_m2mB_sub _ _ _ (by rw [mem_range] at hi; omega) k)
      (fun i _ y k => m2mA_nonneg _ _ _ _ _)
      (fun i hi y => by
        have := l2_m2mA (fun m => ‖a' (j - i) m‖) y (show i ≤ j by rw [mem_range] at hi; omega)
        rwa [l2_norm] at this)
      (fun i _ => mul_nonneg (Real.sqrt_nonneg _) (l2_nonneg _ _))
      (fun i hi => by
        rw [mem_range] at hi
        exact tab_reg hF hv (by omega) (by omega) (by omega) (pw_r hF hv i))
      (fun i _ => (l2_rY v i).le)
      (fun k hk => by
        obtain ⟨g1, g2⟩ := h3 j hj k (mem_Ir.mp hk)
        rw [g1]; exact g2.1)
    have hsum : ∑ i ∈ range (j + 1), Real.sqrt ((2 * j).choose (2 * i)) * l2 (Ir (j - i)) (a' (j - i)) * len3 v ^ i
        ≤ Real.sqrt (2 * p + 1) * ((1 + u) ^ n * (A * (R + len3 v) ^ j)) := by
      rw [← binom_sum R, mul_sum, mul_sum, mul_sum]
      refine sum_le_sum fun i hi => ?_
      rw [mem_range] at hi
      have a1 := sqrt_choose_le j i (D := 2 * p + 1) (by
        have : (i : ℝ) ≤ p := by exact_mod_cast (by omega : i ≤ p)
        linarith)
      have a2 := (e2 (j - i) (by omega)).norm
      have a3 := mul_le_mul a1 a2 (l2_nonneg _ _) (mul_nonneg (Real.sqrt_nonneg _) (Nat.cast_nonneg _))
      refine (mul_le_mul_of_nonneg_right a3 (pow_nonneg hl i)).trans (le_of_eq ?_)
      ring
    have hb2 : l2 (Ir j) (fun k => d.val (cell j k) - m2mC a' v j k)
        ≤ kap u g p * ((1 + u) ^ n * (A * (R + len3 v) ^ j)) := by
      have e3 : (fun k => d.val (cell j k) - m2mC a' v j k) = fun k => d.val (cell j k)
          - ∑ i ∈ range (j + 1), m2mB (a' (j - i)) (rY v i) j i k := by
        funext k; rw [m2mC_parts]; rfl
      rw [e3]
      refine hb.trans ?_
      have b1 := eta_of hu hg p (K := 3 * p + 32) (by unfold roundings; nlinarith)
      refine (mul_le_mul b1 hsum (sum_nonneg fun i _ => mul_nonneg (mul_nonneg (Real.sqrt_nonneg _) (l2_nonneg _ _))
        (pow_nonneg hl i)) hη).trans (le_of_eq ?_)
      unfold kap; ring
    have hb3 : l2 (Ir j) (fun k => m2mC a' v j k - m2mC a v j k) ≤ ((1 + u) ^ n - 1) * (A * (R + len3 v) ^ j) := by
      have e3 : (fun k => m2mC a' v j k - m2mC a v j k) = m2mC (fun n m => a' n m - a n m) v j := by
        funext k; exact m2mC_sub _ _ _ _ _
      rw [e3]
      exact hex _ _ fun i hi => (e2 i hi).1
    have hb4 := l2_tri (Ir j) (fun k => d.val (cell j k)) (m2mC a' v j) (m2mC a v j)
    exact hb4.trans (hκ.step hu (mul_nonneg hA (pow_nonneg (by linarith) j)) hb2 hb3)
  · have := hex a 1 fun i hi => by rw [one_mul]; exact (e2 i hi).2
    rwa [one_mul] at this

theorem meCoeff3_flatMap {A : Type} (c : Vec 3) (L : List A) (f : A → List (Source 3)) (n : ℕ) (m : ℤ) :
    meCoeff3 c (L.flatMap f) n m = (L.map fun x => meCoeff3 c (f x) n m).sum := by
  induction L with
  | nil => rfl
  | cons x L ih =>
    rw [List.flatMap_cons, List.map_cons, List.sum_cons, ← ih]
    unfold meCoeff3
    rw [List.map_append, List.sum_append]

theorem totalStrength_flatMap' {A : Type} (L : List A) (f : A → List (Source 3)) :
    totalStrength (L.flatMap f) = (L.map fun x => totalStrength (f x)).sum := by
  induction L with
  | nil => rfl
  | cons x L ih => rw [List.flatMap_cons, totalStrength_append, ih]; simp

theorem meOfMes_ap (hF : F.Ok u g) {p κ : ℕ} (hκ : Cost u g p κ) (st : Stat3) (hst : st.Good) (c : Vec 3) (hp : p ≤ 42) (hp0 : 0 < p) {n : ℕ} {R σ : ℝ}
    (hR : 0 ≤ R) (L : List (Exp3 × Vec 3 × List (Source 3))) (hne : L ≠ [])
    (hL : ∀ x ∈ L, AppM3 u n x.1 x.2.1 p (meCoeff3 x.2.1 x.2.2) (totalStrength x.2.2) R ∧ len3 (x.2.1 - c) ≤ σ) :
    ∃ st' e, meOfMes F st c (L.map (·.1)) = .ok (st', e) ∧ st'.Good ∧ p ≤ st'.alm.maxOrder ∧
      (p ≤ st.alm.maxOrder → st' = st) ∧
      AppM3 u (n + κ + L.length) e c p (meCoeff3 c (L.flatMap (·.2.2))) (totalStrength (L.flatMap (·.2.2))) (R + σ) := by
  have hu := hF.nonneg
  have hg := hF.leg_nonneg
  have hF' := hF.toOk
  obtain ⟨x0, L', rfl⟩ := List.exists_cons_of_ne_nil hne
  obtain ⟨st', e, h1, h2, h3, h4, h5⟩ := Exp3.new_ok st hst c p hp
  have ho : x0.1.order = p := by
    obtain ⟨a, ha, -⟩ := (hL x0 (by simp)).1
    exact ha.order
  unfold meOfMes
  rw [List.map_cons]
  simp only
  rw [ho, h1, ok_bind, ← List.map_cons (f := Prod.fst), List.foldlM_map]
  simp only [h5.center]
  obtain ⟨d, g1, g2, g3⟩ := fold_vap hF' le_rfl (m := n + κ) (p := p)
    (fun (c' : Arr ℂ) (x : Exp3 × Vec 3 × List (Source 3)) => do
      let sh ← meShift F st' x.1 (F.vsub x.1.center c)
      Fl.addCoeffs F.toFlt c' sh) (fun x j k => meCoeff3 c x.2.2 j k)
    (fun x j => totalStrength x.2.2 * (R + σ) ^ j) (x0 :: L') (by
      intro x hx
      obtain ⟨k1, k2⟩ := hL x hx
      obtain ⟨d, m1, m2, m3⟩ := meShift_vap hF hκ h2 k1 (totalStrength_nonneg _) hR hp0 hp h3 (vsub_close hF' x.2.1 c) k2
      refine ⟨fun j k => d.val (cell j k), fun a ha => ?_, fun j hj => ?_⟩
      · have hc : x.1.center = x.2.1 := by
          obtain ⟨a, ha, -⟩ := k1
          exact ha.center
        rw [hc, m1, ok_bind, Fl.addCoeffs_ok _ _ _ (by rw [ha, m2])]
        refine ⟨_, rfl, ha, fun i hi m hm => ?_⟩
        have : cell i m < a.size := by
          obtain ⟨b0, b1⟩ := lmIndex_bounds hm hi
          rw [ha]; unfold cell; omega
        simp only
        rw [if_pos this]
      · exact (m3 j hj).congr (fun _ _ => rfl) fun k hk => m2mC_sources _ _ _ rfl _ _ (mem_Ir.mp hk))
    (n + κ) (fun _ _ => 0) (fun _ => 0) e.coeffs le_rfl h5.size (fun j hj => by
      have := (VAp.zero (n := n + κ) (s := Ir j) hu (le_refl (0 : ℝ)))
      exact this.congr (fun k hk => (h5.val j hj k (mem_Ir.mp hk)).symm) fun _ _ => rfl)
  rw [g1, ok_bind]
  refine ⟨st', _, rfl, h2, h3, h4, fun j k => d.val (cell j k), ⟨h5.order, rfl, g2, fun j hj k hk => rfl⟩, fun j hj => ?_⟩
  have := g3 j hj
  rw [zero_add] at this
  rw [totalStrength_flatMap', ← List.sum_map_mul_right]
  exact this.congr (fun _ _ => rfl) fun k _ => by rw [zero_add, meCoeff3_flatMap]

end Fl3
end FMM
