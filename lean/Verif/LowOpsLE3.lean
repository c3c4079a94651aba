import Verif.LowOps3
import Verif.FltOpsLE3

/-!
# Local expansions and evaluation with gradual underflow in three dimensions
-/

namespace FMM
open Finset

namespace Lo3
open Fl3
variable {F : Flt3} {u g η ρ θ τ ν : ℝ}

/-! ## Majorants -/

section
variable {p : ℕ} (hs : Scale3 u η θ τ ν p)
include hs

/-- Majorants of a computed local expansion. -/
theorem majL {n : ℕ} {e : Exp3} {c : Vec 3} {b : ℕ → ℤ → ℂ} {R M : ℝ} (he : AppL3 u n e c p b R M) (hM : Flr (τ * θ) M) (hR0 : 0 < R)
    (hR : R ≤ θ⁻¹) :
    ∃ b' α, e.Is c p b' ∧ LAp u n M p R b' b ∧ Maj θ τ ν p b' α ∧
      ∑ j ∈ range (p + 1), R ^ j * l2 (Ir j) (α j) ≤ (1 + u) ^ (n + 1) * M := by
  obtain ⟨b', e1, e2⟩ := he
  have hu := hs.u0
  have hθ := hs.th0
  have hν := hs.nu0
  have hM0 : 0 ≤ M := e2.nonneg hR0.le
  have hRi : θ ≤ R⁻¹ := by
    rw [← inv_inv θ]; exact inv_anti₀ hR0 hR
  have hm0 : ∀ j, 0 ≤ M * R⁻¹ ^ j := fun j => mul_nonneg hM0 (pow_nonneg (hθ.le.trans hRi) j)
  refine ⟨trunc p b', _, e1.congr fun n hn m hm => (trunc_of hn hm).symm, e2.congr (fun j hj k hk =>
    (trunc_of hj hk).symm) fun _ _ _ _ => rfl, maj_of hs (m := fun j => M * R⁻¹ ^ j) hm0 (fun j hj h k hk => ?_) (fun j hj => ?_), ?_⟩
  · have h1 := e2.norm hR0.le
    have hMz : M = 0 := (mul_eq_zero.mp h).resolve_right (pow_pos (hθ.trans_le hRi) j).ne'
    rw [hMz, mul_zero] at h1
    have h2 : R ^ j * l2 (Ir j) (b' j) ≤ wl p R b' := by
      unfold wl
      exact single_le_sum (f := fun j => R ^ j * l2 (Ir j) (b' j)) (fun i _ => mul_nonneg (pow_nonneg hR0.le i) (l2_nonneg _ _))
        (mem_range.mpr (by omega))
    have h3 : l2 (Ir j) (b' j) ≤ 0 := by
      have := pow_pos hR0 j
      by_contra hc
      push Not at hc
      have := mul_pos this hc
      linarith
    exact norm_le_zero_iff.mp ((norm_le_l2 (mem_Ir.mpr hk)).trans h3)
  · refine (hM.mulge (pow_le_pow_left₀ hθ.le hRi j) (mul_nonneg hs.tau0.le hθ.le) (pow_nonneg hθ.le j)).mono ?_
    rw [mul_assoc, ← pow_succ']
    exact mul_le_mul_of_nonneg_left (hs.thpow (by omega)) hs.tau0.le
  · have h1 : ∀ j ∈ range (p + 1), R ^ j * l2 (Ir j) (fun k => ‖trunc p b' j k‖ + ν * (M * R⁻¹ ^ j))
        ≤ R ^ j * l2 (Ir j) (b' j) + ν * Real.sqrt (4 * p + 1) * M := fun j hj => by
      rw [mem_range] at hj
      have h2 := mul_le_mul_of_nonneg_left (maj_l2 hs (b := b') (m := fun j => M * R⁻¹ ^ j) (show j ≤ p by omega) (hm0 j)) (pow_nonneg hR0.le j)
      refine h2.trans ?_
      have h3 : R ^ j * (l2 (Ir j) (b' j) + ν * Real.sqrt (2 * j + 1) * (M * R⁻¹ ^ j))
          = R ^ j * l2 (Ir j) (b' j) + ν * Real.sqrt (2 * j + 1) * M := by
        have : R ^ j * R⁻¹ ^ j = 1 := by rw [← mul_pow, mul_inv_cancel₀ hR0.ne', one_pow]
        calc _ = R ^ j * l2 (Ir j) (b' j) + ν * Real.sqrt (2 * j + 1) * M * (R ^ j * R⁻¹ ^ j) := by ring
          _ = _ := by rw [this, mul_one]
      rw [h3]
      have h4 : Real.sqrt (2 * j + 1) ≤ Real.sqrt (4 * p + 1) := Real.sqrt_le_sqrt (by
        have : (j : ℝ) ≤ p := by exact_mod_cast (by omega : j ≤ p)
        have : (0 : ℝ) ≤ p := Nat.cast_nonneg p
        linarith)
      have h5 := mul_le_mul_of_nonneg_right (mul_le_mul_of_nonneg_left h4 hν) hM0
      linarith
    refine (sum_le_sum h1).trans ?_
    rw [sum_add_distrib, sum_const, card_range, nsmul_eq_mul]
    have h2 := e2.norm hR0.le
    unfold wl at h2
    have h3 := mul_le_mul_of_nonneg_right hs.nu hM0
    have h4 : u * M ≤ (1 + u) ^ n * (u * M) := le_mul_of_one_le_left (mul_nonneg hu hM0) (one_le_pow_u hu n)
    push_cast
    rw [pow_succ]
    linarith

end

/-! ## Local expansions -/

theorem addEq_ap (hF : F.Low u g η ρ) {κ : ℝ} (hκ : u ≤ κ) {n m k : ℕ} {e f : Exp3} {c : Vec 3} {p : ℕ} (hs : Scale3 u η θ τ ν p) {b d : ℕ → ℤ → ℂ} {R M N : ℝ}
    (hR : 0 < R) (hRθ : R ≤ θ⁻¹) (hM : Flr (τ * θ) M) (hN : Flr (τ * θ) N) (he : AppL3 κ n e c p b R M) (hf : AppL3 κ m f c p d R N) (hn : n + 1 ≤ k) (hm : m + 1 ≤ k) :
    ∃ s, addEq F e f = .ok s ∧ AppL3 κ k s c p (fun j l => b j l + d j l) R (M + N) := by
  obtain ⟨b', e1, e2⟩ := he
  obtain ⟨d', f1, f2⟩ := hf
  unfold addEq
  rw [if_neg (by rw [e1.size, f1.size, e1.center, f1.center]; simp)]
  refine ⟨_, rfl, _, ⟨e1.order, e1.center, e1.size, fun j hj l hl => ?_⟩, lcadd hF.toLow hκ hR ?_ e2 f2 hn hm⟩
  · have : cell j l < e.coeffs.size := by
      obtain ⟨b0, b1⟩ := lmIndex_bounds hl hj
      rw [e1.size]; unfold cell; omega
    simp only
    rw [if_pos this, e1.val j hj l hl, f1.val j hj l hl]
  · refine (hM.add hN (e2.nonneg hR.le) (f2.nonneg hR.le)).mono ((hs.lfl hR hRθ).trans ?_)
    refine mul_le_mul_of_nonneg_left ?_ hs.tau0.le
    rw [sq]
    exact mul_le_of_le_one_left hs.th0.le hs.th1

theorem leOfSources_ap (hF : F.Low u g η ρ) {p κ : ℕ} (hs : Scale3 u η θ τ ν p) (hκ : Cost u g p κ) (st : Stat3) (hst : st.Good) (c : Vec 3) (hp : p ≤ 42) {R D : ℝ} (hR : 0 ≤ R)
    (hD : R < D) (S : List (Source 3)) (hS : ∀ s ∈ S, D ≤ len3 (s.pos - c)) (hq : ∀ s ∈ S, Flr τ |s.q|)
    (hf : ∀ s ∈ S, Far θ (s.pos - c)) :
    ∃ st' e, leOfSources F st c p S = .ok (st', e) ∧ st'.Good ∧ p ≤ st'.alm.maxOrder ∧ (p ≤ st.alm.maxOrder → st' = st) ∧
      AppL3 u (S.length + κ) e c p (leCoeff3 c S) R (totalStrength S * (D - R)⁻¹) := by
  have hu := hF.nonneg
  have hg := gpos hF
  have hF' := hF.toLow
  have hD0 : 0 < D := by linarith
  obtain ⟨st', e, h1, h2, h3, h4, h5⟩ := Exp3.new_ok st hst c p hp
  unfold leOfSources
  rw [h1, ok_bind]
  simp only [h5.center]
  obtain ⟨a, g1, g2, g3⟩ := fold_vap hF' le_rfl hs (m := κ) (leAddSource F p c)
    (fun s n m => (s.q : ℂ) * (rY (s.pos - c) n (-m) / (len3 (s.pos - c) : ℂ) ^ (2 * n + 1)))
    (fun s n => |s.q| * (D ^ (n + 1))⁻¹) S (fun s hss => by
      have hd := hS s hss
      have hff := hf s hss
      refine ⟨fun n m => F.rsc (F.rnd (s.q * rdv F (F.nrm3 (F.vsub s.pos c)) (F.rnd (1 / F.nrm3 (F.vsub s.pos c))) n))
          (yv F p (F.rcos (F.sph (F.vsub s.pos c) 1)) (F.sph (F.vsub s.pos c) 2) n (-m)),
        fun a ha => leAddSource_run hF p c s (far_inv hF hs hff).1 a ha, fun n hn => ?_, fun n hn => ?_⟩
      · have h := srcTerm hF hs hκ (hq s hss) _ _ _ ((hs.thpow (by omega)).trans (pow_le_pow_left₀ hs.th0.le hff.2 (n + 1)))
          (beta_l2 hF hs _ hn (by omega) (by omega) (dv_r hF hs hff hn))
          (tab_irr hF hs hff hn (by omega) (by omega) (dv_r hF hs hff hn)) (l2_inv_le (by linarith) n)
        refine h.mono hu le_rfl ?_
        exact mul_le_mul_of_nonneg_left (inv_pow_le hD0 hd _) (abs_nonneg _)
      · refine ((hq s hss).mulge (d := θ ^ (n + 1)) ?_ hs.tau0.le (pow_nonneg hs.th0.le _)).mono ?_
        · exact (pow_le_pow_left₀ hs.th0.le hff.2 (n + 1)).trans (inv_pow_le hD0 hd _)
        · exact mul_le_mul_of_nonneg_left (hs.thpow (by omega)) hs.tau0.le)
    κ (fun _ _ => 0) (fun _ => 0) e.coeffs le_rfl h5.size (fun _ _ => Or.inl rfl) (fun n hn => by
      have := (VAp.zero (n := κ) (s := Ir n) hu (le_refl (0 : ℝ)))
      exact this.congr (fun k hk => (h5.val n hn k (mem_Ir.mp hk)).symm) fun _ _ => rfl)
  rw [g1, ok_bind]
  refine ⟨st', _, rfl, h2, h3, h4, fun n m => a.val (cell n m), ⟨h5.order, rfl, g2, fun n hn m hm => rfl⟩, ?_⟩
  refine LAp.ofV hu hR (fun n => totalStrength S * (D ^ (n + 1))⁻¹) (fun n hn => ?_) ?_
  · have := g3 n hn
    rw [zero_add, Nat.add_comm] at this
    rw [totalStrength_eq, ← List.sum_map_mul_right]
    exact this.congr (fun _ _ => rfl) fun k _ => by rw [zero_add]; rfl
  · have := mul_le_mul_of_nonneg_left (geo1 hR hD (p + 1)) (totalStrength_nonneg S)
    rw [mul_sum] at this
    refine le_trans (le_of_eq (sum_congr rfl fun j _ => ?_)) this
    ring

theorem leOfMe_ap (hF : F.Low u g η ρ) {p κ : ℕ} (hs : Scale3 u η θ τ ν p) (hκ : Cost u g p κ) (st : Stat3) (hst : st.Good)
    {n : ℕ} {e : Exp3} {c : Vec 3} {a : ℕ → ℤ → ℂ} {A R : ℝ}
    (he : AppM3 u n e c p a A R) (hA : Flr τ A) (hA0 : 0 ≤ A) (hR : θ ≤ R) (hp : p ≤ 42) (hp0 : 0 < p) (c' : Vec 3) {R₁ D : ℝ}
    (hR₁ : 0 ≤ R₁) (hD : R + R₁ < D) (hd : D ≤ len3 (c - c')) (hfar : Far θ (c - c')) :
    ∃ st' f, leOfMe F st c' e = .ok (st', f) ∧ st'.Good ∧ p ≤ st'.alm.maxOrder ∧ (p ≤ st.alm.maxOrder → st' = st) ∧
      AppL3 u (n + κ) f c' p (m2lC p a (c - c')) R₁ (Real.sqrt (2 * p + 1) * A * (D - R - R₁)⁻¹) := by
  have hu := hF.nonneg
  have hg := gpos hF
  have hR0 : 0 ≤ R := hs.th0.le.trans hR
  have hη := eta_nonneg hu hg p
  have hD0 : 0 < D := by linarith
  obtain ⟨a', α, e1, e2, hα, hα2⟩ := maj3 hs he hA hR
  have hn0 := (far_inv hF hs hfar).1
  have hpr := fun n (hn : n ≤ 2 * p + 1) => pw_rinv hF hs hfar hn
  have htab := fun l (hl : l ≤ 2 * p) => tab_irr hF hs hfar (lmax := 2 * p) hl hl (by omega) (hpr (l + 1) (by omega))
  set v := c - c' with hvd
  have hl : 0 < len3 v := by linarith
  obtain ⟨st', f, w, h1, h2, h3, h4, h5, h6⟩ := leOfMe_run hF st hst hs hα e1 hp hp0 c' hn0
    (ζ := fun i => (len3 v)⁻¹ ^ i) (fun i => pow_nonneg (inv_nonneg.mpr hl.le) i)
    (fun i hi => (hs.thpow (by omega)).trans (pow_le_pow_left₀ hs.th0.le hfar.2 i))
  refine ⟨st', f, h1, h2, h3, h4, w, h5, ?_⟩
  set v' := F.vsub c c' with hv'
  set M := Real.sqrt (2 * p + 1) * A * (D - R - R₁)⁻¹ with hM
  have hM0 : 0 ≤ M := mul_nonneg (mul_nonneg (Real.sqrt_nonneg _) hA0) (inv_nonneg.mpr (by linarith))
  have hNN := one_le_pow_u hu n
  have hex : ∀ (b : ℕ → ℤ → ℂ) (B : ℝ), 0 ≤ B → (∀ i ≤ p, l2 (Ir i) (b i) ≤ B * (A * R ^ i)) → wl p R₁ (m2lC p b v) ≤ B * M := by
    intro b B hB hb
    refine le_trans ?_ (m2l_wsum hR0 hR₁ hD hd hA0 hB (fun n => l2 (Ir n) (b n)) fun n hn => ⟨l2_nonneg _ _, hb n hn⟩)
    unfold wl
    refine sum_le_sum fun j _ => mul_le_mul_of_nonneg_left ?_ (pow_nonneg hR₁ j)
    refine (l2_m2lC p b hl j).trans (le_of_eq (sum_congr rfl fun n _ => ?_))
    rw [inv_pow]
  constructor
  · have hb2 : wl p R₁ (fun j k => w j k - m2lC p a' v j k) ≤ Fl3.kap u g p * ((1 + u) ^ n * M) := by
      have hs' := m2l_wsum hR0 hR₁ hD hd hA0 (B := (1 + u) ^ (n + 1)) (by positivity) (fun n => l2 (Ir n) (α n))
        fun i hi => ⟨l2_nonneg _ _, hα2 i hi⟩
      have b1 := eta_of' hu hg p (K := 3 * p + 33 + 2) (by unfold roundings; nlinarith)
      have b0 := pow_err_nonneg hu hg p (3 * p + 33 + 2)
      refine le_trans ?_ (le_trans (mul_le_mul_of_nonneg_left hs' b0) ?_)
      rotate_left
      · refine le_trans (le_of_eq ?_) (mul_le_mul_of_nonneg_right (b1.trans (eta_le_kap hu hg p)) (show 0 ≤ (1 + u) ^ n * M by positivity))
        rw [pow_succ]; ring
      unfold wl
      rw [mul_sum]
      refine sum_le_sum fun j hj => ?_
      rw [mem_range] at hj
      have hb := bilinf hu (eps_nonneg hu hg p) (K := 3 * p + 33) (K₁ := 2) (range (p + 1)) (Ir j) (fun i => j + i)
        (fun i y k => m2lPart (a' i) y j i k) (fun i y k => m2lA (α i) y j i k)
        (fun i => Real.sqrt ((2 * (j + i)).choose (2 * j)) * l2 (Ir i) (α i)) (fun i => (len3 v)⁻¹ ^ (j + i + 1))
        (fun i m => (‖rpw F (F.rnd (1 / F.nrm3 v')) 1 (j + i + 1)‖ + ν * (len3 v)⁻¹ ^ (j + i + 1))
          * (‖yv F (2 * p) (F.rcos (F.sph v' 1)) (F.sph v' 2) (j + i) m‖ + ν))
        (fun i m => (rpw F (F.rnd (1 / F.nrm3 v')) 1 (j + i + 1) : ℂ)
          * yv F (2 * p) (F.rcos (F.sph v' 1)) (F.sph v' 2) (j + i) m)
        (fun i m => rY v (j + i) m / (len3 v : ℂ) ^ (2 * (j + i) + 1)) (w j)
        (fun i _ k _ => (norm_m2lPart_sub _ _ _ _ _ k).trans (m2lA_mono (fun _ => norm_nonneg _) (fun m => hα.le _ m) _ _ _))
        (fun i _ y k => m2lA_nonneg _ _ _ _ _)
        (fun i _ y => l2_m2lA (α i) y j i)
        (fun i _ => mul_nonneg (Real.sqrt_nonneg _) (l2_nonneg _ _))
        (fun i hi => by
          rw [mem_range] at hi
          exact htab (j + i) (by omega))
        (fun i hi => by
          rw [mem_range] at hi
          exact beta_l2 hF hs _ (by omega) (by omega) (by omega) (hpr (j + i + 1) (by omega)))
        (fun i _ => pow_nonneg (inv_nonneg.mpr hl.le) _)
        (fun k hk => (h6 j (by omega) k (mem_Ir.mp hk)).1)
      have e3 : (fun k => w j k - m2lC p a' v j k) = fun k => w j k
          - ∑ i ∈ range (p + 1), m2lPart (a' i) (fun m => rY v (j + i) m / (len3 v : ℂ) ^ (2 * (j + i) + 1)) j i k := by
        funext k; rw [m2lC_parts]
      show R₁ ^ j * l2 (Ir j) (fun k => w j k - m2lC p a' v j k) ≤ _
      rw [e3]
      have b3 := mul_le_mul_of_nonneg_left hb (pow_nonneg hR₁ j)
      refine b3.trans (le_of_eq ?_)
      ring
    have hb3 : wl p R₁ (fun j k => m2lC p a' v j k - m2lC p a v j k) ≤ ((1 + u) ^ n - 1) * M := by
      have e3 : (fun j k => m2lC p a' v j k - m2lC p a v j k) = m2lC p (fun n m => a' n m - a n m) v := by
        funext j k; exact m2lC_sub _ _ _ _ _ _
      rw [e3]
      exact hex _ _ (by linarith) fun i hi => (e2 i hi).1
    have hb4 := wl_add hR₁ (p := p) (fun j k => w j k - m2lC p a' v j k) (fun j k => m2lC p a' v j k - m2lC p a v j k)
    have e4 : (fun j k => w j k - m2lC p a' v j k + (m2lC p a' v j k - m2lC p a v j k)) = fun j k => w j k - m2lC p a v j k := by
      funext j k; ring
    rw [e4] at hb4
    exact hb4.trans (hκ.step hu hM0 hb2 hb3)
  · have := hex a 1 zero_le_one fun i hi => by rw [one_mul]; exact (e2 i hi).2
    rwa [one_mul] at this

theorem _root_.FMM.Fl3.AppL3.nonneg {κ : ℝ} {n : ℕ} {e : Exp3} {c : Vec 3} {p : ℕ} {b : ℕ → ℤ → ℂ} {R M : ℝ} (h : AppL3 κ n e c p b R M)
    (hR : 0 ≤ R) : 0 ≤ M := by
  obtain ⟨b', -, h2⟩ := h
  exact h2.nonneg hR

theorem m2l_flr {p : ℕ} (hs : Scale3 u η θ τ ν p) {A d : ℝ} (hA : Flr τ A) (hA0 : 0 ≤ A) (hd : θ ≤ d) :
    Flr (τ * θ) (Real.sqrt (2 * p + 1) * A * d) :=
  (hA.scale (one_le_sqrtD p) hA0).mulge hd hs.tau0.le hs.th0.le

theorem leOfMes_ap (hF : F.Low u g η ρ) {p κ : ℕ} (hs : Scale3 u η θ τ ν p) (hκ : Cost u g p κ) (st : Stat3) (hst : st.Good) (c : Vec 3) (hp : p ≤ 42) (hp0 : 0 < p) {n : ℕ} {R R₁ D : ℝ}
    (hR : θ ≤ R) (hR₁ : 0 < R₁) (hR₁θ : R₁ ≤ θ⁻¹) (hD : R + R₁ < D) (hDθ : θ ≤ (D - R - R₁)⁻¹) (L : List (Exp3 × Vec 3 × (ℕ → ℤ → ℂ) × ℝ)) (hne : L ≠ [])
    (hL : ∀ x ∈ L, AppM3 u n x.1 x.2.1 p x.2.2.1 x.2.2.2 R ∧ 0 ≤ x.2.2.2 ∧ D ≤ len3 (x.2.1 - c) ∧ Flr τ x.2.2.2 ∧ Far θ (x.2.1 - c)) :
    ∃ st' e, leOfMes F st c (L.map (·.1)) = .ok (st', e) ∧ st'.Good ∧ p ≤ st'.alm.maxOrder ∧
      (p ≤ st.alm.maxOrder → st' = st) ∧
      AppL3 u (n + κ + L.length) e c p (fun j k => (L.map fun x => m2lC p x.2.2.1 (x.2.1 - c) j k).sum) R₁
        (Real.sqrt (2 * p + 1) * (L.map (·.2.2.2)).sum * (D - R - R₁)⁻¹) := by
  have hu := hF.nonneg
  have hg := gpos hF
  obtain ⟨x0, L', rfl⟩ := List.exists_cons_of_ne_nil hne
  obtain ⟨st', e, h1, h2, h3, h4, h5⟩ := Exp3.new_ok st hst c p hp
  have ho : x0.1.order = p := by
    obtain ⟨a, ha, -⟩ := (hL x0 (by simp)).1
    exact ha.order
  unfold leOfMes
  rw [List.map_cons]
  simp only
  rw [ho, h1, ok_bind, ← List.map_cons (f := Prod.fst), List.foldlM_map]
  have key : ∀ (K : List (Exp3 × Vec 3 × (ℕ → ℤ → ℂ) × ℝ)) (N : ℕ) (e : Exp3) (b : ℕ → ℤ → ℂ) (M : ℝ), n + κ ≤ N → Flr (τ * θ) M →
      (∀ x ∈ K, x ∈ x0 :: L') → AppL3 u N e c p b R₁ M → ∃ e', K.foldlM (fun (s : Stat3 × Exp3) x => do
        let (st, le) ← leOfMe F s.1 c x.1
        let e ← addEq F s.2 le
        (Except.ok (st, e) : Outcome (Stat3 × Exp3))) (st', e) = .ok (st', e') ∧
        AppL3 u (N + K.length) e' c p (fun j k => b j k + (K.map fun x => m2lC p x.2.2.1 (x.2.1 - c) j k).sum) R₁
          (M + Real.sqrt (2 * p + 1) * (K.map (·.2.2.2)).sum * (D - R - R₁)⁻¹) := by
    intro K
    induction K with
    | nil => exact fun N e b M _ _ _ he => ⟨e, rfl, by simpa using he⟩
    | cons x K ih =>
      intro N e b M hN hMf hK he
      obtain ⟨a1, a2, a3, a4, a5⟩ := hL x (hK x (by simp))
      obtain ⟨st2, f, k1, -, -, k4, k5⟩ := leOfMe_ap hF hs hκ st' h2 a1 a4 a2 hR hp hp0 c hR₁.le hD a3 a5
      have hfx := m2l_flr hs a4 a2 hDθ
      obtain rfl := k4 h3
      obtain ⟨s, s1, s2⟩ := addEq_ap hF le_rfl hs hR₁ hR₁θ hMf hfx he k5 (k := N + 1) le_rfl (by omega)
      obtain ⟨e', t1, t2⟩ := ih (N + 1) s _ _ (by omega) (hMf.add hfx (he.nonneg hR₁.le) (k5.nonneg hR₁.le)) (fun y hy => hK y (by simp [hy])) s2
      refine ⟨e', ?_, ?_⟩
      · rw [List.foldlM_cons, k1, ok_bind]
        simp only
        rw [s1, ok_bind, ok_bind]
        exact t1
      · rw [List.length_cons, show N + (K.length + 1) = N + 1 + K.length by ring]
        have e3 : (fun j k => b j k + ((x :: K).map fun x => m2lC p x.2.2.1 (x.2.1 - c) j k).sum)
            = fun j k => b j k + m2lC p x.2.2.1 (x.2.1 - c) j k + (K.map fun x => m2lC p x.2.2.1 (x.2.1 - c) j k).sum := by
          funext j k; simp only [List.map_cons, List.sum_cons]; ring
        have e4 : M + Real.sqrt (2 * p + 1) * ((x :: K).map (·.2.2.2)).sum * (D - R - R₁)⁻¹
            = M + Real.sqrt (2 * p + 1) * x.2.2.2 * (D - R - R₁)⁻¹ + Real.sqrt (2 * p + 1) * (K.map (·.2.2.2)).sum * (D - R - R₁)⁻¹ := by
          rw [List.map_cons, List.sum_cons]; ring
        rw [e3, e4]
        exact t2
  obtain ⟨e', t1, t2⟩ := key (x0 :: L') (n + κ) e (fun _ _ => 0) 0 le_rfl (Or.inl rfl) (fun _ h => h)
    ⟨fun _ _ => 0, h5, LAp.zero hu le_rfl⟩
  refine ⟨st', e', t1, h2, h3, h4, ?_⟩
  simpa using t2

/-! ### Shift -/

theorem leOfLe_ap (hF : F.Low u g η ρ) {p κ : ℕ} (hs : Scale3 u η θ τ ν p) (hκ : Cost u g p κ) (st : Stat3) (hst : st.Good)
    {n : ℕ} {e : Exp3} {c : Vec 3} {b : ℕ → ℤ → ℂ} {R R' σ M : ℝ}
    (he : AppL3 u n e c p b R M) (hM : Flr (τ * θ) M) (hRθ : R ≤ θ⁻¹) (hp : p ≤ 42) (hp0 : 0 < p) (c' : Vec 3) (hR' : 0 ≤ R')
    (hσ : len3 (c - c') ≤ σ) (hσθ : θ ≤ σ) (hc : R' + σ ≤ R) :
    ∃ st' f, leOfLe F st c' e = .ok (st', f) ∧ st'.Good ∧ p ≤ st'.alm.maxOrder ∧ (p ≤ st.alm.maxOrder → st' = st) ∧
      AppL3 u (n + κ) f c' p (l2lC p b (c - c')) R' M := by
  have hu := hF.nonneg
  have hg := gpos hF
  have hσ0 : 0 ≤ σ := hs.th0.le.trans hσθ
  have hR0 : 0 < R := by linarith [hs.th0]
  have hη := eta_nonneg hu hg p
  obtain ⟨b', α, e1, e2, hα, hα2⟩ := majL hs he hM hR0 hRθ
  have htab := fun l (hl : l ≤ p) => tab_reg hF hs c c' hσ hσθ (lmax := 2 * p) (l := l) (by omega) hl
  have hpr := fun l (hl : l ≤ p) => pw_r hF hs c c' hσ hσθ hl
  set v := c - c' with hvd
  have hl := len3_nonneg v
  have hR : 0 ≤ R := by linarith
  obtain ⟨st', f, h1, h2, h3, h4, h5⟩ := Exp3.new_ok st hst c' p hp
  obtain ⟨d, w, g1, g2, g3⟩ := leShift_ap hF h2 hs hα e1 hp0 hp h3 (F.vsub c c') (ζ := fun i => σ ^ i) (fun i => pow_nonneg hσ0 i)
    (fun i hi => (hs.thpow (by omega)).trans (pow_le_pow_left₀ hs.th0.le hσθ i))
  unfold leOfLe
  rw [e1.order, h1, ok_bind]
  simp only [h5.center, e1.center]
  rw [g1, ok_bind]
  refine ⟨st', _, rfl, h2, h3, h4, fun j k => d.val (cell j k), ⟨h5.order, rfl, g2, fun j _ k _ => rfl⟩, ?_⟩
  set v' := F.vsub c c' with hv'
  have hM0 := e2.nonneg hR
  have hNN := one_le_pow_u hu n
  constructor
  · have hb2 : wl p R' (fun j k => d.val (cell j k) - l2lC p b' v j k) ≤ Fl3.kap u g p * ((1 + u) ^ n * M) := by
      have b1 := eta_of' hu hg p (K := 3 * p + 33 + 2) (by unfold roundings; nlinarith)
      have b0 := pow_err_nonneg hu hg p (3 * p + 33 + 2)
      have hgeo : ∑ j ∈ range (p + 1), (R' + σ) ^ j * l2 (Ir j) (α j) ≤ (1 + u) ^ (n + 1) * M :=
        le_trans (sum_le_sum fun j _ => mul_le_mul_of_nonneg_right (pow_le_pow_left₀ (by linarith) hc j) (l2_nonneg _ _)) hα2
      have hfin : ((1 + u) ^ (3 * p + 33 + 2) * (1 + eps u g p) - 1) * Real.sqrt (2 * p + 1) * ((1 + u) ^ (n + 1) * M)
          ≤ Fl3.kap u g p * ((1 + u) ^ n * M) := by
        unfold Fl3.kap
        have b2 := mul_le_mul_of_nonneg_left b1 (show 0 ≤ Real.sqrt (2 * p + 1) * ((1 + u) ^ n * M) by positivity)
        rw [pow_succ (1 + u) n]
        linarith
      refine le_trans ?_ ((mul_le_mul_of_nonneg_left hgeo (mul_nonneg b0 (Real.sqrt_nonneg _))).trans hfin)
      unfold wl
      rw [← geo3 R' σ p, mul_sum]
      refine sum_le_sum fun j hj => ?_
      rw [mem_range] at hj
      have hb := bilinf hu (eps_nonneg hu hg p) (K := 3 * p + 33) (K₁ := 2) (Ico j (p + 1)) (Ir j) (fun i => i - j)
        (fun i y k => l2lB (b' i) y j i k) (fun i y k => l2lA (α i) y j i k)
        (fun i => Real.sqrt ((2 * i).choose (2 * j)) * l2 (Ir i) (α i)) (fun i => σ ^ (i - j))
        (fun i m => (‖rpw F (F.nrm3 v') 1 (i - j)‖ + ν * σ ^ (i - j))
          * (‖yv F (2 * p) (F.rcos (F.sph v' 1)) (F.sph v' 2) (i - j) m‖ + ν))
        (fun i m => (rpw F (F.nrm3 v') 1 (i - j) : ℂ) * yv F (2 * p) (F.rcos (F.sph v' 1)) (F.sph v' 2) (i - j) m)
        (fun i => rY v (i - j)) (fun k => d.val (cell j k))
        (fun i hi k _ => (norm_l2lB_sub _ _ _ (mem_Ico.mp hi).1 k).trans (l2lA_mono (fun _ => norm_nonneg _) (fun m => hα.le _ m) _ _ _))
        (fun i _ y k => l2lA_nonneg _ _ _ _ _)
        (fun i hi y => l2_l2lA (α i) y (mem_Ico.mp hi).1)
        (fun i _ => mul_nonneg (Real.sqrt_nonneg _) (l2_nonneg _ _))
        (fun i hi => by
          rw [mem_Ico] at hi
          exact htab (i - j) (by omega))
        (fun i hi => by
          rw [mem_Ico] at hi
          exact beta_l2 hF hs _ (by omega) (by omega) (by omega) (hpr (i - j) (by omega)))
        (fun i _ => pow_nonneg hσ0 _)
        (fun k hk => by
          obtain ⟨k1, k2⟩ := g3 j (by omega) k (mem_Ir.mp hk)
          rw [k1]; exact k2.1)
      have e3 : (fun k => d.val (cell j k) - l2lC p b' v j k) = fun k => d.val (cell j k)
          - ∑ i ∈ Ico j (p + 1), l2lB (b' i) (rY v (i - j)) j i k := by
        funext k; rw [l2lC_parts]; rfl
      show R' ^ j * l2 (Ir j) (fun k => d.val (cell j k) - l2lC p b' v j k) ≤ _
      rw [e3]
      have hsum : ∑ i ∈ Ico j (p + 1), Real.sqrt ((2 * i).choose (2 * j)) * l2 (Ir i) (α i) * σ ^ (i - j)
          ≤ Real.sqrt (2 * p + 1) * ∑ i ∈ Ico j (p + 1), (i.choose j : ℝ) * σ ^ (i - j) * l2 (Ir i) (α i) := by
        rw [mul_sum]
        refine sum_le_sum fun i hi => ?_
        have a1 := sqrt_choose_le i j (D := 2 * p + 1) (by
          have : (j : ℝ) ≤ p := by exact_mod_cast (by omega : j ≤ p)
          linarith)
        have a2 := mul_le_mul_of_nonneg_right a1 (mul_nonneg (l2_nonneg (Ir i) (α i)) (pow_nonneg hσ0 (i - j)))
        linarith
      have b2 := hb.trans (mul_le_mul_of_nonneg_left hsum b0)
      have b3 := mul_le_mul_of_nonneg_left b2 (pow_nonneg hR' j)
      refine b3.trans (le_of_eq ?_)
      ring
    have hb3 : wl p R' (fun j k => l2lC p b' v j k - l2lC p b v j k) ≤ ((1 + u) ^ n - 1) * M := by
      have e3 : (fun j k => l2lC p b' v j k - l2lC p b v j k) = l2lC p (fun n m => b' n m - b n m) v := by
        funext j k; exact l2lC_sub _ _ _ _ _ _
      rw [e3]
      exact (wl_l2lC hR' (by linarith) _).trans e2.1
    have hb4 := wl_add hR' (p := p) (fun j k => d.val (cell j k) - l2lC p b' v j k) (fun j k => l2lC p b' v j k - l2lC p b v j k)
    have e4 : (fun j k => d.val (cell j k) - l2lC p b' v j k + (l2lC p b' v j k - l2lC p b v j k))
        = fun j k => d.val (cell j k) - l2lC p b v j k := by
      funext j k; ring
    rw [e4] at hb4
    exact hb4.trans (hκ.step hu hM0 hb2 hb3)
  · exact (wl_l2lC hR' (by linarith) _).trans e2.2

/-! ## Evaluation -/

/-- The computed value of an expansion with computed coefficients `b'`. -/
theorem val_close (hu : 0 ≤ u) (hg : 0 ≤ g) {p : ℕ} {b' : ℕ → ℤ → ℂ} {α : ℕ → ℤ → ℝ} (hα : ∀ n m, ‖b' n m‖ ≤ α n m) (P : ℕ → ℝ) (y z : ℕ → ℤ → ℂ) (ζ : ℕ → ℝ) {w : ℂ}
    (hz' : ∀ n ≤ p, l2 (Ir n) (fun m => (P n : ℂ) * y n m - z n m) ≤ eps u g p * ζ n) (hζ : ∀ n, 0 ≤ ζ n)
    (hβ : ∀ n ≤ p, l2 (Ir n) (fun m => (‖P n‖ + ν * ζ n) * (‖y n m‖ + ν)) ≤ (1 + u) ^ 2 * (1 + eps u g p) * ζ n) (hν : 0 ≤ ν)
    (hw : Ap u (2 + (p + 1) ^ 2) (∑ n ∈ range (p + 1), ∑ m ∈ Ir n, α n m * ((‖P n‖ + ν * ζ n) * (‖y n m‖ + ν))) w
      (∑ n ∈ range (p + 1), ∑ m ∈ Ir n, b' n m * ((P n : ℂ) * y n m))) :
    ‖w - ∑ n ∈ range (p + 1), ∑ m ∈ Ir n, b' n m * z n m‖ ≤ ((1 + u) ^ (2 + (p + 1) ^ 2 + 2) * (1 + eps u g p) - 1) * ∑ n ∈ range (p + 1), l2 (Ir n) (α n) * ζ n := by
  have hb := bilinf hu (eps_nonneg hu hg p) (K := 2 + (p + 1) ^ 2) (K₁ := 2) (range (p + 1)) ({0} : Finset ℤ) (fun n => n)
    (fun n y _ => ∑ m ∈ Ir n, b' n m * y m) (fun n y _ => ∑ m ∈ Ir n, α n m * |y m|) (fun n => l2 (Ir n) (α n)) ζ
    (fun n m => (‖P n‖ + ν * ζ n) * (‖y n m‖ + ν))
    (fun n m => (P n : ℂ) * y n m) z (fun _ => w)
    (fun n _ k _ => by
      simp only
      rw [← sum_sub_distrib]
      refine (norm_sum_le _ _).trans (sum_le_sum fun m _ => ?_)
      rw [← mul_sub, norm_mul, abs_norm]
      exact mul_le_mul_of_nonneg_right (hα _ _) (norm_nonneg _))
    (fun n _ y k => sum_nonneg fun m _ => mul_nonneg ((norm_nonneg _).trans (hα n m)) (abs_nonneg _))
    (fun n _ y => by
      have h := sum_mul_le_l2 (Ir n) (α n) (fun m => |y m|)
      rw [show l2 (Ir n) (fun m => |y m|) = l2 (Ir n) y from l2_norm (Ir n) y] at h
      refine le_trans (le_of_eq ?_) h
      unfold l2
      rw [sum_singleton, Real.sqrt_sq (norm_nonneg _),
        Real.norm_of_nonneg (sum_nonneg fun m _ => mul_nonneg ((norm_nonneg _).trans (hα n m)) (abs_nonneg _))])
    (fun n _ => l2_nonneg _ _)
    (fun n hn => hz' n (by rw [mem_range] at hn; omega)) (fun n hn => hβ n (by rw [mem_range] at hn; omega)) (fun n _ => hζ n)
    (fun k _ => by
      have := hw.1
      have e : ∀ n m, |(‖P n‖ + ν * ζ n) * (‖y n m‖ + ν)| = (‖P n‖ + ν * ζ n) * (‖y n m‖ + ν) := fun n m => by
        have := hζ n
        exact abs_of_nonneg (by positivity)
      simpa only [e] using this)
  have e : l2 ({0} : Finset ℤ) (fun _ => w - ∑ n ∈ range (p + 1), ∑ m ∈ Ir n, b' n m * z n m)
      = ‖w - ∑ n ∈ range (p + 1), ∑ m ∈ Ir n, b' n m * z n m‖ := by
    unfold l2
    rw [sum_singleton, Real.sqrt_sq (norm_nonneg _)]
  rw [e] at hb
  exact hb

/-- Computed value, from a bound of the weighted norms of the coefficients. -/
theorem val_ap (hu : 0 ≤ u) (hg : 0 ≤ g) {p κ : ℕ} (hκ : Cost u g p κ) {n : ℕ} (b b' z : ℕ → ℤ → ℂ) (ζ : ℕ → ℝ) {w : ℂ} {M X : ℝ} (hM : 0 ≤ M)
    (hz : ∀ n ≤ p, l2 (Ir n) (z n) ≤ ζ n)
    (hw : ‖w - ∑ n ∈ range (p + 1), ∑ m ∈ Ir n, b' n m * z n m‖ ≤ ((1 + u) ^ (2 + (p + 1) ^ 2 + 2) * (1 + eps u g p) - 1) * X)
    (h1 : ∑ i ∈ range (p + 1), l2 (Ir i) (fun m => b' i m - b i m) * ζ i ≤ ((1 + u) ^ n - 1) * M)
    (h2 : ∑ i ∈ range (p + 1), l2 (Ir i) (b i) * ζ i ≤ M)
    (h3 : X ≤ (1 + u) ^ (n + 1) * M) :
    Ap u (n + κ) M (-w.re) (-(∑ n ∈ range (p + 1), ∑ m ∈ Ir n, b n m * z n m).re) := by
  have b1 := eta_of' hu hg p (K := 2 + (p + 1) ^ 2 + 2) (by unfold roundings; omega)
  have b0 := pow_err_nonneg hu hg p (2 + (p + 1) ^ 2 + 2)
  have hηκ := eta_le_kap hu hg p
  have hNN := one_le_pow_u hu n
  refine (Ap.re ⟨?_, (val_le b z ζ hz).trans h2⟩).neg
  have a1 := norm_sub_le_norm_sub_add_norm_sub w (∑ n ∈ range (p + 1), ∑ m ∈ Ir n, b' n m * z n m)
    (∑ n ∈ range (p + 1), ∑ m ∈ Ir n, b n m * z n m)
  have a2 := (val_le (fun n m => b' n m - b n m) z ζ hz).trans h1
  rw [← val_sub] at a2
  have a3 : ‖w - ∑ n ∈ range (p + 1), ∑ m ∈ Ir n, b' n m * z n m‖ ≤ eta u g p * ((1 + u) ^ n * M) := by
    refine hw.trans ((mul_le_mul_of_nonneg_left h3 b0).trans (le_trans (le_of_eq ?_)
      (mul_le_mul_of_nonneg_right b1 (show 0 ≤ (1 + u) ^ n * M from mul_nonneg (by linarith) hM))))
    rw [pow_succ]; ring
  have a4 := mul_le_mul_of_nonneg_right hηκ (show 0 ≤ (1 + u) ^ n * M from mul_nonneg (by linarith) hM)
  exact a1.trans (hκ.step hu hM (a3.trans a4) a2)

theorem lePot_ap (hF : F.Low u g η ρ) {p κ : ℕ} (hs : Scale3 u η θ τ ν p) (hκ : Cost u g p κ) {n : ℕ} {e : Exp3} {c : Vec 3} {b : ℕ → ℤ → ℂ} {R M : ℝ}
    (he : AppL3 u n e c p b R M) (hM : Flr (τ * θ) M) (hRθ : R ≤ θ⁻¹) (hRl : θ ≤ R) {x : Vec 3} (hx : len3 (x - c) ≤ R) :
    ∃ v, lePot F e x = .ok v ∧ Ap u (n + κ) M v (-(leSum3 b p (x - c)).re) := by
  have hu := hF.nonneg
  have hg := gpos hF
  have hR0 : 0 < R := hs.th0.trans_le hRl
  obtain ⟨b', α, e1, e2, hα, hα2⟩ := majL hs he hM hR0 hRθ
  have hl := len3_nonneg (x - c)
  have hR : 0 ≤ R := hl.trans hx
  obtain ⟨w, h1, h2⟩ := lePot_run hF hs hα e1 x (ζ := fun i => R ^ i) (fun i => pow_nonneg hR i)
    (fun i hi => (hs.thpow (by omega)).trans (pow_le_pow_left₀ hs.th0.le hRl i))
  refine ⟨_, h1, ?_⟩
  have hz : ∀ n ≤ p, l2 (Ir n) (rY (x - c) n) ≤ R ^ n := fun n _ => (l2_rY _ n).le.trans (pow_le_pow_left₀ hl hx n)
  have hc := val_close hu hg hα.le _ _ (rY (x - c)) (fun n => R ^ n)
    (fun n hn => tab_reg hF hs x c hx hRl hn hn) (fun i => pow_nonneg hR i)
    (fun n hn => beta_l2 hF hs _ hn (by omega) (by omega) (pw_r hF hs _ _ hx hRl hn)) hs.nu0 h2
  have e3 : ∀ y : ℕ → ℤ → ℂ, ∑ i ∈ range (p + 1), l2 (Ir i) (y i) * R ^ i = wl p R y := by
    intro y
    unfold wl
    exact sum_congr rfl fun i _ => mul_comm _ _
  refine val_ap hu hg hκ b b' (rY (x - c)) _ (e2.nonneg hR) hz hc ((e3 _).le.trans e2.1) ((e3 _).le.trans e2.2) (le_trans (le_of_eq ?_) hα2)
  exact sum_congr rfl fun i _ => mul_comm _ _

theorem mePot_ap (hF : F.Low u g η ρ) {p κ : ℕ} (hs : Scale3 u η θ τ ν p) (hκ : Cost u g p κ) {n : ℕ} {e : Exp3} {c : Vec 3} {a : ℕ → ℤ → ℂ} {A R D : ℝ}
    (he : AppM3 u n e c p a A R) (hA : Flr τ A) (hA0 : 0 ≤ A) (hR : θ ≤ R) (hD : R < D) {x : Vec 3} (hx : D ≤ len3 (x - c)) (hfar : Far θ (x - c)) :
    ∃ v, mePot F e x = .ok v ∧ Ap u (n + κ) (A * (D - R)⁻¹) v (-(meSum3 a p (x - c)).re) := by
  have hu := hF.nonneg
  have hg := gpos hF
  have hD0 : 0 < D := by linarith [hs.th0]
  have hR0 : 0 ≤ R := hs.th0.le.trans hR
  have hl : 0 < len3 (x - c) := by linarith
  obtain ⟨a', α, e1, e2, hα, hα2⟩ := maj3 hs he hA hR
  obtain ⟨w, h1, h2⟩ := mePot_run hF hs hα e1 x (far_inv hF hs hfar).1 (ζ := fun i => (len3 (x - c))⁻¹ ^ (i + 1))
    (fun i => pow_nonneg (inv_nonneg.mpr hl.le) _)
    (fun i hi => (hs.thpow (by omega)).trans (pow_le_pow_left₀ hs.th0.le hfar.2 (i + 1)))
  refine ⟨_, h1, ?_⟩
  have hz : ∀ n ≤ p, l2 (Ir n) (fun m => rY (x - c) n m / (len3 (x - c) : ℂ) ^ (2 * n + 1)) ≤ (len3 (x - c))⁻¹ ^ (n + 1) :=
    fun n _ => l2_inv_le (by linarith) n
  have hc := val_close hu hg hα.le _ _ (fun n m => rY (x - c) n m / (len3 (x - c) : ℂ) ^ (2 * n + 1))
    (fun n => (len3 (x - c))⁻¹ ^ (n + 1))
    (fun n hn => tab_irr hF hs hfar hn (by omega) (by omega) (dv_r hF hs hfar hn)) (fun i => pow_nonneg (inv_nonneg.mpr hl.le) _)
    (fun n hn => beta_l2 hF hs _ hn (by omega) (by omega) (dv_r hF hs hfar hn)) hs.nu0 h2
  have hs' : ∀ (y : ℕ → ℝ) (B : ℝ), 0 ≤ B → (∀ i ≤ p, 0 ≤ y i ∧ y i ≤ B * (A * R ^ i)) →
      ∑ i ∈ range (p + 1), y i * (len3 (x - c))⁻¹ ^ (i + 1) ≤ B * (A * (D - R)⁻¹) := by
    intro y B hB hy
    have h := mul_le_mul_of_nonneg_left (geo1 hR0 hD (p + 1)) (mul_nonneg hB hA0)
    rw [mul_sum] at h
    refine le_trans (sum_le_sum fun i hi => ?_) (h.trans (le_of_eq (by ring)))
    rw [mem_range] at hi
    obtain ⟨k0, k1⟩ := hy i (by omega)
    refine (mul_le_mul k1 (inv_pow_le hD0 hx (i + 1)) (pow_nonneg (inv_nonneg.mpr (by linarith)) _)
      (k0.trans k1)).trans (le_of_eq (by ring))
  have hNN := one_le_pow_u hu n
  refine val_ap hu hg hκ a a' (fun n m => rY (x - c) n m / (len3 (x - c) : ℂ) ^ (2 * n + 1)) _
    (mul_nonneg hA0 (inv_nonneg.mpr (by linarith))) hz hc
    (hs' _ _ (by linarith) fun i hi => ⟨l2_nonneg _ _, (e2 i hi).1⟩) ?_ (hs' _ _ (by positivity) fun i hi => ⟨l2_nonneg _ _, hα2 i hi⟩)
  have := hs' (fun i => l2 (Ir i) (a i)) 1 zero_le_one fun i hi => ⟨l2_nonneg _ _, by rw [one_mul]; exact (e2 i hi).2⟩
  rwa [one_mul] at this

end Lo3
end FMM
