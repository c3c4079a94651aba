import Verif.FltOps3

/-!
# Rounding errors of the local expansions in three dimensions, and of the evaluation
-/

namespace FMM
open Finset

namespace Fl3
variable {F : Flt3} {u g : ℝ}

/-! ## Geometric sums -/

theorem geo1 {R d : ℝ} (hR : 0 ≤ R) (hd : R < d) (p : ℕ) : ∑ j ∈ range p, R ^ j * (d ^ (j + 1))⁻¹ ≤ (d - R)⁻¹ := by
  have hd0 : 0 < d := by linarith
  have h1 : ∑ j ∈ range p, R ^ j * (d ^ (j + 1))⁻¹ = d⁻¹ * ∑ j ∈ range p, (R / d) ^ j := by
    rw [mul_sum]
    refine sum_congr rfl fun j _ => ?_
    rw [div_pow, pow_succ, mul_inv]; ring
  have h2 := mul_neg_geom_sum (R / d) p
  have h3 : 0 ≤ (R / d) ^ p := pow_nonneg (by positivity) p
  have h4 : (d - R) * (d⁻¹ * ∑ j ∈ range p, (R / d) ^ j) ≤ 1 := by
    have e : (d - R) * (d⁻¹ * ∑ j ∈ range p, (R / d) ^ j) = (1 - R / d) * ∑ j ∈ range p, (R / d) ^ j := by
      field_simp
    rw [e, h2]; linarith
  rw [h1]
  have h5 : 0 < d - R := by linarith
  rw [← one_div (d - R), le_div_iff₀ h5]
  linarith

theorem square_le (p : ℕ) (f : ℕ × ℕ → ℝ) (hf : ∀ x, 0 ≤ f x) :
    ∑ j ∈ range (p + 1), ∑ n ∈ range (p + 1), f (j, n) ≤ ∑ N ∈ range (2 * p + 1), ∑ x ∈ antidiagonal N, f x := by
  rw [← sum_product' (range (p + 1)) (range (p + 1)) fun j n => f (j, n)]
  rw [← sum_fiberwise_of_maps_to (s := range (p + 1) ×ˢ range (p + 1)) (t := range (2 * p + 1)) (g := fun x => x.1 + x.2)]
  · refine sum_le_sum fun N _ => sum_le_sum_of_subset_of_nonneg (fun x hx => ?_) fun x _ _ => hf x
    rw [mem_filter] at hx
    exact mem_antidiagonal.mpr hx.2
  · intro x hx
    rw [mem_product, mem_range, mem_range] at hx
    rw [mem_range]; omega

theorem geo2 {R R₁ d : ℝ} (hR : 0 ≤ R) (hR₁ : 0 ≤ R₁) (hd : R + R₁ < d) (p : ℕ) :
    ∑ j ∈ range (p + 1), ∑ n ∈ range (p + 1), ((j + n).choose j : ℝ) * R₁ ^ j * R ^ n * (d ^ (j + n + 1))⁻¹ ≤ (d - R - R₁)⁻¹ := by
  have hd0 : 0 < d := by linarith
  refine (square_le p (fun x => ((x.1 + x.2).choose x.1 : ℝ) * R₁ ^ x.1 * R ^ x.2 * (d ^ (x.1 + x.2 + 1))⁻¹)
    fun x => by positivity).trans ?_
  have e : ∀ N, ∑ x ∈ antidiagonal N, ((x.1 + x.2).choose x.1 : ℝ) * R₁ ^ x.1 * R ^ x.2 * (d ^ (x.1 + x.2 + 1))⁻¹
      = (R₁ + R) ^ N * (d ^ (N + 1))⁻¹ := by
    intro N
    rw [add_pow, sum_mul, Nat.sum_antidiagonal_eq_sum_range_succ_mk]
    refine sum_congr rfl fun k hk => ?_
    rw [mem_range] at hk
    simp only
    rw [show k + (N - k) = N by omega]
    ring
  rw [sum_congr rfl fun N _ => e N]
  have := geo1 (show 0 ≤ R₁ + R by linarith) (show R₁ + R < d by linarith) (2 * p + 1)
  rwa [show d - (R₁ + R) = d - R - R₁ by ring] at this

theorem geo3 (R ρ : ℝ) (p : ℕ) (x : ℕ → ℝ) :
    ∑ j ∈ range (p + 1), R ^ j * ∑ n ∈ Ico j (p + 1), (n.choose j : ℝ) * ρ ^ (n - j) * x n
      = ∑ n ∈ range (p + 1), (R + ρ) ^ n * x n := by
  simp only [mul_sum]
  rw [sum_comm' (t' := range (p + 1)) (s' := fun n => range (n + 1))]
  · refine sum_congr rfl fun n _ => ?_
    rw [add_pow, sum_mul]
    exact sum_congr rfl fun j _ => by ring
  · intro j n
    simp only [mem_range, mem_Ico]; omega

theorem wl_mono {p : ℕ} {R R' : ℝ} (hR : 0 ≤ R) (h : R ≤ R') (x : ℕ → ℤ → ℂ) : wl p R x ≤ wl p R' x := by
  unfold wl
  exact sum_le_sum fun j _ => mul_le_mul_of_nonneg_right (pow_le_pow_left₀ hR h j) (l2_nonneg _ _)

theorem LAp.ofV {κ : ℝ} (hκ : 0 ≤ κ) {n p : ℕ} {R M : ℝ} (hR : 0 ≤ R) {x' x : ℕ → ℤ → ℂ} (m : ℕ → ℝ)
    (h : ∀ j ≤ p, VAp κ n (m j) (Ir j) (x' j) (x j)) (hM : ∑ j ∈ range (p + 1), R ^ j * m j ≤ M) : LAp κ n M p R x' x := by
  have h1 := one_le_pow_u hκ n
  constructor
  · unfold wl
    have : ∑ j ∈ range (p + 1), R ^ j * l2 (Ir j) (fun k => x' j k - x j k)
        ≤ ((1 + κ) ^ n - 1) * ∑ j ∈ range (p + 1), R ^ j * m j := by
      rw [mul_sum]
      refine sum_le_sum fun j hj => ?_
      rw [mem_range] at hj
      have := mul_le_mul_of_nonneg_left (h j (by omega)).1 (pow_nonneg hR j)
      linarith
    exact this.trans (mul_le_mul_of_nonneg_left hM (by linarith))
  · unfold wl
    refine (sum_le_sum fun j hj => ?_).trans hM
    rw [mem_range] at hj
    exact mul_le_mul_of_nonneg_left (h j (by omega)).2 (pow_nonneg hR j)

/-! ## Local expansions -/

/-- The expansion `e` approximates the local coefficients `b` in the ball of radius `R`. -/
def AppL3 (κ : ℝ) (n : ℕ) (e : Exp3) (c : Vec 3) (p : ℕ) (b : ℕ → ℤ → ℂ) (R M : ℝ) : Prop :=
  ∃ b', e.Is c p b' ∧ LAp κ n M p R b' b

theorem AppL3.mono {κ : ℝ} (hκ : 0 ≤ κ) {n m : ℕ} {e : Exp3} {c : Vec 3} {p : ℕ} {b : ℕ → ℤ → ℂ} {R M N : ℝ} (hR : 0 ≤ R)
    (h : AppL3 κ n e c p b R M) (hn : n ≤ m) (hM : M ≤ N) : AppL3 κ m e c p b R N := by
  obtain ⟨b', h1, h2⟩ := h
  exact ⟨b', h1, h2.mono hκ hR hn hM⟩

theorem AppL3.size {κ : ℝ} {n : ℕ} {e : Exp3} {c : Vec 3} {p : ℕ} {b : ℕ → ℤ → ℂ} {R M : ℝ}
    (h : AppL3 κ n e c p b R M) : e.coeffs.size = (p + 1) * (p + 1) := by
  obtain ⟨b', h1, -⟩ := h
  exact h1.size

theorem addEq_ap (hF : F.Ok u g) {κ : ℝ} (hκ : u ≤ κ) {n m k : ℕ} {e f : Exp3} {c : Vec 3} {p : ℕ} {b d : ℕ → ℤ → ℂ} {R M N : ℝ}
    (hR : 0 ≤ R) (he : AppL3 κ n e c p b R M) (hf : AppL3 κ m f c p d R N) (hn : n + 1 ≤ k) (hm : m + 1 ≤ k) :
    ∃ s, addEq F e f = .ok s ∧ AppL3 κ k s c p (fun j l => b j l + d j l) R (M + N) := by
  obtain ⟨b', e1, e2⟩ := he
  obtain ⟨d', f1, f2⟩ := hf
  unfold addEq
  rw [if_neg (by rw [e1.size, f1.size, e1.center, f1.center]; simp)]
  refine ⟨_, rfl, _, ⟨e1.order, e1.center, e1.size, fun j hj l hl => ?_⟩, e2.cadd hF.toOk hκ hR f2 hn hm⟩
  have : cell j l < e.coeffs.size := by
    obtain ⟨b0, b1⟩ := lmIndex_bounds hl hj
    rw [e1.size]; unfold cell; omega
  simp only
  rw [if_pos this, e1.val j hj l hl, f1.val j hj l hl]

theorem inv_pow_le {d D : ℝ} (hD : 0 < D) (h : D ≤ d) (n : ℕ) : d⁻¹ ^ n ≤ (D ^ n)⁻¹ := by
  rw [← inv_pow]
  exact pow_le_pow_left₀ (inv_nonneg.mpr (by linarith)) (inv_anti₀ hD h) n

theorem ne_of_len {v : Vec 3} {D : ℝ} (hD : 0 < D) (h : D ≤ len3 v) : v ≠ 0 := by
  rintro rfl
  have : len3 (0 : Vec 3) = 0 := by simp [len3, dot3]
  linarith

theorem l2_inv_le {v : Vec 3} (hv : 0 < len3 v) (n : ℕ) :
    l2 (Ir n) (fun m => rY v n m / (len3 v : ℂ) ^ (2 * n + 1)) ≤ (len3 v)⁻¹ ^ (n + 1) := by
  rw [l2_rY_inv hv, inv_pow]

theorem leOfSources_ap (hF : F.Ok u g) {p κ : ℕ} (hκ : Cost u g p κ) (st : Stat3) (hst : st.Good) (c : Vec 3) (hp : p ≤ 42) {R D : ℝ} (hR : 0 ≤ R)
    (hD : R < D) (S : List (Source 3)) (hS : ∀ s ∈ S, D ≤ len3 (s.pos - c)) :
    ∃ st' e, leOfSources F st c p S = .ok (st', e) ∧ st'.Good ∧ p ≤ st'.alm.maxOrder ∧ (p ≤ st.alm.maxOrder → st' = st) ∧
      AppL3 u (S.length + κ) e c p (leCoeff3 c S) R (totalStrength S * (D - R)⁻¹) := by
  have hu := hF.nonneg
  have hg := hF.leg_nonneg
  have hF' := hF.toOk
  have hD0 : 0 < D := by linarith
  obtain ⟨st', e, h1, h2, h3, h4, h5⟩ := Exp3.new_ok st hst c p hp
  unfold leOfSources
  rw [h1, ok_bind]
  simp only [h5.center]
  obtain ⟨a, g1, g2, g3⟩ := fold_vap hF' le_rfl (m := κ) (leAddSource F p c)
    (fun s n m => (s.q : ℂ) * (rY (s.pos - c) n (-m) / (len3 (s.pos - c) : ℂ) ^ (2 * n + 1)))
    (fun s n => |s.q| * (D ^ (n + 1))⁻¹) S (fun s hs => by
      have hv := vsub_close hF' s.pos c
      have hd := hS s hs
      have h0 := ne_of_len hD0 hd
      refine ⟨fun n m => F.rsc (F.rnd (s.q * rdv F (F.nrm3 (F.vsub s.pos c)) (F.rnd (1 / F.nrm3 (F.vsub s.pos c))) n))
          (yv F p (F.rcos (F.sph (F.vsub s.pos c) 1)) (F.sph (F.vsub s.pos c) 2) n (-m)),
        fun a ha => leAddSource_run hF p c s (nrm3_inv hF hv h0).1 a ha, fun n hn => ?_⟩
      have h := srcTerm hF hκ s.q _ _ _ (tab_irr hF hv h0 hn (by omega) (by omega) (dv_r hF hv h0 n)) (l2_inv_le (by linarith) n)
      refine h.mono hu le_rfl ?_
      exact mul_le_mul_of_nonneg_left (inv_pow_le hD0 hd _) (abs_nonneg _))
    κ (fun _ _ => 0) (fun _ => 0) e.coeffs le_rfl h5.size (fun n hn => by
      have := (VAp.zero (n := κ) (s := Ir n) hu (le_refl (0 : ℝ)))
      exact this.congr (fun k hk => (h5.val n hn k (mem_Ir.mp hk)).symm) fun _ _ => rfl)
  rw [g1, ok_bind]
  refine ⟨st', _, rfl, h2, h3, h4, fun n m => a.val (cell n m), ⟨h5.order, rfl, g2, fun n hn m hm => rfl⟩, ?_⟩
  refine LAp.ofV hu hR (fun n => totalStrength S * (D ^ (n + 1))⁻¹) (fun n hn => ?_) ?_
  · have := g3 n hn
    rw [zero_add, Nat.add_comm] at this
    rw [totalStrength_eq, ← List.sum_map_mul_right]
    exact this.congr (fun _ _ => rfl) fun k _ => by rw [zero_add]; rfl
  · have := mul_le_mul_of_nonneg_left (geo1 hR hD (p + 1)) (totalStrength_nonneg S)
    rw [mul_sum] at this
    refine le_trans (le_of_eq (sum_congr rfl fun j _ => ?_)) this
    ring

/-! ### Conversion -/

theorem m2lC_sub (p : ℕ) (a b : ℕ → ℤ → ℂ) (h : Vec 3) (j : ℕ) (k : ℤ) :
    m2lC p a h j k - m2lC p b h j k = m2lC p (fun n m => a n m - b n m) h j k := by
  unfold m2lC
  rw [← sub_mul, ← sum_sub_distrib]
  congr 1
  refine sum_congr rfl fun n _ => ?_
  rw [← mul_sub, ← sum_sub_distrib]
  congr 1
  exact sum_congr rfl fun m _ => by ring

/-- Weighted norm of a converted expansion. -/
theorem m2l_wsum {p : ℕ} {R R₁ D d A B : ℝ} (hR : 0 ≤ R) (hR₁ : 0 ≤ R₁) (hD : R + R₁ < D) (hd : D ≤ d) (hA : 0 ≤ A) (hB : 0 ≤ B)
    (x : ℕ → ℝ) (hx : ∀ n ≤ p, 0 ≤ x n ∧ x n ≤ B * (A * R ^ n)) :
    ∑ j ∈ range (p + 1), R₁ ^ j * ∑ n ∈ range (p + 1), Real.sqrt ((2 * (j + n)).choose (2 * j)) * x n * d⁻¹ ^ (j + n + 1)
      ≤ B * (Real.sqrt (2 * p + 1) * A * (D - R - R₁)⁻¹) := by
  have hD0 : 0 < D := by linarith
  have h := mul_le_mul_of_nonneg_left (geo2 hR hR₁ hD p) (show 0 ≤ B * (Real.sqrt (2 * p + 1) * A) by positivity)
  rw [mul_sum] at h
  refine le_trans (sum_le_sum fun j hj => ?_) (h.trans (le_of_eq (by ring)))
  rw [mem_range] at hj
  rw [mul_sum, mul_sum]
  refine sum_le_sum fun n hn => ?_
  rw [mem_range] at hn
  obtain ⟨x0, x1⟩ := hx n (by omega)
  have a1 := sqrt_choose_le (j + n) j (D := 2 * p + 1) (by
    have : (j : ℝ) ≤ p := by exact_mod_cast (by omega : j ≤ p)
    linarith)
  have a2 := inv_pow_le hD0 hd (j + n + 1)
  have a3 := mul_le_mul a1 x1 x0 (mul_nonneg (Real.sqrt_nonneg _) (Nat.cast_nonneg _))
  have a4 := mul_le_mul a3 a2 (pow_nonneg (inv_nonneg.mpr (by linarith)) _)
    (mul_nonneg (mul_nonneg (Real.sqrt_nonneg _) (Nat.cast_nonneg _)) (x0.trans x1))
  refine (mul_le_mul_of_nonneg_left a4 (pow_nonneg hR₁ j)).trans (le_of_eq ?_)
  ring

theorem leOfMe_ap (hF : F.Ok u g) {p κ : ℕ} (hκ : Cost u g p κ) (st : Stat3) (hst : st.Good)
    {n : ℕ} {e : Exp3} {c : Vec 3} {a : ℕ → ℤ → ℂ} {A R : ℝ}
    (he : AppM3 u n e c p a A R) (hA : 0 ≤ A) (hR : 0 ≤ R) (hp : p ≤ 42) (hp0 : 0 < p) (c' : Vec 3) {R₁ D : ℝ}
    (hR₁ : 0 ≤ R₁) (hD : R + R₁ < D) (hd : D ≤ len3 (c - c')) :
    ∃ st' f, leOfMe F st c' e = .ok (st', f) ∧ st'.Good ∧ p ≤ st'.alm.maxOrder ∧ (p ≤ st.alm.maxOrder → st' = st) ∧
      AppL3 u (n + κ) f c' p (m2lC p a (c - c')) R₁ (Real.sqrt (2 * p + 1) * A * (D - R - R₁)⁻¹) := by
  have hu := hF.nonneg
  have hg := hF.leg_nonneg
  have hF' := hF.toOk
  have hη := eta_nonneg hu hg p
  have hD0 : 0 < D := by linarith
  obtain ⟨a', e1, e2⟩ := he
  have hv := vsub_close hF' c c'
  set v := c - c' with hvd
  have h0 := ne_of_len hD0 hd
  have hl : 0 < len3 v := by linarith
  obtain ⟨st', f, w, h1, h2, h3, h4, h5, h6⟩ := leOfMe_run hF st hst e1 hp hp0 c' (nrm3_inv hF hv h0).1
  refine ⟨st', f, h1, h2, h3, h4, w, h5, ?_⟩
  set v' := F.vsub c c' with hv'
  set M := Real.sqrt (2 * p + 1) * A * (D - R - R₁)⁻¹ with hM
  have hM0 : 0 ≤ M := mul_nonneg (mul_nonneg (Real.sqrt_nonneg _) hA) (inv_nonneg.mpr (by linarith))
  have hNN := one_le_pow_u hu n
  have hex : ∀ (b : ℕ → ℤ → ℂ) (B : ℝ), 0 ≤ B → (∀ i ≤ p, l2 (Ir i) (b i) ≤ B * (A * R ^ i)) → wl p R₁ (m2lC p b v) ≤ B * M := by
    intro b B hB hb
    refine le_trans ?_ (m2l_wsum hR hR₁ hD hd hA hB (fun n => l2 (Ir n) (b n)) fun n hn => ⟨l2_nonneg _ _, hb n hn⟩)
    unfold wl
    refine sum_le_sum fun j _ => mul_le_mul_of_nonneg_left ?_ (pow_nonneg hR₁ j)
    refine (l2_m2lC p b hl j).trans (le_of_eq (sum_congr rfl fun n _ => ?_))
    rw [inv_pow]
  constructor
  · have hb2 : wl p R₁ (fun j k => w j k - m2lC p a' v j k) ≤ kap u g p * ((1 + u) ^ n * M) := by
      have hs := m2l_wsum hR hR₁ hD hd hA (B := (1 + u) ^ n) (by linarith) (fun n => l2 (Ir n) (a' n))
        fun i hi => ⟨l2_nonneg _ _, (e2 i hi).norm⟩
      refine le_trans ?_ ((mul_le_mul_of_nonneg_left hs hη).trans (mul_le_mul_of_nonneg_right (eta_le_kap hu hg p)
        (mul_nonneg (by linarith) hM0)))
      unfold wl
      rw [mul_sum]
      refine sum_le_sum fun j hj => ?_
      rw [mem_range] at hj
      have hb := bilin hu (ε := eps u g p) (K := 3 * p + 33) (range (p + 1)) (Ir j) (fun i => j + i)
        (fun i y k => m2lPart (a' i) y j i k) (fun i y k => m2lA (fun m => ‖a' i m‖) y j i k)
        (fun i => Real.sqrt ((2 * (j + i)).choose (2 * j)) * l2 (Ir i) (a' i)) (fun i => (len3 v)⁻¹ ^ (j + i + 1))
        (fun i m => (rpw F (F.rnd (1 / F.nrm3 v')) 1 (j + i + 1) : ℂ)
          * yv F (2 * p) (F.rcos (F.sph v' 1)) (F.sph v' 2) (j + i) m)
        (fun i m => rY v (j + i) m / (len3 v : ℂ) ^ (2 * (j + i) + 1)) (w j)
        (fun i _ k _ => norm_m2lPart_sub _ _ _ _ _ k)
        (fun i _ y k => m2lA_nonneg _ _ _ _ _)
        (fun i _ y => by
          have := l2_m2lA (fun m => ‖a' i m‖) y j i
          rwa [l2_norm] at this)
        (fun i _ => mul_nonneg (Real.sqrt_nonneg _) (l2_nonneg _ _))
        (fun i hi => by
          rw [mem_range] at hi
          exact tab_irr hF hv h0 (by omega) (by omega) (by omega) (pw_rinv hF hv h0 (j + i + 1)))
        (fun i _ => l2_inv_le hl (j + i))
        (fun k hk => (h6 j (by omega) k (mem_Ir.mp hk)).1)
      have e3 : (fun k => w j k - m2lC p a' v j k) = fun k => w j k
          - ∑ i ∈ range (p + 1), m2lPart (a' i) (fun m => rY v (j + i) m / (len3 v : ℂ) ^ (2 * (j + i) + 1)) j i k := by
        funext k; rw [m2lC_parts]
      show R₁ ^ j * l2 (Ir j) (fun k => w j k - m2lC p a' v j k) ≤ _
      rw [e3]
      have b1 := eta_of hu hg p (K := 3 * p + 33) (by unfold roundings; nlinarith)
      have b2 := hb.trans (mul_le_mul_of_nonneg_right b1 (sum_nonneg fun i _ => mul_nonneg (mul_nonneg (Real.sqrt_nonneg _)
        (l2_nonneg _ _)) (pow_nonneg (inv_nonneg.mpr hl.le) _)))
      have b3 := mul_le_mul_of_nonneg_left b2 (pow_nonneg hR₁ j)
      refine b3.trans (le_of_eq ?_)
      ring
    have hb3 : wl p R₁ (fun j k => m2lC p a' v j k - m2lC p a v j k) ≤ ((1 + u) ^ n - 1) * M := by
      have e3 : (fun j k => m2lC p a' v j k - m2lC p a v j k) = m2lC p (fun n m => a' n m - a n m) v := by
        funext j k; exact m2lC_sub _ _ _ _ _ _
      rw [e3]
      exact hex _ _ (by linarith) fun i hi => (e2 i hi).1
    have hb4 := wl_add hR₁ (p := p) (fun j k => w j k - m2lC p a' v j k) (fun j k => m2lC p a' v j k - m2lC p a v j k)
    have e4 : (fun j k => w j k - m2lC p a' v j k + (m2lC p a' v j k - m2lC p a v j k)) = fun j k => w j k - m2lC p a v j k := by
      funext j k; ring
    rw [e4] at hb4
    exact hb4.trans (hκ.step hu hM0 hb2 hb3)
  · have := hex a 1 zero_le_one fun i hi => by rw [one_mul]; exact (e2 i hi).2
    rwa [one_mul] at this

theorem leOfMes_ap (hF : F.Ok u g) {p κ : ℕ} (hκ : Cost u g p κ) (st : Stat3) (hst : st.Good) (c : Vec 3) (hp : p ≤ 42) (hp0 : 0 < p) {n : ℕ} {R R₁ D : ℝ}
    (hR : 0 ≤ R) (hR₁ : 0 ≤ R₁) (hD : R + R₁ < D) (L : List (Exp3 × Vec 3 × (ℕ → ℤ → ℂ) × ℝ)) (hne : L ≠ [])
    (hL : ∀ x ∈ L, AppM3 u n x.1 x.2.1 p x.2.2.1 x.2.2.2 R ∧ 0 ≤ x.2.2.2 ∧ D ≤ len3 (x.2.1 - c)) :
    ∃ st' e, leOfMes F st c (L.map (·.1)) = .ok (st', e) ∧ st'.Good ∧ p ≤ st'.alm.maxOrder ∧
      (p ≤ st.alm.maxOrder → st' = st) ∧
      AppL3 u (n + κ + L.length) e c p (fun j k => (L.map fun x => m2lC p x.2.2.1 (x.2.1 - c) j k).sum) R₁
        (Real.sqrt (2 * p + 1) * (L.map (·.2.2.2)).sum * (D - R - R₁)⁻¹) := by
  have hu := hF.nonneg
  have hg := hF.leg_nonneg
  have hF' := hF.toOk
  obtain ⟨x0, L', rfl⟩ := List.exists_cons_of_ne_nil hne
  obtain ⟨st', e, h1, h2, h3, h4, h5⟩ := Exp3.new_ok st hst c p hp
  have ho : x0.1.order = p := by
    obtain ⟨a, ha, -⟩ := (hL x0 (by simp)).1
    exact ha.order
  unfold leOfMes
  rw [List.map_cons]
  simp only
  rw [ho, h1, ok_bind, ← List.map_cons (f := Prod.fst), List.foldlM_map]
  have key : ∀ (K : List (Exp3 × Vec 3 × (ℕ → ℤ → ℂ) × ℝ)) (N : ℕ) (e : Exp3) (b : ℕ → ℤ → ℂ) (M : ℝ), n + κ ≤ N →
      (∀ x ∈ K, x ∈ x0 :: L') → AppL3 u N e c p b R₁ M → ∃ e', K.foldlM (fun (s : Stat3 × Exp3) x => do
        let (st, le) ← leOfMe F s.1 c x.1
        let e ← addEq F s.2 le
        (Except.ok (st, e) : Outcome (Stat3 × Exp3))) (st', e) = .ok (st', e') ∧
        AppL3 u (N + K.length) e' c p (fun j k => b j k + (K.map fun x => m2lC p x.2.2.1 (x.2.1 - c) j k).sum) R₁
          (M + Real.sqrt (2 * p + 1) * (K.map (·.2.2.2)).sum * (D - R - R₁)⁻¹) := by
    intro K
    induction K with
    | nil => exact fun N e b M _ _ he => ⟨e, rfl, by simpa using he⟩
    | cons x K ih =>
      intro N e b M hN hK he
      obtain ⟨a1, a2, a3⟩ := hL x (hK x (by simp))
      obtain ⟨st2, f, k1, -, -, k4, k5⟩ := leOfMe_ap hF hκ st' h2 a1 a2 hR hp hp0 c hR₁ hD a3
      obtain rfl := k4 h3
      obtain ⟨s, s1, s2⟩ := addEq_ap hF le_rfl hR₁ he k5 (k := N + 1) le_rfl (by omega)
      obtain ⟨e', t1, t2⟩ := ih (N + 1) s _ _ (by omega) (fun y hy => hK y (by simp [hy])) s2
      refine ⟨e', ?_, ?_⟩
      · rw [List.foldlM_cons, k1, ok_bind]
        simp only
        rw [s1, ok_bind, ok_bind]
        exact t1
      · rw [List.length_cons, show N + (K.length + 1) = N + 1 + K.length by ring]
        have e3 : (fun j k => b j k + ((x :: K).map fun x => m2lC p x.2.2.1 (x.2.1 - c) j k).sum)
            = fun j k => b j k + m2lC p x.2.2.1 (x.2.1 - c) j k + (K.map fun x => m2lC p x.2.2.1 (x.2.1 - c) j k).sum := by
          funext j k; simp only [List.map_cons, List.sum_cons]; ring
        have e4 : M + Real.sqrt (2 * p + 1) * ((x :: K).map (·.2.2.2)).sum * (D - R - R₁)⁻¹
            = M + Real.sqrt (2 * p + 1) * x.2.2.2 * (D - R - R₁)⁻¹ + Real.sqrt (2 * p + 1) * (K.map (·.2.2.2)).sum * (D - R - R₁)⁻¹ := by
          rw [List.map_cons, List.sum_cons]; ring
        rw [e3, e4]
        exact t2
  obtain ⟨e', t1, t2⟩ := key (x0 :: L') (n + κ) e (fun _ _ => 0) 0 le_rfl (fun _ h => h)
    ⟨fun _ _ => 0, h5, LAp.zero hu le_rfl⟩
  refine ⟨st', e', t1, h2, h3, h4, ?_⟩
  simpa using t2

/-! ### Shift -/

theorem l2lC_sub (p : ℕ) (a b : ℕ → ℤ → ℂ) (h : Vec 3) (j : ℕ) (k : ℤ) :
    l2lC p a h j k - l2lC p b h j k = l2lC p (fun n m => a n m - b n m) h j k := by
  unfold l2lC
  rw [← mul_sub, ← sum_sub_distrib]
  congr 1
  refine sum_congr rfl fun n _ => ?_
  rw [← mul_sub, ← sum_sub_distrib]
  congr 1
  exact sum_congr rfl fun m _ => by ring

theorem wl_l2lC {p : ℕ} {R' R : ℝ} (hR' : 0 ≤ R') {v : Vec 3} (h : R' + len3 v ≤ R) (b : ℕ → ℤ → ℂ) :
    wl p R' (l2lC p b v) ≤ wl p R b := by
  have hl := len3_nonneg v
  refine le_trans ?_ (wl_mono (by linarith) h b)
  unfold wl
  rw [← geo3]
  exact sum_le_sum fun j _ => mul_le_mul_of_nonneg_left (l2_l2lC p b v j) (pow_nonneg hR' j)

theorem leOfLe_ap (hF : F.Ok u g) {p κ : ℕ} (hκ : Cost u g p κ) (st : Stat3) (hst : st.Good)
    {n : ℕ} {e : Exp3} {c : Vec 3} {b : ℕ → ℤ → ℂ} {R R' M : ℝ}
    (he : AppL3 u n e c p b R M) (hp : p ≤ 42) (hp0 : 0 < p) (c' : Vec 3) (hR' : 0 ≤ R')
    (hc : R' + len3 (c - c') ≤ R) :
    ∃ st' f, leOfLe F st c' e = .ok (st', f) ∧ st'.Good ∧ p ≤ st'.alm.maxOrder ∧ (p ≤ st.alm.maxOrder → st' = st) ∧
      AppL3 u (n + κ) f c' p (l2lC p b (c - c')) R' M := by
  have hu := hF.nonneg
  have hg := hF.leg_nonneg
  have hF' := hF.toOk
  have hη := eta_nonneg hu hg p
  obtain ⟨b', e1, e2⟩ := he
  have hv := vsub_close hF' c c'
  set v := c - c' with hvd
  have hl := len3_nonneg v
  have hR : 0 ≤ R := by linarith
  obtain ⟨st', f, h1, h2, h3, h4, h5⟩ := Exp3.new_ok st hst c' p hp
  obtain ⟨d, w, g1, g2, g3⟩ := leShift_ap hF h2 e1 hp0 hp h3 (F.vsub c c')
  unfold leOfLe
  rw [e1.order, h1, ok_bind]
  simp only [h5.center, e1.center]
  rw [g1, ok_bind]
  refine ⟨st', _, rfl, h2, h3, h4, fun j k => d.val (cell j k), ⟨h5.order, rfl, g2, fun j _ k _ => rfl⟩, ?_⟩
  set v' := F.vsub c c' with hv'
  have hM0 := e2.nonneg hR
  have hNN := one_le_pow_u hu n
  constructor
  · have hb2 : wl p R' (fun j k => d.val (cell j k) - l2lC p b' v j k) ≤ kap u g p * wl p R b' := by
      refine le_trans ?_ (mul_le_mul_of_nonneg_left (wl_mono (by linarith) hc b') (kap_nonneg hu hg p))
      unfold wl
      rw [← geo3, mul_sum]
      refine sum_le_sum fun j hj => ?_
      rw [mem_range] at hj
      have hb := bilin hu (ε := eps u g p) (K := 3 * p + 33) (Ico j (p + 1)) (Ir j) (fun i => i - j)
        (fun i y k => l2lB (b' i) y j i k) (fun i y k => l2lA (fun m => ‖b' i m‖) y j i k)
        (fun i => Real.sqrt ((2 * i).choose (2 * j)) * l2 (Ir i) (b' i)) (fun i => len3 v ^ (i - j))
        (fun i m => (rpw F (F.nrm3 v') 1 (i - j) : ℂ) * yv F (2 * p) (F.rcos (F.sph v' 1)) (F.sph v' 2) (i - j) m)
        (fun i => rY v (i - j)) (fun k => d.val (cell j k))
        (fun i hi k _ => norm_l2lB_sub _ _ _ (mem_Ico.mp hi).1 k)
        (fun i _ y k => l2lA_nonneg _ _ _ _ _)
        (fun i hi y => by
          have := l2_l2lA (fun m => ‖b' i m‖) y (mem_Ico.mp hi).1
          rwa [l2_norm] at this)
        (fun i _ => mul_nonneg (Real.sqrt_nonneg _) (l2_nonneg _ _))
        (fun i hi => by
          rw [mem_Ico] at hi
          exact tab_reg hF hv (by omega) (by omega) (by omega) (pw_r hF hv (i - j)))
        (fun i _ => (l2_rY v (i - j)).le)
        (fun k hk => by
          obtain ⟨k1, k2⟩ := g3 j (by omega) k (mem_Ir.mp hk)
          rw [k1]; exact k2.1)
      have e3 : (fun k => d.val (cell j k) - l2lC p b' v j k) = fun k => d.val (cell j k)
          - ∑ i ∈ Ico j (p + 1), l2lB (b' i) (rY v (i - j)) j i k := by
        funext k; rw [l2lC_parts]; rfl
      show R' ^ j * l2 (Ir j) (fun k => d.val (cell j k) - l2lC p b' v j k) ≤ _
      rw [e3]
      have b1 := eta_of hu hg p (K := 3 * p + 33) (by unfold roundings; nlinarith)
      have hsum : ∑ i ∈ Ico j (p + 1), Real.sqrt ((2 * i).choose (2 * j)) * l2 (Ir i) (b' i) * len3 v ^ (i - j)
          ≤ Real.sqrt (2 * p + 1) * ∑ i ∈ Ico j (p + 1), (i.choose j : ℝ) * len3 v ^ (i - j) * l2 (Ir i) (b' i) := by
        rw [mul_sum]
        refine sum_le_sum fun i hi => ?_
        have a1 := sqrt_choose_le i j (D := 2 * p + 1) (by
          have : (j : ℝ) ≤ p := by exact_mod_cast (by omega : j ≤ p)
          linarith)
        have a2 := mul_le_mul_of_nonneg_right a1 (mul_nonneg (l2_nonneg (Ir i) (b' i)) (pow_nonneg hl (i - j)))
        linarith
      have b2 := hb.trans (mul_le_mul b1 hsum (sum_nonneg fun i _ => mul_nonneg (mul_nonneg (Real.sqrt_nonneg _)
        (l2_nonneg _ _)) (pow_nonneg hl _)) hη)
      have b3 := mul_le_mul_of_nonneg_left b2 (pow_nonneg hR' j)
      refine b3.trans (le_of_eq ?_)
      unfold kap; ring
    have hb3 : wl p R' (fun j k => l2lC p b' v j k - l2lC p b v j k) ≤ ((1 + u) ^ n - 1) * M := by
      have e3 : (fun j k => l2lC p b' v j k - l2lC p b v j k) = l2lC p (fun n m => b' n m - b n m) v := by
        funext j k; exact l2lC_sub _ _ _ _ _ _
      rw [e3]
      exact (wl_l2lC hR' hc _).trans e2.1
    have hb4 := wl_add hR' (p := p) (fun j k => d.val (cell j k) - l2lC p b' v j k) (fun j k => l2lC p b' v j k - l2lC p b v j k)
    have e4 : (fun j k => d.val (cell j k) - l2lC p b' v j k + (l2lC p b' v j k - l2lC p b v j k))
        = fun j k => d.val (cell j k) - l2lC p b v j k := by
      funext j k; ring
    rw [e4] at hb4
    have hb5 := mul_le_mul_of_nonneg_left (e2.norm hR) (kap_nonneg hu hg p)
    exact hb4.trans (hκ.step hu hM0 (hb2.trans hb5) hb3)
  · exact (wl_l2lC hR' hc _).trans e2.2

/-! ## Evaluation -/

/-- The computed value of an expansion with computed coefficients `b'`. -/
theorem val_close (hu : 0 ≤ u) (hg : 0 ≤ g) {p : ℕ} (b' : ℕ → ℤ → ℂ) (P : ℕ → ℝ) (y z : ℕ → ℤ → ℂ) (ζ : ℕ → ℝ) {w : ℂ}
    (hz' : ∀ n ≤ p, l2 (Ir n) (fun m => (P n : ℂ) * y n m - z n m) ≤ eps u g p * ζ n) (hz : ∀ n ≤ p, l2 (Ir n) (z n) ≤ ζ n)
    (hw : Ap u (2 + (p + 1) ^ 2) (∑ n ∈ range (p + 1), ∑ m ∈ Ir n, ‖b' n m‖ * ‖(P n : ℂ) * y n m‖) w
      (∑ n ∈ range (p + 1), ∑ m ∈ Ir n, b' n m * ((P n : ℂ) * y n m))) :
    ‖w - ∑ n ∈ range (p + 1), ∑ m ∈ Ir n, b' n m * z n m‖ ≤ eta u g p * ∑ n ∈ range (p + 1), l2 (Ir n) (b' n) * ζ n := by
  have hb := bilin hu (ε := eps u g p) (K := 2 + (p + 1) ^ 2) (range (p + 1)) ({0} : Finset ℤ) (fun n => n)
    (fun n y _ => ∑ m ∈ Ir n, b' n m * y m) (fun n y _ => ∑ m ∈ Ir n, ‖b' n m‖ * |y m|) (fun n => l2 (Ir n) (b' n)) ζ
    (fun n m => (P n : ℂ) * y n m) z (fun _ => w)
    (fun n _ k _ => by
      simp only
      rw [← sum_sub_distrib]
      refine (norm_sum_le _ _).trans (sum_le_sum fun m _ => ?_)
      rw [← mul_sub, norm_mul, abs_norm])
    (fun n _ y k => sum_nonneg fun m _ => mul_nonneg (norm_nonneg _) (abs_nonneg _))
    (fun n _ y => by
      have h := sum_mul_le_l2 (Ir n) (fun m => ‖b' n m‖) (fun m => |y m|)
      rw [l2_norm, show l2 (Ir n) (fun m => |y m|) = l2 (Ir n) y from l2_norm (Ir n) y] at h
      refine le_trans (le_of_eq ?_) h
      unfold l2
      rw [sum_singleton, Real.sqrt_sq (norm_nonneg _),
        Real.norm_of_nonneg (sum_nonneg fun m _ => mul_nonneg (norm_nonneg _) (abs_nonneg _))])
    (fun n _ => l2_nonneg _ _)
    (fun n hn => hz' n (by rw [mem_range] at hn; omega)) (fun n hn => hz n (by rw [mem_range] at hn; omega))
    (fun k _ => by
      have := hw.1
      simpa only [abs_norm] using this)
  have e : l2 ({0} : Finset ℤ) (fun _ => w - ∑ n ∈ range (p + 1), ∑ m ∈ Ir n, b' n m * z n m)
      = ‖w - ∑ n ∈ range (p + 1), ∑ m ∈ Ir n, b' n m * z n m‖ := by
    unfold l2
    rw [sum_singleton, Real.sqrt_sq (norm_nonneg _)]
  rw [e] at hb
  refine hb.trans (mul_le_mul_of_nonneg_right (eta_of hu hg p (by unfold roundings; omega)) ?_)
  exact sum_nonneg fun n hn => mul_nonneg (l2_nonneg _ _) ((l2_nonneg _ _).trans (hz n (by rw [mem_range] at hn; omega)))

theorem val_le {p : ℕ} (b z : ℕ → ℤ → ℂ) (ζ : ℕ → ℝ) (hz : ∀ n ≤ p, l2 (Ir n) (z n) ≤ ζ n) :
    ‖∑ n ∈ range (p + 1), ∑ m ∈ Ir n, b n m * z n m‖ ≤ ∑ n ∈ range (p + 1), l2 (Ir n) (b n) * ζ n := by
  refine (norm_sum_le _ _).trans (sum_le_sum fun n hn => (norm_sum_mul_le _ _ _).trans ?_)
  exact mul_le_mul_of_nonneg_left (hz n (by rw [mem_range] at hn; omega)) (l2_nonneg _ _)

theorem val_sub {p : ℕ} (b b' z : ℕ → ℤ → ℂ) :
    ∑ n ∈ range (p + 1), ∑ m ∈ Ir n, b' n m * z n m - ∑ n ∈ range (p + 1), ∑ m ∈ Ir n, b n m * z n m
      = ∑ n ∈ range (p + 1), ∑ m ∈ Ir n, (b' n m - b n m) * z n m := by
  rw [← sum_sub_distrib]
  refine sum_congr rfl fun n _ => ?_
  rw [← sum_sub_distrib]
  exact sum_congr rfl fun m _ => by ring

/-- Computed value, from a bound of the weighted norms of the coefficients. -/
theorem val_ap (hu : 0 ≤ u) (hg : 0 ≤ g) {p κ : ℕ} (hκ : Cost u g p κ) {n : ℕ} (b b' z : ℕ → ℤ → ℂ) (ζ : ℕ → ℝ) {w : ℂ} {M : ℝ} (hM : 0 ≤ M)
    (hz : ∀ n ≤ p, l2 (Ir n) (z n) ≤ ζ n)
    (hw : ‖w - ∑ n ∈ range (p + 1), ∑ m ∈ Ir n, b' n m * z n m‖ ≤ eta u g p * ∑ n ∈ range (p + 1), l2 (Ir n) (b' n) * ζ n)
    (h1 : ∑ i ∈ range (p + 1), l2 (Ir i) (fun m => b' i m - b i m) * ζ i ≤ ((1 + u) ^ n - 1) * M)
    (h2 : ∑ i ∈ range (p + 1), l2 (Ir i) (b i) * ζ i ≤ M)
    (h3 : ∑ i ∈ range (p + 1), l2 (Ir i) (b' i) * ζ i ≤ (1 + u) ^ n * M) :
    Ap u (n + κ) M (-w.re) (-(∑ n ∈ range (p + 1), ∑ m ∈ Ir n, b n m * z n m).re) := by
  have hη := eta_nonneg hu hg p
  have hηκ := eta_le_kap hu hg p
  have hNN := one_le_pow_u hu n
  refine (Ap.re ⟨?_, (val_le b z ζ hz).trans h2⟩).neg
  have a1 := norm_sub_le_norm_sub_add_norm_sub w (∑ n ∈ range (p + 1), ∑ m ∈ Ir n, b' n m * z n m)
    (∑ n ∈ range (p + 1), ∑ m ∈ Ir n, b n m * z n m)
  have a2 := (val_le (fun n m => b' n m - b n m) z ζ hz).trans h1
  rw [← val_sub] at a2
  have a3 := hw.trans (mul_le_mul_of_nonneg_left h3 hη)
  have a4 := mul_le_mul_of_nonneg_right hηκ (show 0 ≤ (1 + u) ^ n * M from mul_nonneg (by linarith) hM)
  exact a1.trans (hκ.step hu hM (a3.trans a4) a2)

theorem lePot_ap (hF : F.Ok u g) {p κ : ℕ} (hκ : Cost u g p κ) {n : ℕ} {e : Exp3} {c : Vec 3} {b : ℕ → ℤ → ℂ} {R M : ℝ}
    (he : AppL3 u n e c p b R M) {x : Vec 3} (hx : len3 (x - c) ≤ R) :
    ∃ v, lePot F e x = .ok v ∧ Ap u (n + κ) M v (-(leSum3 b p (x - c)).re) := by
  have hu := hF.nonneg
  have hg := hF.leg_nonneg
  obtain ⟨b', e1, e2⟩ := he
  have hv := vsub_close hF.toOk x c
  have hl := len3_nonneg (x - c)
  have hR : 0 ≤ R := hl.trans hx
  obtain ⟨w, h1, h2⟩ := lePot_run hF e1 x
  refine ⟨_, h1, ?_⟩
  have hz : ∀ n ≤ p, l2 (Ir n) (rY (x - c) n) ≤ len3 (x - c) ^ n := fun n _ => (l2_rY _ n).le
  have hc := val_close hu hg b' _ _ (rY (x - c)) (fun n => len3 (x - c) ^ n)
    (fun n hn => tab_reg hF hv hn (by omega) (by omega) (pw_r hF hv n)) hz h2
  have hs : ∀ y : ℕ → ℤ → ℂ, ∑ i ∈ range (p + 1), l2 (Ir i) (y i) * len3 (x - c) ^ i ≤ wl p R y := by
    intro y
    unfold wl
    refine sum_le_sum fun i _ => ?_
    rw [mul_comm]
    exact mul_le_mul_of_nonneg_right (pow_le_pow_left₀ hl hx i) (l2_nonneg _ _)
  exact val_ap hu hg hκ b b' (rY (x - c)) _ (e2.nonneg hR) hz hc ((hs _).trans e2.1) ((hs _).trans e2.2) ((hs _).trans (e2.norm hR))

theorem mePot_ap (hF : F.Ok u g) {p κ : ℕ} (hκ : Cost u g p κ) {n : ℕ} {e : Exp3} {c : Vec 3} {a : ℕ → ℤ → ℂ} {A R D : ℝ}
    (he : AppM3 u n e c p a A R) (hA : 0 ≤ A) (hR : 0 ≤ R) (hD : R < D) {x : Vec 3} (hx : D ≤ len3 (x - c)) :
    ∃ v, mePot F e x = .ok v ∧ Ap u (n + κ) (A * (D - R)⁻¹) v (-(meSum3 a p (x - c)).re) := by
  have hu := hF.nonneg
  have hg := hF.leg_nonneg
  have hD0 : 0 < D := by linarith
  obtain ⟨a', e1, e2⟩ := he
  have hv := vsub_close hF.toOk x c
  have h0 := ne_of_len hD0 hx
  obtain ⟨w, h1, h2⟩ := mePot_run hF e1 x (nrm3_inv hF hv h0).1
  refine ⟨_, h1, ?_⟩
  have hz : ∀ n ≤ p, l2 (Ir n) (fun m => rY (x - c) n m / (len3 (x - c) : ℂ) ^ (2 * n + 1)) ≤ (len3 (x - c))⁻¹ ^ (n + 1) :=
    fun n _ => l2_inv_le (by linarith) n
  have hc := val_close hu hg a' _ _ (fun n m => rY (x - c) n m / (len3 (x - c) : ℂ) ^ (2 * n + 1))
    (fun n => (len3 (x - c))⁻¹ ^ (n + 1))
    (fun n hn => tab_irr hF hv h0 hn (by omega) (by omega) (dv_r hF hv h0 n)) hz h2
  have hs : ∀ (y : ℕ → ℤ → ℂ) (B : ℝ), 0 ≤ B → (∀ i ≤ p, l2 (Ir i) (y i) ≤ B * (A * R ^ i)) →
      ∑ i ∈ range (p + 1), l2 (Ir i) (y i) * (len3 (x - c))⁻¹ ^ (i + 1) ≤ B * (A * (D - R)⁻¹) := by
    intro y B hB hy
    have h := mul_le_mul_of_nonneg_left (geo1 hR hD (p + 1)) (mul_nonneg hB hA)
    rw [mul_sum] at h
    refine le_trans (sum_le_sum fun i hi => ?_) (h.trans (le_of_eq (by ring)))
    rw [mem_range] at hi
    have k1 := hy i (by omega)
    refine (mul_le_mul k1 (inv_pow_le hD0 hx (i + 1)) (pow_nonneg (inv_nonneg.mpr (by linarith)) _)
      ((l2_nonneg _ _).trans k1)).trans (le_of_eq (by ring))
  have hNN := one_le_pow_u hu n
  refine val_ap hu hg hκ a a' (fun n m => rY (x - c) n m / (len3 (x - c) : ℂ) ^ (2 * n + 1)) _
    (mul_nonneg hA (inv_nonneg.mpr (by linarith))) hz hc
    (hs _ _ (by linarith) fun i hi => (e2 i hi).1) ?_ (hs _ _ (by linarith) fun i hi => (e2 i hi).norm)
  have := hs a 1 zero_le_one fun i hi => by rw [one_mul]; exact (e2 i hi).2
  rwa [one_mul] at this

end Fl3
end FMM
