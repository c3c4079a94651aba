import Verif.HighOps
import Verif.LowEval

/-!
# The passes over a tree in the plane do not overflow

`Fit`: the exponents of the distances (`t`), of the total strength (`α`) and the order `p` leave room below the largest `double`.  The passes
with `double`s then compute the expansions of `LowLaws`, and all coefficients are below `2^coExp`.
-/

namespace FMM.D2.Hi
open FMM D64 Rounded Finset
variable {F : Flt} {log : DC → DC} {u η ρ θ τ : ℝ} {p t α : ℕ}

/-- Bound for the exponents of the coefficients. -/
def coExp (p t α : ℕ) : ℕ := α + p * t + 12

/-- Bound for the exponents of the powers of the distances. -/
def pwExp (p t : ℕ) : ℕ := (p + 3) * (t + 2)

/-- The range of the numbers. -/
structure Fit (θ : ℝ) (p t α : ℕ) : Prop where
  th : 4 ≤ θ * 2 ^ t
  small : t ≤ 190
  room : coExp p t α + 2 * pwExp p t + 3 * p + 11 ≤ 930

/-! ## Distances and logarithms -/

section
variable (hF : F.Low u η ρ) (hsc : Scale η ρ θ τ p)
include hF hsc

omit hF in
theorem eta_sq : η ≤ θ ^ 2 := by
  have h1 := hsc.tpow (k := 2) (by omega)
  have h2 := hsc.eta_le
  have h3 : τ * θ ^ 2 ≤ θ ^ 2 := mul_le_of_le_one_left (sq_nonneg _) hsc.tau1
  linarith

omit hF in
theorem eta_th : η ≤ θ := by
  have := eta_sq hsc
  have h0 := hsc.th0
  have h1 := hsc.th1
  nlinarith

theorem csub_up (ht : Fit θ p t α) {x y : ℂ} (h : ‖x - y‖ ≤ 2 / θ) : ‖F.csub x y‖ ≤ 2 ^ t := by
  have h0 := hsc.th0
  have h1 := hsc.th1
  have e := hF.csub_err x y
  have h2 := norm_sub_norm_le (F.csub x y) (x - y)
  have h3 : 2 ≤ 2 / θ := by rw [le_div_iff₀ h0]; linarith
  have h4 : u * max ‖x - y‖ η ≤ 1 / 16 * (2 / θ) := by
    refine mul_le_mul hF.small (max_le h (by linarith [hF.eta1])) ?_ (by norm_num)
    exact hF.eta.trans (le_max_right _ _)
  have h5 : 4 / θ ≤ 2 ^ t := by rw [div_le_iff₀ h0]; linarith [ht.th]
  have h6 : 4 / θ = 2 * (2 / θ) := by ring
  linarith

theorem csub_lo {x y : ℂ} (h : θ ≤ ‖x - y‖) : 15 / 16 * θ ≤ ‖F.csub x y‖ := by
  have e := hF.csub_rel ((eta_th hsc).trans h)
  have h2 := norm_sub_norm_le (x - y) (F.csub x y)
  rw [norm_sub_rev (x - y)] at h2
  have h3 := hF.small
  have h4 := hF.nonneg
  have h5 := hsc.th0
  nlinarith

theorem mul_lo {z : ℂ} (h : 15 / 16 * θ ≤ ‖z‖) : 3 / 4 * θ ^ 2 ≤ ‖F.mul z z‖ := by
  have e := hF.mul z z
  have h0 := hsc.th0
  have h2 := norm_sub_norm_le (z * z) (F.mul z z)
  rw [norm_sub_rev (z * z)] at h2
  have h3 : ‖z * z‖ = ‖z‖ ^ 2 := by rw [norm_mul, sq]
  have h4 : (15 / 16 * θ) ^ 2 ≤ ‖z‖ ^ 2 := pow_le_pow_left₀ (by positivity) h 2
  rw [mul_pow] at h4
  have h5 := eta_sq hsc
  have h6 : u * max ‖z * z‖ η ≤ 1 / 16 * max ‖z * z‖ η := mul_le_mul_of_nonneg_right hF.small (hF.eta.trans (le_max_right _ _))
  have h7 : max ‖z * z‖ η ≤ ‖z‖ ^ 2 + (1 - (15 / 16) ^ 2) * θ ^ 2 := by
    refine max_le (by rw [h3]; nlinarith [sq_nonneg θ]) ?_
    linarith
  rw [h3] at h2
  have h8 := sq_nonneg θ
  linarith

omit hsc in
theorem log_up (ht : Fit θ p t α) {z : ℂ} (h1 : ‖z‖ ≤ 2 ^ t) (h2 : 1 ≤ ‖z‖ * 2 ^ t) : ‖F.log z‖ ≤ 2 ^ 8 := by
  have hz : 0 < ‖z‖ := by
    rcases (norm_nonneg z).lt_or_eq with h | h
    · exact h
    · rw [← h] at h2; norm_num at h2
  have e := hF.log z (norm_pos_iff.mp hz)
  have h3 := norm_sub_norm_le (F.log z) (Complex.log z)
  have l2 : Real.log 2 ≤ 1 := by
    have := Real.log_le_sub_one_of_pos (x := 2) (by norm_num); linarith
  have l2' : 0 ≤ Real.log 2 := Real.log_nonneg (by norm_num)
  have hp : (0 : ℝ) < 2 ^ t := by positivity
  have ht0 : (0 : ℝ) ≤ t := Nat.cast_nonneg t
  have ht1 : (t : ℝ) ≤ 190 := by exact_mod_cast ht.small
  have h4 : |Real.log ‖z‖| ≤ t := by
    rw [abs_le]
    constructor
    · have h5 : -Real.log ‖z‖ ≤ Real.log (2 ^ t) := by
        rw [← Real.log_inv]
        refine Real.log_le_log (by positivity) ?_
        rw [inv_le_iff_one_le_mul₀ hz]
        linarith
      rw [Real.log_pow] at h5
      nlinarith
    · have h5 := Real.log_le_log hz h1
      rw [Real.log_pow] at h5
      nlinarith
  have h5 : ‖Complex.log z‖ ≤ t + 4 := by
    refine (Complex.norm_le_abs_re_add_abs_im _).trans ?_
    rw [Complex.log_re, Complex.log_im]
    have := Complex.abs_arg_le_pi z
    have := Real.pi_le_four
    linarith
  have h6 : u * max ‖Complex.log z‖ η ≤ 1 / 16 * (t + 4) :=
    mul_le_mul hF.small (max_le h5 (by linarith [hF.eta1])) (hF.eta.trans (le_max_right _ _)) (by norm_num)
  have h7 : ((2 : ℝ)) ^ 8 = 256 := by norm_num
  rw [h7]
  linarith

/-- What the operations use of two points at a distance. -/
structure Apart (F : Flt) (ρ : ℝ) (t : ℕ) (x y : ℂ) : Prop where
  up : ‖F.csub x y‖ ≤ 2 ^ t
  lo : 1 ≤ ‖F.csub x y‖ * 2 ^ t
  rho : ρ ≤ ‖F.csub x y‖
  log : ‖F.log (F.csub x y)‖ ≤ 2 ^ 8
  log' : ‖F.log (-F.csub x y)‖ ≤ 2 ^ 8
  sq : 1 ≤ ‖F.mul (F.csub x y) (F.csub x y)‖ * 2 ^ (2 * t + 1)
  sq' : ρ ≤ ‖F.mul (F.csub x y) (F.csub x y)‖

theorem apart (ht : Fit θ p t α) {x y : ℂ} (h : θ ≤ ‖x - y‖) (h' : ‖x - y‖ ≤ 2 / θ) : Apart F ρ t x y := by
  have h0 := hsc.th0
  have h1 := hsc.th1
  have k1 := csub_up hF hsc ht h'
  have k2 := csub_lo hF hsc h
  have hp : (0 : ℝ) < 2 ^ t := by positivity
  have k3 : 1 ≤ ‖F.csub x y‖ * 2 ^ t := by
    have := mul_le_mul_of_nonneg_right k2 hp.le
    have := ht.th
    linarith
  have k4 := mul_lo hF hsc k2
  have hr := hsc.rho
  refine ⟨k1, k3, by nlinarith, log_up hF ht k1 k3, log_up hF ht (by rwa [norm_neg]) (by rwa [norm_neg]), ?_, by nlinarith⟩
  have hq : (2 : ℝ) ^ (2 * t + 1) = 2 * (2 ^ t) ^ 2 := by rw [pow_succ, pow_mul, ← pow_mul, mul_comm 2 t, pow_mul]; ring
  have e1 : 4 ^ 2 ≤ (θ * 2 ^ t) ^ 2 := pow_le_pow_left₀ (by norm_num) ht.th 2
  rw [mul_pow] at e1
  rw [hq]
  have := mul_le_mul_of_nonneg_right k4 (by positivity : (0 : ℝ) ≤ 2 * (2 ^ t) ^ 2)
  linarith

end

/-! ## Coefficients -/

section
variable {r : Box 2} {h : ℕ} {n : ℕ} {e : Exp2} {S : List (Source 2)}

theorem inv_th (hsc : Scale η ρ θ τ p) (ht : Fit θ p t α) : 1 / θ ≤ 2 ^ t / 4 := by
  rw [div_le_iff₀ hsc.th0]; linarith [ht.th]

theorem len_up (hsc : Scale η ρ θ τ p) (hsp : Lo.Span θ r h) (hr : 0 < r.len) : r.len ≤ 1 / θ / 2 := by
  have h3 := hsp.hi
  rw [le_inv_comm₀ hsc.th0 (by linarith)] at h3
  rw [one_div]; linarith

theorem rad_up (hsc : Scale η ρ θ τ p) (ht : Fit θ p t α) (hsp : Lo.Span θ r h) (hr : 0 < r.len) (k : ℕ) : Fl.rad r k ≤ 2 ^ t := by
  have h1 := Fl.side_anti (n := k) hr (Nat.zero_le _)
  rw [Fl.side_zero] at h1
  have h2 := len_up hsc hsp hr
  have h3 := inv_th hsc ht
  have h4 : (0 : ℝ) < 2 ^ t := by positivity
  unfold Fl.rad
  linarith

theorem two_up (hsc : Scale η ρ θ τ p) (hsp : Lo.Span θ r h) (hr : 0 < r.len) : 4 * r.len ≤ 2 / θ := by
  have h2 := len_up hsc hsp hr
  have : 2 / θ = 2 * (1 / θ) := by ring
  linarith

theorem logB_up (hsc : Scale η ρ θ τ p) (ht : Fit θ p t α) (hsp : Lo.Span θ r h) (hr : 0 < r.len) : Fl.logB r h + 11 ≤ 2 ^ 10 := by
  have h0 := hsc.th0
  have l2 : Real.log 2 ≤ 1 := by
    have := Real.log_le_sub_one_of_pos (x := 2) (by norm_num); linarith
  have l2' : 0 ≤ Real.log 2 := Real.log_nonneg (by norm_num)
  have ht0 : (0 : ℝ) ≤ t := Nat.cast_nonneg t
  have ht1 : (t : ℝ) ≤ 190 := by exact_mod_cast ht.small
  have hp : (0 : ℝ) < 2 ^ t := by positivity
  have h1 := len_up hsc hsp hr
  have h2 := inv_th hsc ht
  have h3 : θ ≤ r.len / 2 ^ h := hsp.side hr le_rfl
  have h4 : r.len / 2 ^ h ≤ r.len := div_le_self hr.le (one_le_pow₀ (by norm_num))
  have hth : 1 ≤ θ * 2 ^ t := by linarith [ht.th]
  have h5 : |Real.log r.len| ≤ t := by
    rw [abs_le]
    constructor
    · have h5 : -Real.log r.len ≤ Real.log (2 ^ t) := by
        rw [← Real.log_inv]
        refine Real.log_le_log (by positivity) ?_
        rw [inv_le_iff_one_le_mul₀ hr]
        nlinarith
      rw [Real.log_pow] at h5
      nlinarith
    · have h5 := Real.log_le_log hr (by linarith : r.len ≤ 2 ^ t)
      rw [Real.log_pow] at h5
      nlinarith
  have h6 : h ≤ 2 * t := by
    rw [le_div_iff₀ (by positivity)] at h3
    have h7 : (2 : ℝ) ^ h ≤ 2 ^ (2 * t) := by
      have e : (2 : ℝ) ^ (2 * t) = 2 ^ t * 2 ^ t := by rw [two_mul, pow_add]
      have : (2 : ℝ) ^ h ≤ θ * 2 ^ t * 2 ^ h := le_mul_of_one_le_left (by positivity) hth
      rw [e]
      have : θ * 2 ^ h * 2 ^ t ≤ r.len * 2 ^ t := mul_le_mul_of_nonneg_right h3 hp.le
      have : r.len * 2 ^ t ≤ 2 ^ t * 2 ^ t := mul_le_mul_of_nonneg_right (by linarith) hp.le
      linarith
    exact (pow_le_pow_iff_right₀ (by norm_num)).mp h7
  have h6' : (h : ℝ) ≤ 2 * t := by exact_mod_cast h6
  unfold Fl.logB
  have : (2 : ℝ) ^ 10 = 1024 := by norm_num
  linarith

theorem coeff_me {c : ℂ} {a : ℕ → ℂ} {A R : ℝ} (H : Fl.AppM u n e c p a A R) (hn : (1 + u) ^ n ≤ 2) (hA : A ≤ 2 ^ α) (hA0 : 0 ≤ A)
    (hR0 : 0 ≤ R) (hR : R ≤ 2 ^ t) : ∀ i < e.coeffs.size, ‖e.coeffs.val i‖ ≤ 2 ^ coExp p t α := by
  intro i hi
  rw [H.size] at hi
  refine (H.ap i (by omega)).norm.trans ?_
  have h1 : R ^ i ≤ (2 ^ t) ^ p :=
    (pow_le_pow_left₀ hR0 hR i).trans (pow_le_pow_right₀ (one_le_pow₀ (by norm_num)) (by omega))
  have h2 : A * R ^ i ≤ 2 ^ α * (2 ^ t) ^ p := mul_le_mul hA h1 (by positivity) (by positivity)
  calc (1 + u) ^ n * (A * R ^ i) ≤ 2 * (2 ^ α * (2 ^ t) ^ p) := mul_le_mul hn h2 (by positivity) (by norm_num)
    _ = 2 ^ (α + p * t + 1) := by rw [pow_succ, pow_add, mul_comm p t, pow_mul]; ring
    _ ≤ _ := pow_le_pow_right₀ (by norm_num) (by unfold coExp; omega)

theorem coeff_le {c : ℂ} {k : ℕ} (hsc : Scale η ρ θ τ p) (ht : Fit θ p t α) (hsp : Lo.Span θ r h) (hr : 0 < r.len) (hk : k ≤ h)
    (H : Lo.LocalOf u θ τ p r h c k n e S) (hn : (1 + u) ^ n ≤ 2) (hA : totalStrength S ≤ 2 ^ α) :
    e.order = p ∧ e.center = c ∧ e.coeffs.size = p + 1 ∧ ∀ i < e.coeffs.size, ‖e.coeffs.val i‖ ≤ 2 ^ coExp p t α := by
  obtain ⟨b, H, -⟩ := H.app
  refine ⟨H.order, H.center, H.size, fun i hi => ?_⟩
  rw [H.size] at hi
  obtain ⟨N, n0, n1, -, n3, -⟩ := H.maj
  have hR := hsp.rad hr hk
  have hR0 : 0 < Fl.rad r k := Fl.rad_pos hr k
  have hN : ∀ j ≤ p, 0 ≤ N j := fun j hj => by
    rcases Nat.eq_zero_or_pos j with rfl | h0
    · exact n0.nonneg
    · exact (n1 j h0 hj).nonneg
  have hv : ‖e.coeffs.val i‖ ≤ (1 + u) ^ n * N i := by
    rcases Nat.eq_zero_or_pos i with rfl | h0
    · exact n0.2.2
    · exact (n1 i h0 (by omega)).norm
  have hM : N i * Fl.rad r k ^ i ≤ 2 ^ α * 2 ^ 10 := by
    have h1 : N i * Fl.rad r k ^ i ≤ ∑ j ∈ range (p + 1), N j * Fl.rad r k ^ j :=
      single_le_sum (f := fun j => N j * Fl.rad r k ^ j) (fun j hj => mul_nonneg (hN j (by have := mem_range.mp hj; omega)) (by positivity))
        (mem_range.mpr hi)
    refine h1.trans (n3.trans (mul_le_mul hA (logB_up hsc ht hsp hr) ?_ (by positivity)))
    linarith [Fl.logB_nonneg (r := r) (h := h)]
  have hone : 1 ≤ Fl.rad r k * 2 ^ t := by
    have := mul_le_mul_of_nonneg_right hR (by positivity : (0 : ℝ) ≤ 2 ^ t)
    linarith [ht.th]
  have hNi : N i ≤ 2 ^ α * 2 ^ 10 * (2 ^ t) ^ p := by
    have e1 : 1 ≤ (Fl.rad r k * 2 ^ t) ^ i := one_le_pow₀ hone
    rw [mul_pow] at e1
    have e2 : N i ≤ N i * (Fl.rad r k ^ i * (2 ^ t) ^ i) := le_mul_of_one_le_right (hN i (by omega)) e1
    have e3 : ((2 : ℝ) ^ t) ^ i ≤ (2 ^ t) ^ p := pow_le_pow_right₀ (one_le_pow₀ (by norm_num)) (by omega)
    calc N i ≤ N i * Fl.rad r k ^ i * (2 ^ t) ^ i := by rw [mul_assoc]; exact e2
      _ ≤ 2 ^ α * 2 ^ 10 * (2 ^ t) ^ p := mul_le_mul hM e3 (by positivity) (by positivity)
  calc ‖e.coeffs.val i‖ ≤ (1 + u) ^ n * N i := hv
    _ ≤ 2 * (2 ^ α * 2 ^ 10 * (2 ^ t) ^ p) := mul_le_mul hn hNi (hN i (by omega)) (by norm_num)
    _ = 2 ^ (α + 10 + t * p + 1) := by rw [pow_succ (2 : ℝ) (α + 10 + t * p), pow_add _ (α + 10), pow_add _ α, pow_mul]; ring
    _ ≤ _ := pow_le_pow_right₀ (by norm_num) (by unfold coExp; rw [mul_comm p t]; omega)

end

/-! ## The laws of the passes -/

section
variable {T : PTree} {cen : Path → Vec 2} {src : Path → List (Source 2)}

/-- What the operations use of the tree. -/
structure Placed (F : Flt) (ρ : ℝ) (t α : ℕ) (T : PTree) (cen : Path → Vec 2) (src : Path → List (Source 2)) : Prop where
  four : T.c = 2 ^ 2
  mid : ∀ π, T.Mem π → Mod (cen π)
  own : ∀ π, T.Mem π → ∀ s ∈ src π, Mod s.pos ∧ ‖F.csub (toC s.pos) (toC (cen π))‖ ≤ 2 ^ t ∧ |s.q| ≤ 2 ^ α
  up : ∀ i τ, T.Mem (i :: τ) → ‖F.csub (toC (cen (i :: τ))) (toC (cen τ))‖ ≤ 2 ^ t
  down : ∀ i τ, T.Mem (i :: τ) → ‖F.csub (toC (cen τ)) (toC (cen (i :: τ)))‖ ≤ 2 ^ t
  inter : ∀ π, T.Mem π → ∀ ν ∈ T.inter π, T.Mem ν ∧ Apart F ρ t (toC (cen ν)) (toC (cen π))
  card : ∀ π, T.Mem π → (T.inter π).length ≤ 2 ^ 20
  x : ∀ π, T.Mem π → ∀ ν ∈ T.xl π, T.Mem ν ∧ ∀ s ∈ src ν, Apart F ρ t (toC s.pos) (toC (cen π))
  num : ∀ π, T.Mem π → (src π).length ≤ 2 ^ 48

/-- What the operations use of an expansion. -/
structure Bounded (p a : ℕ) (c : Vec 2) (f : Exp2) : Prop where
  order : f.order = p
  center : f.center = toC c
  size : f.coeffs.size = p + 1
  le : ∀ i < f.coeffs.size, ‖f.coeffs.val i‖ ≤ 2 ^ a

theorem EHi.mono {m b n c : ℕ} {e : ExpD} {f : Exp2} (h : EHi m b e f) (hm : m ≤ n) (hb : b ≤ c) : EHi n c e f :=
  ⟨h.order, h.center, ⟨h.coeffs.1, fun i hi => (h.coeffs.2 i hi).mono hm hb⟩, h.mod⟩

theorem bigN {k : ℕ} (h : k ≤ 930) : 2 ^ 20 * (k + 1) ≤ 2 ^ 48 := (Nat.mul_le_mul_left _ (by omega : k + 1 ≤ 2 ^ 10)).trans (by norm_num)

/-- With `double`s the passes compute the expansions `L` describes, if these are bounded. -/
noncomputable def hiLaws (h64 : Is64 F) (hF : F.Low u η ρ) (hlog : LogIs log F) (ht : Fit θ p t α) (Y : Placed F ρ t α T cen src)
    (L : Rel.PassLaws (Fl.kit F) p T cen src) (hcov : ∀ b, L.cov b → BinomialTable.Good b ∧ p ≤ BinomialTable.maxOrder b)
    (hME : ∀ π f, T.Mem π → L.ME π f → Bounded p (coExp p t α) (cen π) f)
    (hLX : ∀ π j f, T.Mem π → j ≤ 2 + (T.xl π).length → L.LX π j f → Bounded p (coExp p t α) (cen π) f) :
    Rel.PassLaws (kit log) p T cen src where
  good := L.good
  cov := L.cov
  ME π e := ∃ f, L.ME π f ∧ EHi 1 (coExp p t α) e f
  LX π j e := ∃ f, L.LX π j f ∧ EHi 1 (coExp p t α) e f
  cov_good := L.cov_good
  leNew := by
    intro b π hπ hb
    obtain ⟨b', f, h1, h2, h3, h4⟩ := L.leNew b π hπ hb
    obtain ⟨⟨b'', e⟩, k1, ⟨k2, k3⟩, -⟩ := new_hi (m := 1) (B := coExp p t α) (Y.mid π hπ) p _ h1
    dsimp only at k2 k3
    subst k2
    exact ⟨b'', e, k1, h2, h3, f, h4, k3⟩
  leaf := by
    intro b π hb hπ hl
    obtain ⟨f, h1, h2⟩ := L.leaf b π hb hπ hl
    have hr := ht.room
    have hn := Y.num π hπ
    obtain ⟨⟨b'', e⟩, k1, k2, k3⟩ := meOfSources_hi h64 (t := t) (a := α) (P := pwExp p t) (B := coExp p t α + 2 * pwExp p t + 3 * p + 11) (Y.mid π hπ) (Y.own π hπ)
      (Nat.mul_le_mul (by omega) (by omega)) (by unfold coExp; omega) (by omega) (by omega) _ h1
    dsimp only at k2 k3
    subst k2
    exact ⟨e, k1, f, h2, k3.rebound (hME π f hπ h2).le⟩
  node := by
    refine fun (b : BinomialTable) π (f : ℕ → ExpD) hb hπ hl hf => ?_
    have hk : ∀ i < 2 ^ 2, T.Mem (i :: π) := fun i hi => hπ.cons hl (by rw [Y.four]; exact hi)
    have hr := ht.room
    have : Nonempty Exp2 := ⟨Exp2.empty⟩
    have hf : ∀ i < 2 ^ 2, ∃ f' : Exp2, L.ME (i :: π) f' ∧ EHi 1 (coExp p t α) (f i) f' := hf
    choose! f' hf' using hf
    obtain ⟨g, h1, h2⟩ := L.node b π f' hb hπ hl fun i hi => (hf' i hi).1
    have h1 : Fl.meOfMes F b (cen π) ((List.range (2 ^ 2)).map f') = .ok (b, g) := h1
    have hbb := hcov b hb
    obtain ⟨⟨b'', e⟩, k1, k2, k3⟩ := meOfMes_hi h64 (a := coExp p t α) (P := pwExp p t) (B := coExp p t α + 2 * pwExp p t + 3 * p + 11)
      hbb.1 hbb.2 (Y.mid π hπ) (es := (List.range (2 ^ 2)).map f) (fs := (List.range (2 ^ 2)).map f') (by
        rw [List.forall₂_map_left_iff, List.forall₂_map_right_iff, List.forall₂_same]
        exact fun i hi => (hf' i (List.mem_range.mp hi)).2) (by
        intro x hx
        obtain ⟨i, hi, rfl⟩ := List.mem_map.mp hx
        have hi := List.mem_range.mp hi
        have := hME _ _ (hk i hi) (hf' i hi).1
        exact ⟨this.order, by rw [this.center]; exact Y.up i π (hk i hi)⟩)
      (Nat.mul_le_mul (by omega) (by omega)) (by omega) (by omega) (by
        have := bigN (k := p) (by omega)
        rw [List.length_map, List.length_range]; omega) _ h1
    dsimp only at k2 k3
    subst k2
    exact ⟨e, k1, g, h2, k3.rebound (hME π g hπ h2).le⟩
  l2l := by
    rintro b i τ e0 eτ hb hπ ⟨f0, h0, h0'⟩ ⟨fτ, hτ, hτ'⟩
    have hr := ht.room
    obtain ⟨s, g1, g2, h1, h2, h3⟩ := L.l2l b i τ f0 fτ hb hπ h0 hτ
    have B0 := hLX _ _ _ hπ.tail le_rfl hτ
    obtain ⟨⟨b'', e⟩, k1, k2, k3⟩ := leOfLe_hi h64 (P := pwExp p t) (B := coExp p t α + 2 * pwExp p t + 3 * p + 11) (Y.mid _ hπ) hτ'
      (by rw [B0.center]; exact Y.down i τ hπ) (by rw [B0.order]; exact Nat.mul_le_mul (by omega) (by omega)) (by omega) (by omega) _ h1
    dsimp only at k2 k3
    subst k2
    obtain ⟨e', k4, k5⟩ := addEq_hi h64 (h0'.mono le_rfl (by omega : _ ≤ coExp p t α + 2 * pwExp p t + 3 * p + 11)) k3 (by norm_num) (by omega) _ h2
    refine ⟨?_, e, e', k1, k4, g2, h3, k5.rebound (hLX _ _ _ hπ (by omega) h3).le⟩
    show eτ.coeffs.size ≠ 0
    rw [hτ'.coeffs.1]
    exact s
  m2l := by
    refine fun (b : BinomialTable) π (e0 : ExpD) (f : Path → ExpD) hb hπ he0 hne hf => ?_
    obtain ⟨f0, h0, h0'⟩ := he0
    have hr := ht.room
    have : Nonempty Exp2 := ⟨Exp2.empty⟩
    have hf : ∀ ν ∈ T.inter π, ∃ f' : Exp2, L.ME ν f' ∧ EHi 1 (coExp p t α) (f ν) f' := hf
    choose! f' hf' using hf
    obtain ⟨g1, g2, h1, h2, h3⟩ := L.m2l b π f0 f' hb hπ h0 hne fun ν hν => (hf' ν hν).1
    have h1 : Fl.leOfMes F b (cen π) ((T.inter π).map f') = .ok (b, g1) := h1
    have hbb := hcov b hb
    have hbig := bigN (k := p) (by omega)
    have hcard : (T.inter π).length * (p + 1) ≤ 2 ^ 48 := (Nat.mul_le_mul_right _ (Y.card π hπ)).trans hbig
    obtain ⟨⟨b'', e⟩, k1, k2, k3⟩ := leOfMes_hi h64 hF hlog (a := coExp p t α) (t := t) (g := 8) (P := pwExp p t) (B := coExp p t α + 2 * pwExp p t + 3 * p + 11)
      hbb.1 hbb.2 (Y.mid π hπ) (es := (T.inter π).map f) (fs := (T.inter π).map f') (by
        rw [List.forall₂_map_left_iff, List.forall₂_map_right_iff, List.forall₂_same]
        exact fun i hi => (hf' i hi).2) (by
        intro x hx
        obtain ⟨ν, hν, rfl⟩ := List.mem_map.mp hx
        obtain ⟨m1, m2⟩ := Y.inter π hπ ν hν
        have := hME _ _ m1 (hf' ν hν).1
        rw [this.center]
        exact ⟨this.order, m2.up, m2.lo, m2.rho, m2.log'⟩)
      ht.small (Nat.mul_le_mul (by omega) (by omega)) (by omega) (by omega) (by rw [List.length_map]; omega) _ h1
    dsimp only at k2 k3
    subst k2
    rw [List.length_map] at k3
    obtain ⟨e', k4, k5⟩ := addEq_hi h64 (h0'.mono le_rfl (by omega : _ ≤ coExp p t α + 2 * pwExp p t + 3 * p + 11)) k3 (by omega) (by omega) _ h2
    exact ⟨e, e', k1, k4, g2, h3, k5.rebound (hLX _ _ _ hπ (by omega) h3).le⟩
  m2l_nil := by
    rintro π e0 hπ ⟨f0, h0, h0'⟩ hn
    exact ⟨f0, L.m2l_nil π f0 hπ h0 hn, h0'⟩
  x := by
    rintro b π j ν e0 hb hπ hj ⟨f0, h0, h0'⟩
    have hr := ht.room
    obtain ⟨g1, g2, h1, h2, h3⟩ := L.x b π j ν f0 hb hπ hj h0
    obtain ⟨m1, m2⟩ := Y.x π hπ ν (List.mem_of_getElem? hj)
    have hn := Y.num ν m1
    obtain ⟨⟨b'', e⟩, k1, k2, k3⟩ := leOfSources_hi h64 hF hlog (t := t) (a := α) (g := 8) (P := pwExp p t) (B := coExp p t α + 2 * pwExp p t + 3 * p + 11)
      (Y.mid π hπ) (S := src ν) (fun s hs => ⟨(Y.own ν m1 s hs).1, (m2 s hs).up, (Y.own ν m1 s hs).2.2, (m2 s hs).lo, (m2 s hs).rho, (m2 s hs).log'⟩)
      ht.small (Nat.mul_le_mul (by omega) (by omega)) (by unfold coExp; omega) (by omega) (by omega) _ h1
    dsimp only at k2 k3
    subst k2
    obtain ⟨e', k4, k5⟩ := addEq_hi h64 (h0'.mono le_rfl (by omega : _ ≤ coExp p t α + 2 * pwExp p t + 3 * p + 11)) k3 (by omega) (by omega) _ h2
    exact ⟨e, e', k1, k4, g2, h3, k5.rebound (hLX _ _ _ hπ (by have := (List.getElem?_eq_some_iff.mp hj).1; omega) h3).le⟩
  zero := by
    rintro π e hπ hl ⟨f, h0, h1⟩
    exact ⟨f, L.zero π f hπ hl h0, h1⟩

end

end FMM.D2.Hi
