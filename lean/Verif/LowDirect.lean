import Verif.LowLaws
import Verif.FltDirect

/-!
# Direct sums with gradual underflow

The error bounds of `FltDirect`, for operations with a floor: every source is at the point of evaluation or at a distance of at
least `θ`.
-/

namespace FMM.Lo
open Fl

/-- The source is at `x`, or its distance is in the range of the scale. -/
def Clear (θ : ℝ) (x : Vec 2) (s : Source 2) : Prop := s.pos = x ∨ θ ≤ dist2 s.pos x ∧ dist2 s.pos x ≤ 2 / θ

theorem Clear.ne {θ : ℝ} {x : Vec 2} {s : Source 2} (h : Clear θ x s) (hx : s.pos ≠ x) :
    θ ≤ dist2 s.pos x ∧ dist2 s.pos x ≤ 2 / θ := h.resolve_left hx

theorem toC_sign' {u : ℝ} {n : ℕ} {M : ℝ} {v : Vec 2} {z : ℂ} (grav : Bool) (h : Ap u n M (toC v) z) :
    Ap u n M (toC (if grav then v else Vec.neg v)) (sgn grav * z) := by
  cases grav
  · have e : toC (Vec.neg v) = -toC v := by
      apply Complex.ext <;> simp [toC, Vec.neg, Vec.scale]
    have h1 := h.neg
    rw [← e] at h1
    simpa only [sgn, Bool.false_eq_true, if_false, Complex.ofReal_neg, Complex.ofReal_one, neg_mul, one_mul] using h1
  · simpa [sgn] using h

/-- One more rounding above the floor. -/
theorem roundl {E : Type*} [NormedAddCommGroup E] {u η : ℝ} {n : ℕ} {M : ℝ} {x y y' : E} (hu : 0 ≤ u) (h : Ap u n M y x)
    (hM : η ≤ M) (hr : ‖y' - y‖ ≤ u * max ‖y‖ η) : Ap u (n + 1) M y' x := by
  refine ⟨?_, h.2⟩
  have h1 : ‖y' - x‖ ≤ ‖y' - y‖ + ‖y - x‖ := by
    have := norm_add_le (y' - y) (y - x)
    rwa [sub_add_sub_cancel] at this
  have h4 : max ‖y‖ η ≤ (1 + u) ^ n * M := max_le h.norm (hM.trans (le_mul_of_one_le_left h.nonneg (one_le_pow_u hu n)))
  have h2 := mul_le_mul_of_nonneg_left h4 hu
  have h3 := h.1
  rw [pow_succ]
  nlinarith

theorem Flr.listSum {η : ℝ} {α : Type} (f : α → ℝ) (l : List α) (h : ∀ a ∈ l, Flr η (f a)) (h0 : ∀ a ∈ l, 0 ≤ f a) :
    Flr η (l.map f).sum := by
  induction l with
  | nil => exact Or.inl (by simp)
  | cons a l ih =>
    rw [List.map_cons, List.sum_cons]
    refine (h a (by simp)).add (ih (fun b hb => h b (by simp [hb])) fun b hb => h0 b (by simp [hb])) (h0 a (by simp)) ?_
    exact List.sum_nonneg fun b hb => by
      obtain ⟨c, hc, rfl⟩ := List.mem_map.mp hb
      exact h0 c (by simp [hc])

section
variable {F : Flt} {u η ρ θ τ : ℝ} {p : ℕ} (hF : F.Low u η ρ) (hs : Scale η ρ θ τ p)
include hF hs

/-- The computed distance. -/
theorem dist_ap {a b : Vec 2} (h : θ ≤ dist2 a b) : Ap u 2 (dist2 a b) (F.nrm (F.vsub a b)) (dist2 a b) := by
  have h1 : Ap u 1 (dist2 a b) (Vec.norm (F.vsub a b)) (dist2 a b) := by
    refine ⟨?_, by rw [Real.norm_eq_abs, abs_of_nonneg (dist2_nonneg a b)]⟩
    rw [pow_one, add_sub_cancel_left, norm_eq_toC, toC_vsub, ← norm_toC_sub, Real.norm_eq_abs]
    refine (abs_norm_sub_norm_le _ _).trans (hF.csub_rel ?_)
    rw [norm_toC_sub]; exact hs.le h
  refine roundl hF.nonneg h1 (hs.le h) ?_
  rw [Real.norm_eq_abs, Real.norm_eq_abs]
  refine (hF.nrm _).trans (le_of_eq ?_)
  rw [norm_eq_toC, abs_norm]

omit hs in
theorem vsub_self (a : Vec 2) : F.vsub a a = 0 := by
  funext i
  show F.rnd (a i - a i) = 0
  rw [sub_self, hF.rnd0]

omit hs in
theorem dist_zero (a : Vec 2) : F.nrm (F.vsub a a) = 0 := by
  rw [vsub_self hF]
  refine hF.nrm0 _ ?_
  rw [norm_eq_toC]
  have : toC (0 : Vec 2) = 0 := rfl
  rw [this, norm_zero]

omit hs in
theorem pow_small {k : ℕ} (hk : k ≤ 5) : (1 + u) ^ k ≤ 3 / 2 := by
  have h1 : (1 + u) ^ k ≤ (1 + 1 / 16) ^ k := pow_le_pow_left₀ (by linarith [hF.nonneg]) (by linarith [hF.small]) k
  have h2 : (1 + 1 / 16 : ℝ) ^ k ≤ (1 + 1 / 16) ^ 5 := pow_le_pow_right₀ (by norm_num) hk
  refine h1.trans (h2.trans ?_)
  norm_num

theorem dist_ne {a b : Vec 2} (h : θ ≤ dist2 a b) : 0 < F.nrm (F.vsub a b) ∧
    |Real.log (F.nrm (F.vsub a b)) - Real.log (dist2 a b)| ≤ (1 + u) ^ 4 - 1 :=
  Flt.Ok.log_ratio hF.nonneg hF.small (hs.th0.trans_le h) 2 (pow_small hF (by omega)) (dist_ap hF hs h).1

omit hF in
/-- Majorants of the potentials are not below the floor. -/
theorem absTerm_flr (x : Vec 2) {s : Source 2} (hq : Flr τ |s.q|) : Flr η (absTerm x s) := by
  unfold absTerm
  split_ifs
  · exact Flr.zero
  · exact hs.str hq (k := 0) (by omega) (by simpa using by linarith [abs_nonneg (Real.log (dist2 s.pos x))])

omit hF in
theorem absPotential_flr (x : Vec 2) {S : List (Source 2)} (hq : ∀ s ∈ S, Flr τ |s.q|) : Flr η (absPotential S x) :=
  Flr.listSum _ _ (fun s h => absTerm_flr hs x (hq s h)) fun s _ => absTerm_nonneg x s

/-- One source away from the point of evaluation. -/
theorem potential_ne (grav safe : Bool) (s : Source 2) (x : Vec 2) (h : θ ≤ dist2 s.pos x) (hq : Flr τ |s.q|) :
    ∃ v, Fl.potential F grav safe s x = .ok v ∧ Ap u 6 (absTerm x s) v (directTerm grav x s) := by
  obtain ⟨h1, h2⟩ := dist_ne hF hs h
  have hne : s.pos ≠ x := fun e => by
    rw [e, (dist2_eq_zero_iff x x).mpr rfl] at h
    exact absurd h (not_le.mpr hs.th0)
  refine ⟨_, by unfold Fl.potential; simp only; rw [if_neg (by simp [h1.ne']), if_neg h1.ne'], ?_⟩
  unfold directTerm absTerm kernelSpec
  rw [if_neg hne, if_neg hne, if_pos rfl]
  refine Ap.sign grav ?_
  have h3 : Ap u 4 (|Real.log (dist2 s.pos x)| + 1) (Real.log (F.nrm (F.vsub s.pos x))) (Real.log (dist2 s.pos x)) := by
    refine ⟨?_, by rw [Real.norm_eq_abs]; linarith⟩
    rw [Real.norm_eq_abs]
    refine h2.trans ?_
    have := one_le_pow_u hF.nonneg 4
    exact le_mul_of_one_le_right (by linarith) (by linarith [abs_nonneg (Real.log (dist2 s.pos x))])
  have hl : 1 ≤ |Real.log (dist2 s.pos x)| + 1 := by linarith [abs_nonneg (Real.log (dist2 s.pos x))]
  have h4 := roundl hF.nonneg h3 (hs.one.trans hl) (y' := F.rlog (F.nrm (F.vsub s.pos x))) (hF.rlog _ h1)
  have h5 : Ap u 0 |s.q| s.q s.q := Ap.refl le_rfl
  exact hF.rrnd (h5.mul hF.nonneg h4) (hs.str hq (k := 0) (by omega) (by simpa using hl))

theorem potential_safe (grav : Bool) (s : Source 2) (x : Vec 2) (hc : Clear θ x s) (hq : Flr τ |s.q|) :
    ∃ v, Fl.potential F grav true s x = .ok v ∧ Ap u 6 (absTerm x s) v (directTerm grav x s) := by
  by_cases h : s.pos = x
  · refine ⟨0, ?_, ?_⟩
    · unfold Fl.potential
      rw [h, dist_zero hF]; simp
    · unfold directTerm absTerm
      rw [if_pos h, if_pos h]
      exact Ap.zero le_rfl hF.nonneg
  · exact potential_ne hF hs grav true s x (hc.ne h).1 hq

omit hs in
/-- Sequential summation. -/
theorem fold_ap {α : Type} (f : α → Outcome ℝ) (t M : α → ℝ) (m : ℕ) (S : List α)
    (h : ∀ s ∈ S, ∃ v, f s = .ok v ∧ Ap u m (M s) v (t s) ∧ Flr η (M s)) (n : ℕ) (hn : m ≤ n) (A a' a : ℝ) (ha : Ap u n A a' a)
    (hA : Flr η A) :
    ∃ v, S.foldlM (fun pot s => do
      let p ← f s
      .ok (F.rnd (pot + p))) a' = .ok v ∧ Ap u (n + S.length) (A + (S.map M).sum) v (a + (S.map t).sum) := by
  induction S generalizing n A a' a with
  | nil => exact ⟨a', rfl, by simpa using ha⟩
  | cons s S ih =>
    obtain ⟨v, hv, hv', hf⟩ := h s (by simp)
    have hf' := hA.add hf ha.nonneg hv'.nonneg
    have h1 := hF.rrnd (ha.add (hv'.mono hF.nonneg hn le_rfl)) hf'
    obtain ⟨w, hw, hw'⟩ := ih (fun s hs => h s (by simp [hs])) (n + 1) (by omega) _ _ _ h1 hf'
    refine ⟨w, ?_, ?_⟩
    · rw [List.foldlM_cons, hv, ok_bind, ok_bind, hw]
    · rw [List.map_cons, List.sum_cons, List.map_cons, List.sum_cons, ← add_assoc, ← add_assoc, List.length_cons]
      have : n + (S.length + 1) = n + 1 + S.length := by omega
      rw [this]; exact hw'

theorem potentialSum_safe (grav : Bool) (S : List (Source 2)) (x : Vec 2) (hc : ∀ s ∈ S, Clear θ x s)
    (hq : ∀ s ∈ S, Flr τ |s.q|) :
    ∃ v, Fl.potentialSum F grav true S x = .ok v ∧
      Ap u (S.length + 6) (absPotential S x) v (directPotential grav S x) := by
  obtain ⟨v, hv, hv'⟩ := fold_ap hF (fun s => Fl.potential F grav true s x) (directTerm grav x) (absTerm x) 6 S
    (fun s h => by
      obtain ⟨v, a, b⟩ := potential_safe hF hs grav s x (hc s h) (hq s h)
      exact ⟨v, a, b, absTerm_flr hs x (hq s h)⟩) 6 le_rfl 0 0 0 (Ap.zero le_rfl hF.nonneg) Flr.zero
  refine ⟨v, hv, ?_⟩
  rw [zero_add, zero_add, add_comm 6] at hv'
  exact hv'

theorem potentialSum_unsafe (grav : Bool) (S : List (Source 2)) (x : Vec 2) (hc : ∀ s ∈ S, Clear θ x s)
    (hq : ∀ s ∈ S, Flr τ |s.q|) (hS : ∀ s ∈ S, s.pos ≠ x) :
    ∃ v, Fl.potentialSum F grav false S x = .ok v ∧
      Ap u (S.length + 6) (absPotential S x) v (directPotential grav S x) := by
  obtain ⟨v, hv, hv'⟩ := fold_ap hF (fun s => Fl.potential F grav false s x) (directTerm grav x) (absTerm x) 6 S
    (fun s h => by
      obtain ⟨v, a, b⟩ := potential_ne hF hs grav false s x ((hc s h).ne (hS s h)).1 (hq s h)
      exact ⟨v, a, b, absTerm_flr hs x (hq s h)⟩) 6 le_rfl 0 0 0 (Ap.zero le_rfl hF.nonneg) Flr.zero
  refine ⟨v, hv, ?_⟩
  rw [zero_add, zero_add, add_comm 6] at hv'
  exact hv'

/-! ## Forces -/

omit hF in
theorem eta4 (hp0 : 0 < p) : 2 * η ≤ θ ^ 4 := by
  have h1 := hs.tpow (k := 4) (by omega)
  have h2 : (2 : ℝ) ≤ p + 1 := by exact_mod_cast (by omega : 2 ≤ p + 1)
  have h3 := mul_le_mul_of_nonneg_left h2 hs.eta
  have h4 := mul_le_of_le_one_left (pow_nonneg hs.th0.le 4) hs.tau1
  linarith

omit hF in
theorem eta_dist (hp0 : 0 < p) (h5 : θ ≤ 1 / 5) {D : ℝ} (hD : θ ≤ D) : 10 * η ≤ D ∧ 2 * η ≤ D ^ 2 := by
  have h1 := eta4 hs hp0
  have h0 := hs.th0
  have h2 : θ ^ 2 ≤ 1 / 25 := by nlinarith
  have h3 : θ ^ 3 ≤ 1 / 125 := by nlinarith
  constructor
  · have : θ ^ 4 = θ ^ 3 * θ := by ring
    nlinarith
  · have e : θ ^ 4 = θ ^ 2 * θ ^ 2 := by ring
    have : θ ^ 2 ≤ D ^ 2 := pow_le_pow_left₀ h0.le hD 2
    nlinarith [sq_nonneg θ]

/-- The computed square of the distance. -/
theorem normSq_ap (hp0 : 0 < p) (h5 : θ ≤ 1 / 5) {a b : Vec 2} (h : θ ≤ dist2 a b) :
    Ap u 4 (dist2 a b ^ 2) (F.normSq (F.vsub a b)) (dist2 a b ^ 2) := by
  obtain ⟨g1, g2⟩ := eta_dist hs hp0 h5 h
  have hu := hF.nonneg
  have hu1 := hF.small
  have hη := hF.eta
  have e : dist2 a b ^ 2 = (a 0 - b 0) ^ 2 + (a 1 - b 1) ^ 2 := by
    unfold dist2
    rw [Real.sq_sqrt (Finset.sum_nonneg fun j _ => sq_nonneg _), Fin.sum_univ_two]
  have hD0 : 0 < dist2 a b := hs.th0.trans_le h
  set D := dist2 a b
  have key : ∀ i, |F.rnd (F.vsub a b i * F.vsub a b i) - (a i - b i) ^ 2|
      ≤ 8 / 5 * u * (|a i - b i| + η) ^ 2 + u / 2 * η := by
    intro i
    set δ := a i - b i with hδ
    have h1 : |F.vsub a b i - δ| ≤ u / 2 * (|δ| + η) := by
      refine (hF.rnd δ).trans (mul_le_mul_of_nonneg_left (max_le (by linarith) (by linarith [abs_nonneg δ])) (by linarith))
    generalize F.vsub a b i = v at *
    have hm : 0 ≤ |δ| + η := by positivity
    have h2 : |v| ≤ (1 + u / 2) * (|δ| + η) := by
      have := abs_add_le (v - δ) δ
      rw [sub_add_cancel] at this
      linarith
    have h3 : |v * v - δ ^ 2| ≤ u / 2 * (|δ| + η) * ((2 + u / 2) * (|δ| + η)) := by
      have e1 : v * v - δ ^ 2 = (v - δ) * (v + δ) := by ring
      rw [e1, abs_mul]
      refine mul_le_mul h1 ?_ (abs_nonneg _) (by positivity)
      have := abs_add_le v δ
      linarith
    have h4 : v * v ≤ (1 + u / 2) ^ 2 * (|δ| + η) ^ 2 := by
      have := mul_self_le_mul_self (abs_nonneg v) h2
      rw [abs_mul_abs_self] at this
      linarith [this, (by ring : (1 + u / 2) * (|δ| + η) * ((1 + u / 2) * (|δ| + η)) = (1 + u / 2) ^ 2 * (|δ| + η) ^ 2)]
    have h5 : |F.rnd (v * v) - v * v| ≤ u / 2 * (v * v + η) := by
      refine (hF.rnd (v * v)).trans (mul_le_mul_of_nonneg_left (max_le ?_ ?_) (by linarith))
      · rw [abs_of_nonneg (mul_self_nonneg v)]; linarith
      · linarith [mul_self_nonneg v]
    have h6 := abs_sub_le (F.rnd (v * v)) (v * v) (δ ^ 2)
    have h7 : u / 2 * (v * v) ≤ u / 2 * ((1 + u / 2) ^ 2 * (|δ| + η) ^ 2) := mul_le_mul_of_nonneg_left h4 (by linarith)
    have h8 : u / 2 * (|δ| + η) * ((2 + u / 2) * (|δ| + η)) + u / 2 * ((1 + u / 2) ^ 2 * (|δ| + η) ^ 2)
        = u * ((1 + u / 4) + (1 + u / 2) ^ 2 / 2) * (|δ| + η) ^ 2 := by ring
    have h9 : (1 + u / 4) + (1 + u / 2) ^ 2 / 2 ≤ 8 / 5 := by nlinarith
    have h10 : u * ((1 + u / 4) + (1 + u / 2) ^ 2 / 2) * (|δ| + η) ^ 2 ≤ u * (8 / 5) * (|δ| + η) ^ 2 :=
      mul_le_mul_of_nonneg_right (mul_le_mul_of_nonneg_left h9 hu) (sq_nonneg _)
    linarith
  have hsum : Ap u 3 (D ^ 2) (F.rnd (F.vsub a b 0 * F.vsub a b 0) + F.rnd (F.vsub a b 1 * F.vsub a b 1)) (D ^ 2) := by
    refine ⟨?_, by rw [Real.norm_eq_abs, abs_of_nonneg (sq_nonneg D)]⟩
    rw [Real.norm_eq_abs]
    have k0 := key 0
    have k1 := key 1
    generalize F.rnd (F.vsub a b 0 * F.vsub a b 0) = w0 at *
    generalize F.rnd (F.vsub a b 1 * F.vsub a b 1) = w1 at *
    have h1 : |w0 + w1 - D ^ 2| ≤ |w0 - (a 0 - b 0) ^ 2| + |w1 - (a 1 - b 1) ^ 2| := by
      rw [e]
      have := abs_add_le (w0 - (a 0 - b 0) ^ 2) (w1 - (a 1 - b 1) ^ 2)
      refine le_trans (le_of_eq ?_) this
      congr 1; ring
    have e' : D ^ 2 = |a 0 - b 0| ^ 2 + |a 1 - b 1| ^ 2 := by rw [sq_abs, sq_abs]; exact e
    have p0 := abs_nonneg (a 0 - b 0)
    have p1 := abs_nonneg (a 1 - b 1)
    generalize |a 0 - b 0| = A at *
    generalize |a 1 - b 1| = B at *
    have hA : A ≤ D := abs_le_of_sq_le_sq' (by nlinarith) hD0.le |>.2
    have hB : B ≤ D := abs_le_of_sq_le_sq' (by nlinarith) hD0.le |>.2
    have h2 : (A + η) ^ 2 + (B + η) ^ 2 ≤ 3 / 2 * D ^ 2 := by nlinarith
    have h3 : 3 * u * D ^ 2 ≤ ((1 + u) ^ 3 - 1) * D ^ 2 := by
      refine mul_le_mul_of_nonneg_right ?_ (sq_nonneg D)
      have : (1 + u) ^ 3 - 1 = 3 * u + 3 * u ^ 2 + u ^ 3 := by ring
      rw [this]; nlinarith [pow_nonneg hu 3, sq_nonneg u]
    have h4 : 8 / 5 * u * ((A + η) ^ 2 + (B + η) ^ 2) ≤ 8 / 5 * u * (3 / 2 * D ^ 2) := mul_le_mul_of_nonneg_left h2 (by linarith)
    have h6 : u * η ≤ u * (D ^ 2 / 2) := mul_le_mul_of_nonneg_left (by linarith) hu
    nlinarith
  exact hF.rrnd hsum (Or.inr (by linarith))

theorem Ap_sub {a b : Vec 2} (h : θ ≤ dist2 a b) : Ap u 1 (dist2 a b) (toC (F.vsub a b)) (toC a - toC b) := by
  rw [toC_vsub]; exact hF.diff _ _ (by rw [norm_toC_sub]) (Or.inr (hs.le h))

omit hF in
/-- The quotient in the force of a source. -/
theorem quot_ge (h5 : θ ≤ 1 / 5) {D eps : ℝ} (hD : 0 < D) (h : D ≤ 2 / θ) (he : 0 ≤ eps) (he' : eps ≤ 1 / θ ^ 2) :
    θ ^ 3 ≤ (D ^ 2 + eps)⁻¹ := by
  have h0 := hs.th0
  rw [le_inv_comm₀ (by positivity) (by positivity)]
  have h1 : D ^ 2 ≤ (2 / θ) ^ 2 := pow_le_pow_left₀ hD.le h 2
  have e : (2 / θ) ^ 2 = 4 * (1 / θ ^ 2) := by field_simp; norm_num
  have e2 : (θ ^ 3)⁻¹ = 1 / θ ^ 2 * (1 / θ) := by field_simp
  have h6 : 5 ≤ 1 / θ := by rw [le_div_iff₀ h0]; linarith
  have h7 : 0 < 1 / θ ^ 2 := by positivity
  rw [e2]
  nlinarith

omit hF in
theorem absFieldTerm_flr (hp0 : 0 < p) (h5 : θ ≤ 1 / 5) (x : Vec 2) {s : Source 2} (hc : Clear θ x s) (hq : Flr τ |s.q|) {eps : ℝ}
    (he : 0 ≤ eps) (he' : eps ≤ 1 / θ ^ 2) : Flr η (absFieldTerm x eps s) := by
  unfold absFieldTerm
  split_ifs with h
  · exact Flr.zero
  · obtain ⟨h1, h2⟩ := hc.ne h
    have h3 := quot_ge hs h5 (hs.th0.trans_le h1) h2 he he'
    rw [div_eq_mul_inv, mul_assoc]
    refine hs.str hq (k := 4) (by omega) ?_
    have e : θ ^ 4 = θ ^ 3 * θ := by ring
    rw [e]
    exact mul_le_mul h3 h1 hs.th0.le ((pow_nonneg hs.th0.le 3).trans h3)

omit hF in
theorem absField_flr (hp0 : 0 < p) (h5 : θ ≤ 1 / 5) (x : Vec 2) {S : List (Source 2)} (hc : ∀ s ∈ S, Clear θ x s)
    (hq : ∀ s ∈ S, Flr τ |s.q|) {eps : ℝ} (he : 0 ≤ eps) (he' : eps ≤ 1 / θ ^ 2) : Flr η (absField S x eps) :=
  Flr.listSum _ _ (fun s h => absFieldTerm_flr hs hp0 h5 x (hc s h) (hq s h) he he') fun s _ => absFieldTerm_nonneg x he s

theorem forcefield_ne (hp0 : 0 < p) (h5 : θ ≤ 1 / 5) (grav safe : Bool) (s : Source 2) (x : Vec 2) (eps : ℝ) (he : 0 ≤ eps)
    (he' : eps ≤ 1 / θ ^ 2) (hc : Clear θ x s) (hq : Flr τ |s.q|) (h : s.pos ≠ x) :
    ∃ v, Fl.forcefield F grav safe s x eps = .ok v ∧
      Ap u 13 (absFieldTerm x eps s) (toC v) (toC (directFieldTerm grav x eps s)) := by
  obtain ⟨hd, hd'⟩ := hc.ne h
  have hfl := absFieldTerm_flr hs hp0 h5 x hc hq he he'
  unfold absFieldTerm at hfl
  rw [if_neg h, div_eq_mul_inv] at hfl
  have hr := dist2_pos h
  have h1 := normSq_ap hF hs hp0 h5 hd
  obtain ⟨g1, g2⟩ := eta_dist hs hp0 h5 hd
  have hη := hs.eta
  have hr2 : 0 < dist2 s.pos x ^ 2 := by positivity
  have h1' : F.normSq (F.vsub s.pos x) ≠ 0 := (Ap.invk hF.nonneg 4 (pow_small hF (by omega)) hr2.ne' (by
    have := h1.1
    rwa [Real.norm_eq_abs (dist2 s.pos x ^ 2), abs_of_pos hr2])).1
  have h2 : Ap u 5 (dist2 s.pos x ^ 2 + eps) (F.rnd (F.normSq (F.vsub s.pos x) + eps)) (dist2 s.pos x ^ 2 + eps) :=
    hF.rrnd (h1.add ((Ap.refl (u := u) (by rw [Real.norm_eq_abs, abs_of_nonneg he])).mono hF.nonneg (by omega) le_rfl))
      (Or.inr (by linarith))
  have hD : 0 < dist2 s.pos x ^ 2 + eps := by linarith
  obtain ⟨h3, h4⟩ := Ap.invk hF.nonneg 5 (pow_small hF (by omega)) hD.ne' (by
    have := h2.1
    rwa [Real.norm_eq_abs (dist2 s.pos x ^ 2 + eps), abs_of_pos hD])
  rw [Real.norm_eq_abs, abs_of_pos hD] at h4
  have h5' : Ap u 11 (|s.q| * (dist2 s.pos x ^ 2 + eps)⁻¹)
      (F.rnd (s.q / F.rnd (F.normSq (F.vsub s.pos x) + eps))) (s.q * (dist2 s.pos x ^ 2 + eps)⁻¹) := by
    have h0 : Ap u 0 |s.q| s.q s.q := Ap.refl le_rfl
    have := hF.rrnd (h0.mul hF.nonneg h4) (hs.str hq (k := 3) (by omega) (quot_ge hs h5 hr hd' he he'))
    rwa [← div_eq_mul_inv s.q (F.rnd _)] at this
  have h6 := hF.rsc h5' (Ap_sub hF hs hd) hfl
  rw [← toC_vscale] at h6
  refine ⟨_, by unfold Fl.forcefield; simp only; rw [if_neg (by simp [h1']), if_neg h3], ?_⟩
  have h7 := toC_sign' grav h6
  unfold directFieldTerm absFieldTerm
  rw [if_neg h, if_neg h, div_eq_mul_inv]
  convert h7 using 1
  unfold fieldSpec forceDenom
  rw [if_pos rfl, div_eq_mul_inv]
  generalize s.q * (dist2 s.pos x ^ 2 + eps)⁻¹ = w
  apply Complex.ext <;> simp [toC, mul_assoc]

theorem forcefield_safe (hp0 : 0 < p) (h5 : θ ≤ 1 / 5) (grav : Bool) (s : Source 2) (x : Vec 2) (eps : ℝ) (he : 0 ≤ eps)
    (he' : eps ≤ 1 / θ ^ 2) (hc : Clear θ x s) (hq : Flr τ |s.q|) :
    ∃ v, Fl.forcefield F grav true s x eps = .ok v ∧
      Ap u 13 (absFieldTerm x eps s) (toC v) (toC (directFieldTerm grav x eps s)) := by
  by_cases h : s.pos = x
  · refine ⟨Vec.fill 0, ?_, ?_⟩
    · have h2 : F.normSq (F.vsub x x) = 0 := by
        rw [vsub_self hF]
        simp [Flt.normSq, hF.rnd0]
      unfold Fl.forcefield
      rw [h]
      simp [h2]
    · unfold directFieldTerm absFieldTerm
      rw [if_pos h, if_pos h]
      exact Ap.zero le_rfl hF.nonneg
  · exact forcefield_ne hF hs hp0 h5 grav true s x eps he he' hc hq h

omit hs in
theorem foldC_ap {α : Type} (f : α → Outcome (Vec 2)) (t : α → Vec 2) (M : α → ℝ) (m : ℕ) (S : List α)
    (h : ∀ s ∈ S, ∃ v, f s = .ok v ∧ Ap u m (M s) (toC v) (toC (t s)) ∧ Flr η (M s)) (n : ℕ) (hn : m ≤ n) (A : ℝ) (a' a : Vec 2)
    (ha : Ap u n A (toC a') (toC a)) (hA : Flr η A) :
    ∃ v, S.foldlM (fun frc s => do
      let p ← f s
      .ok (F.vadd frc p)) a' = .ok v ∧
      Ap u (n + S.length) (A + (S.map M).sum) (toC v) (toC (a + (S.map t).sum)) := by
  induction S generalizing n A a' a with
  | nil => exact ⟨a', rfl, by simpa using ha⟩
  | cons s S ih =>
    obtain ⟨v, hv, hv', hf⟩ := h s (by simp)
    have hf' := hA.add hf ha.nonneg hv'.nonneg
    have h1 := hF.cadd ha (hv'.mono hF.nonneg hn le_rfl) hf'
    rw [← toC_vadd] at h1
    have e : toC a + toC (t s) = toC (a + t s) := by apply Complex.ext <;> simp [toC]
    rw [e] at h1
    obtain ⟨w, hw, hw'⟩ := ih (fun s hs => h s (by simp [hs])) (n + 1) (by omega) _ _ _ h1 hf'
    refine ⟨w, ?_, ?_⟩
    · rw [List.foldlM_cons, hv, ok_bind, ok_bind, hw]
    · rw [List.map_cons, List.sum_cons, List.map_cons, List.sum_cons, ← add_assoc, ← add_assoc, List.length_cons]
      have : n + (S.length + 1) = n + 1 + S.length := by omega
      rw [this]; exact hw'

theorem forcefieldSum_safe (hp0 : 0 < p) (h5 : θ ≤ 1 / 5) (grav : Bool) (S : List (Source 2)) (x : Vec 2) (eps : ℝ) (he : 0 ≤ eps)
    (he' : eps ≤ 1 / θ ^ 2) (hc : ∀ s ∈ S, Clear θ x s) (hq : ∀ s ∈ S, Flr τ |s.q|) :
    ∃ v, Fl.forcefieldSum F grav true S x eps = .ok v ∧
      Ap u (S.length + 13) (absField S x eps) (toC v) (toC (directField grav S x eps)) := by
  obtain ⟨v, hv, hv'⟩ := foldC_ap hF (fun s => Fl.forcefield F grav true s x eps) (directFieldTerm grav x eps)
    (absFieldTerm x eps) 13 S (fun s h => by
      obtain ⟨v, a, b⟩ := forcefield_safe hF hs hp0 h5 grav s x eps he he' (hc s h) (hq s h)
      exact ⟨v, a, b, absFieldTerm_flr hs hp0 h5 x (hc s h) (hq s h) he he'⟩) 13 le_rfl 0 (Vec.fill 0) 0
    (Ap.zero le_rfl hF.nonneg) Flr.zero
  refine ⟨v, hv, ?_⟩
  rw [zero_add, zero_add, add_comm 13] at hv'
  exact hv'

theorem forcefieldSum_unsafe (hp0 : 0 < p) (h5 : θ ≤ 1 / 5) (grav : Bool) (S : List (Source 2)) (x : Vec 2) (eps : ℝ) (he : 0 ≤ eps)
    (he' : eps ≤ 1 / θ ^ 2) (hc : ∀ s ∈ S, Clear θ x s) (hq : ∀ s ∈ S, Flr τ |s.q|) (hS : ∀ s ∈ S, s.pos ≠ x) :
    ∃ v, Fl.forcefieldSum F grav false S x eps = .ok v ∧
      Ap u (S.length + 13) (absField S x eps) (toC v) (toC (directField grav S x eps)) := by
  obtain ⟨v, hv, hv'⟩ := foldC_ap hF (fun s => Fl.forcefield F grav false s x eps) (directFieldTerm grav x eps)
    (absFieldTerm x eps) 13 S (fun s h => by
      obtain ⟨v, a, b⟩ := forcefield_ne hF hs hp0 h5 grav false s x eps he he' (hc s h) (hq s h) (hS s h)
      exact ⟨v, a, b, absFieldTerm_flr hs hp0 h5 x (hc s h) (hq s h) he he'⟩) 13 le_rfl 0 (Vec.fill 0) 0
    (Ap.zero le_rfl hF.nonneg) Flr.zero
  refine ⟨v, hv, ?_⟩
  rw [zero_add, zero_add, add_comm 13] at hv'
  exact hv'

end
end FMM.Lo
