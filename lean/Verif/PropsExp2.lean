import Verif.Exp2Bounds
import Verif.PropsTables
import Mathlib.Analysis.Calculus.Deriv.Comp
import Mathlib.Analysis.Calculus.FDeriv.RestrictScalars
import Mathlib.Analysis.Calculus.Deriv.Pow
import Mathlib.Analysis.Calculus.Deriv.Inv
import Mathlib.Analysis.Complex.Basic

/-!
# Properties of the 2D expansions: C23, C26-C33
-/

namespace FMM
open Finset

/-! ## Specification -/

/-- `bt` is a state which the process-wide binomial table can have: the result of some sequence of
`refresh` calls (orders up to 1029, the range of GSL's binomial coefficients). -/
def Reachable (bt : BinomialTable) : Prop :=
  ∃ h : List ℕ, (∀ o ∈ h, o ≤ 1029) ∧ BinomialTable.run h = .ok bt

/-- Sum of the absolute strengths. -/
noncomputable def strength {d : ℕ} (S : List (Source d)) : ℝ := (S.map fun s => |s.q|).sum

/-- Same order, centre, number of coefficients, and same coefficients. -/
def Exp2.Same (e f : Exp2) : Prop :=
  e.order = f.order ∧ e.center = f.center ∧ e.coeffs.size = f.coeffs.size ∧
    ∀ k < e.coeffs.size, e.coeffs.val k = f.coeffs.val k

/-! ## Lemmas -/

theorem Reachable.good {bt : BinomialTable} (h : Reachable bt) : bt.Good := by
  obtain ⟨l, hl, hr⟩ := h
  obtain ⟨t, e, g, _⟩ := foldlM_refresh BinomialTable.refresh BinomialTable.maxOrder
    BinomialTable.Good 1029 (fun t ht o ho => t.refresh_good ht o ho) l hl _ BinomialTable.good_init
  unfold BinomialTable.run at hr
  rw [hr] at e
  obtain rfl : bt = t := by simpa using e
  exact g

theorem reachable_run (h : List ℕ) (hb : ∀ o ∈ h, o ≤ 1029) :
    ∃ bt, BinomialTable.run h = .ok bt ∧ Reachable bt ∧ bt.maxOrder = histMax h := by
  obtain ⟨t, h1, h2, _⟩ := C22_binomial_table h hb
  exact ⟨t, h1, ⟨h, hb, h1⟩, h2⟩

theorem totalStrength_eq_strength {d : ℕ} (S : List (Source d)) : totalStrength S = strength S :=
  totalStrength_eq S

theorem Exp2.Is.same {e f : Exp2} {c : ℂ} {p : ℕ} {a : ℕ → ℂ} (he : e.Is c p a) (hf : f.Is c p a) :
    e.Same f := by
  refine ⟨he.order.trans hf.order.symm, he.center.trans hf.center.symm, he.size.trans hf.size.symm, ?_⟩
  intro k hk
  rw [he.size] at hk
  rw [he.val k (by omega), hf.val k (by omega)]

theorem directPotential_two (S : List (Source 2)) (x : Vec 2) (h : ∀ s ∈ S, s.pos ≠ x) :
    directPotential true S x = (S.map fun s => s.q * Real.log ‖toC x - toC s.pos‖).sum := by
  unfold directPotential
  congr 1
  exact List.map_congr_left fun s hs => directTerm_two (h s hs)

theorem pos_ne_of_far {s : Source 2} {x c : Vec 2} {R r : ℝ} (h1 : dist2 s.pos c ≤ R) (h : R < r)
    (h2 : r ≤ dist2 x c) : s.pos ≠ x := by
  intro he; rw [he] at h1; linarith

/-! ## C26: multipole expansion -/

/-- **C26** Error bound of the order-`p` multipole potential. -/
theorem C26_multipole_bound (bt : BinomialTable) (hbt : Reachable bt) (center : Vec 2) (p : ℕ) (hp : p ≤ 1029)
    (S : List (Source 2)) (R r : ℝ) (hR : ∀ s ∈ S, dist2 s.pos center ≤ R) (hRr : R < r) (x : Vec 2)
    (hx : r ≤ dist2 x center) (hr : 0 < r) :
    ∃ bt' e v, Exp2.meOfSources bt center p S = .ok (bt', e) ∧ Exp2.mePot e x = .ok v ∧
      |v - directPotential true S x| ≤ strength S * ((R / r) ^ (p + 1) / ((p + 1) * (1 - R / r))) := by
  obtain ⟨bt', e, h1, _, _, _, h2⟩ := Exp2.meOfSources_ok bt hbt.good center p hp S
  have hxc : toC x ≠ toC center := by
    intro h
    have := toC_injective h
    subst this
    have : dist2 x x = 0 := (dist2_eq_zero_iff x x).mpr rfl
    linarith
  refine ⟨bt', e, _, h1, Exp2.mePot_ok h2 (meCoeff_zero_im _ _) x hxc, ?_⟩
  rw [directPotential_two S x fun s hs => pos_ne_of_far (hR s hs) hRr hx, ← totalStrength_eq_strength]
  exact me_bound (toC center) (toC x) p S (fun s hs => by rw [norm_toC_sub]; exact hR s hs) hRr
    (by rw [norm_toC_sub]; exact hx)

/-- Two unit sources, evaluated at a distance of four times the radius. -/
example : ∃ bt' e v, Exp2.meOfSources BinomialTable.init ![0, 0] 5 [⟨![1, 0], 1⟩, ⟨![0, -1], 2⟩] = .ok (bt', e) ∧
    Exp2.mePot e ![4, 0] = .ok v ∧
    |v - directPotential true [⟨![1, 0], 1⟩, ⟨![0, -1], 2⟩] ![4, 0]|
      ≤ strength [(⟨![1, 0], 1⟩ : Source 2), ⟨![0, -1], 2⟩] * ((1 / 4) ^ (5 + 1) / (((5 : ℕ) + 1) * (1 - 1 / 4))) :=
  C26_multipole_bound _ ⟨[], by simp, rfl⟩ _ _ (by norm_num) _ 1 4
    (by intro s hs
        simp only [List.mem_cons, List.not_mem_nil, or_false] at hs
        rcases hs with rfl | rfl <;> simp [dist2, Fin.sum_univ_two]) (by norm_num) _
    (by simp only [dist2, Fin.sum_univ_two]
        refine Real.le_sqrt_of_sq_le ?_; norm_num) (by norm_num)

/-! ## C27: multipole-to-multipole -/

/-- **C27** Building a multipole expansion from the expansions of groups of sources (about any centres, built in
any states of the static table) gives the expansion of all the sources together. -/
theorem C27_m2m_exact (bt : BinomialTable) (hbt : Reachable bt) (center : Vec 2) (p : ℕ) (hp : p ≤ 1029)
    (G : List (Exp2 × Vec 2 × List (Source 2))) (hne : G ≠ [])
    (hG : ∀ g ∈ G, ∃ bt0 bt1, Reachable bt0 ∧ Exp2.meOfSources bt0 g.2.1 p g.2.2 = .ok (bt1, g.1)) :
    ∃ bt' e e', Exp2.meOfMes bt center (G.map (·.1)) = .ok (bt', e) ∧
      Exp2.meOfSources bt center p (G.flatMap (·.2.2)) = .ok (bt', e') ∧ e.Same e' := by
  obtain ⟨bt1, e', h1, h2, h3, h4, h5⟩ := Exp2.meOfSources_ok bt hbt.good center p hp (G.flatMap (·.2.2))
  set L : List (Exp2 × ℂ × List (Source 2)) := G.map fun g => (g.1, toC g.2.1, g.2.2) with hL
  obtain ⟨bt2, e, k1, k2, k3, k4, k5⟩ := Exp2.meOfMes_ok bt hbt.good center p hp L (by simpa [hL] using hne) (by
    intro x hx
    simp only [hL, List.mem_map] at hx
    obtain ⟨g, hg, rfl⟩ := hx
    obtain ⟨b0, b1, hb0, hb1⟩ := hG g hg
    obtain ⟨b2, e2, m1, _, _, _, m2⟩ := Exp2.meOfSources_ok b0 hb0.good g.2.1 p hp g.2.2
    rw [hb1] at m1
    obtain ⟨-, rfl⟩ : b1 = b2 ∧ g.1 = e2 := by simpa using m1
    exact m2)
  have e1 : L.map (·.1) = G.map (·.1) := by simp [hL, Function.comp_def]
  have e2 : L.flatMap (·.2.2) = G.flatMap (·.2.2) := by
    simp [hL, List.flatMap_map]
  rw [e1] at k1
  rw [e2] at k5
  have hbb : bt1 = bt2 := by
    have n1 : ∃ f, Exp2.new bt center p = .ok (bt1, f) := by
      obtain ⟨a, b, q1, _, _, _, q2⟩ := Exp2.new_ok bt hbt.good center p hp
      unfold Exp2.meOfSources at h1
      rw [q1, ok_bind] at h1
      cases hf : List.foldlM (Exp2.meAddSource p b.center) b.coeffs (G.flatMap (·.2.2)) with
      | error er => simp [hf] at h1
      | ok c1 =>
        simp only [hf, ok_bind] at h1
        cases hd : Exp2.divByIndex p c1 with
        | error er => simp [hd] at h1
        | ok c2 =>
          simp only [hd, ok_bind, Except.ok.injEq, Prod.mk.injEq] at h1
          exact ⟨b, by rw [q1, h1.1]⟩
    have n2 : ∃ f, Exp2.new bt center p = .ok (bt2, f) := by
      obtain ⟨a, b, q1, _, _, _, q2⟩ := Exp2.new_ok bt hbt.good center p hp
      cases G with
      | nil => exact absurd rfl hne
      | cons g G =>
        obtain ⟨b0, b1, hb0, hb1⟩ := hG g (by simp)
        obtain ⟨b2, e2, m1, _, _, _, m2⟩ := Exp2.meOfSources_ok b0 hb0.good g.2.1 p hp g.2.2
        rw [hb1] at m1
        obtain ⟨-, rfl⟩ : b1 = b2 ∧ g.1 = e2 := by simpa using m1
        rw [List.map_cons] at k1
        unfold Exp2.meOfMes at k1
        simp only at k1
        rw [m2.order, q1, ok_bind] at k1
        simp only at k1
        set FF := (List.foldlM _ _ _ : Outcome (Arr ℂ)) with hFF
        cases hf : FF with
        | error er => simp [hf] at k1
        | ok c1 =>
          simp only [hf, ok_bind, Except.ok.injEq, Prod.mk.injEq] at k1
          exact ⟨b, by rw [q1, k1.1]⟩
    obtain ⟨f, hf⟩ := n1
    obtain ⟨g, hg⟩ := n2
    rw [hf] at hg
    simp at hg; exact hg.1
  subst hbb
  exact ⟨bt1, e, e', k1, h1, k5.same h5⟩

/-- Two groups with different centres. -/
example : ∃ b1 e1 b2 e2 bt' e e', Exp2.meOfSources BinomialTable.init ![1, 1] 3 [⟨![2, 0], 1⟩] = .ok (b1, e1) ∧
    Exp2.meOfSources BinomialTable.init ![-1, 0] 3 [⟨![-2, 1], -1⟩, ⟨![0, 1], 3⟩] = .ok (b2, e2) ∧
    Exp2.meOfMes BinomialTable.init ![0, 0] [e1, e2] = .ok (bt', e) ∧
    Exp2.meOfSources BinomialTable.init ![0, 0] 3 [⟨![2, 0], 1⟩, ⟨![-2, 1], -1⟩, ⟨![0, 1], 3⟩] = .ok (bt', e') ∧
    e.Same e' := by
  have hr : Reachable BinomialTable.init := ⟨[], by simp, rfl⟩
  obtain ⟨b1, e1, h1, -⟩ := Exp2.meOfSources_ok _ hr.good ![1, 1] 3 (by norm_num) [⟨![2, 0], 1⟩]
  obtain ⟨b2, e2, h2, -⟩ := Exp2.meOfSources_ok _ hr.good ![-1, 0] 3 (by norm_num)
    [⟨![-2, 1], -1⟩, ⟨![0, 1], 3⟩]
  obtain ⟨bt', e, e', k1, k2, k3⟩ := C27_m2m_exact _ hr ![0, 0] 3 (by norm_num)
    [(e1, ![1, 1], [⟨![2, 0], 1⟩]), (e2, ![-1, 0], [⟨![-2, 1], -1⟩, ⟨![0, 1], 3⟩])] (by simp) (by
      intro g hg
      simp only [List.mem_cons, List.not_mem_nil, or_false] at hg
      rcases hg with rfl | rfl
      · exact ⟨_, _, hr, h1⟩
      · exact ⟨_, _, hr, h2⟩)
  exact ⟨b1, e1, b2, e2, bt', e, e', h1, h2, k1, k2, k3⟩

/-- An empty list of expansions makes the constructor throw `std::out_of_range`. -/
theorem C27_empty_throws (bt : BinomialTable) (center : Vec 2) :
    Exp2.meOfMes bt center [] = .error .outOfRange := rfl

/-! ## C28: local-to-local -/

/-- **C28** Shifting a local expansion (positive order) to another centre does not change its potential or its
force field anywhere. -/
theorem C28_l2l_exact (bt : BinomialTable) (hbt : Reachable bt) (e : Exp2)
    (hsz : e.coeffs.size = e.order + 1) (hp : e.order ≤ 1029) (hp0 : 0 < e.order) (center : Vec 2) :
    ∃ bt' f, Exp2.leOfLe bt center e = .ok (bt', f) ∧ f.center = toC center ∧ f.order = e.order ∧
      ∀ x, ∃ v F, Exp2.lePot e x = .ok v ∧ Exp2.lePot f x = .ok v ∧ Exp2.leForce e x = .ok F ∧
        Exp2.leForce f x = .ok F := by
  have he : e.Is e.center e.order e.coeffs.val := ⟨rfl, rfl, hsz, fun _ _ => rfl⟩
  obtain ⟨bt', f, b, h1, h2, h3, h4, h5, h6⟩ := Exp2.leOfLe_ok bt hbt.good he hp hp0 center
  refine ⟨bt', f, h1, h5.center, h5.order, fun x => ⟨_, _, Exp2.lePot_ok he x, ?_, Exp2.leForce_ok he x, ?_⟩⟩
  · rw [Exp2.lePot_ok h5 x, h6 (toC x)]
  · rw [Exp2.leForce_ok h5 x]
    have hd : ∀ (a : ℕ → ℂ) (c z : ℂ), HasDerivAt (fun z => ∑ k ∈ range (e.order + 1), a k * (z - c) ^ k)
        (∑ i ∈ range e.order, ((i + 1 : ℕ) : ℂ) * a (i + 1) * (z - c) ^ i) z := by
      intro a c z
      have hk : ∀ k ∈ range (e.order + 1), HasDerivAt (fun z => a k * (z - c) ^ k)
          (a k * (k * (z - c) ^ (k - 1))) z := by
        intro k _
        have := (((hasDerivAt_id z).sub_const c).pow k).const_mul (a k)
        simpa using this
      have hs := HasDerivAt.fun_sum hk
      refine hs.congr_deriv ?_
      rw [sum_range_succ']
      simp only [Nat.cast_zero, zero_mul, mul_zero, add_zero, Nat.add_sub_cancel]
      exact sum_congr rfl fun i _ => by ring
    have h7 := hd b (toC center) (toC x)
    have h8 := hd e.coeffs.val e.center (toC x)
    rw [funext h6] at h7
    rw [h7.unique h8]

/-- A cubic expansion. -/
example : ∃ bt' f, Exp2.leOfLe BinomialTable.init ![1, 2] ⟨3, Complex.I, ⟨4, fun k => k + 1⟩⟩ = .ok (bt', f) ∧
    f.center = toC ![1, 2] :=
  let ⟨bt', f, h, h', _⟩ := C28_l2l_exact BinomialTable.init ⟨[], by simp, rfl⟩
    ⟨3, Complex.I, ⟨4, fun k => k + 1⟩⟩ rfl (by norm_num) (by norm_num) ![1, 2]
  ⟨bt', f, h, h'⟩

/-- Order 0 runs into `assert(incoming.order > 0)` instead. -/
theorem C28_order_zero (bt : BinomialTable) (hbt : Reachable bt) (e : Exp2) (he : e.order = 0)
    (center : Vec 2) : Exp2.leOfLe bt center e = .error .assertFail :=
  Exp2.leOfLe_order0 bt hbt.good e he center

/-! ## C29: multipole-to-local -/

/-- **C29** Error bound of the conversion, for every state of the binomial table at the time the multipole
expansion is built (`bt`) and at the time it is converted (`bt2`). -/
theorem C29_m2l_bound (bt bt2 : BinomialTable) (hbt : Reachable bt) (hbt2 : Reachable bt2) (center center' : Vec 2)
    (p : ℕ) (hp : p ≤ 1029) (hp0 : 0 < p) (S : List (Source 2)) (R r D : ℝ)
    (hS : ∀ s ∈ S, dist2 s.pos center ≤ R) (hR : 0 ≤ R) (hD : D ≤ dist2 center center') (hrD : r + R < D)
    (x : Vec 2) (hx : dist2 x center' ≤ r) :
    ∃ bt' e bt2' f v, Exp2.meOfSources bt center p S = .ok (bt', e) ∧ Exp2.leOfMe bt2 center' e = .ok (bt2', f) ∧
      Exp2.lePot f x = .ok v ∧
      |v - directPotential true S x|
        ≤ strength S * (((r + R) / D) ^ (p + 1) / ((p + 1) * (1 - (r + R) / D))) := by
  obtain ⟨bt', e, h1, _, _, _, h2⟩ := Exp2.meOfSources_ok bt hbt.good center p hp S
  have hr : 0 ≤ r := (dist2_nonneg _ _).trans hx
  have hcc : toC center ≠ toC center' := by
    intro h
    rw [toC_injective h, (dist2_eq_zero_iff _ _).mpr rfl] at hD
    linarith
  obtain ⟨bt2', f, k1, k2, k3, k4, k5⟩ := Exp2.leOfMe_ok bt2 hbt2.good h2 hp hp0 center' hcc
  refine ⟨bt', e, bt2', f, _, h1, k1, Exp2.lePot_ok k5 x, ?_⟩
  have hne : ∀ s ∈ S, s.pos ≠ x := by
    intro s hs h
    have h1 := hS s hs
    rw [h, ← norm_toC_sub] at h1
    rw [← norm_toC_sub] at hx hD
    have := norm_sub_le_norm_sub_add_norm_sub (toC center) (toC x) (toC center')
    rw [norm_sub_rev] at h1
    linarith
  rw [directPotential_two S x hne, ← totalStrength_eq_strength]
  exact m2l_bound bt2'.maxOrder p (by omega) (toC center) (toC center') (toC x) S
    (fun s hs => by rw [norm_toC_sub]; exact hS s hs) (by rw [norm_toC_sub]; exact hx)
    (by rw [norm_toC_sub]; exact hD) hrD

example : ∃ bt' e bt2' f v, Exp2.meOfSources BinomialTable.init ![8, 0] 4 [⟨![9, 0], -3⟩] = .ok (bt', e) ∧
    Exp2.leOfMe bt' ![0, 0] e = .ok (bt2', f) ∧ Exp2.lePot f ![0, 1] = .ok v ∧
    |v - directPotential true [⟨![9, 0], -3⟩] ![0, 1]|
      ≤ strength [(⟨![9, 0], -3⟩ : Source 2)] *
        (((1 + 1) / 8) ^ (4 + 1) / (((4 : ℕ) + 1) * (1 - (1 + 1) / 8))) := by
  have hr : Reachable BinomialTable.init := ⟨[], by simp, rfl⟩
  obtain ⟨b1, e1, h1, -⟩ := Exp2.meOfSources_ok _ hr.good ![8, 0] 4 (by norm_num) [⟨![9, 0], -3⟩]
  have hb1 : Reachable b1 := by
    refine ⟨[4], by simp, ?_⟩
    unfold Exp2.meOfSources Exp2.new at h1
    unfold BinomialTable.run
    simp only [List.foldlM_cons, List.foldlM_nil]
    rw [if_pos (by simp [BinomialTable.init])] at h1
    cases hx : BinomialTable.init.refresh 4 with
    | error er => simp [hx] at h1
    | ok b =>
      rw [hx] at h1
      simp only [ok_bind] at h1
      set FF := (List.foldlM _ _ _ : Outcome (Arr ℂ)) with hFF
      cases hf : FF with
      | error er => simp [hf] at h1
      | ok c1 =>
        simp only [hf, ok_bind] at h1
        cases hd : Exp2.divByIndex 4 c1 with
        | error er => simp [hd] at h1
        | ok c2 =>
          simp only [hd, ok_bind, Except.ok.injEq, Prod.mk.injEq] at h1
          rw [ok_bind, h1.1]; rfl
  obtain ⟨bt', e, bt2', f, v, k1, k2, k3, k4⟩ := C29_m2l_bound _ _ hr hb1 ![8, 0] ![0, 0] 4 (by norm_num)
    (by norm_num) [⟨![9, 0], -3⟩] 1 1 8 (by simp [dist2, Fin.sum_univ_two]; norm_num) (by norm_num)
    (by simp only [dist2, Fin.sum_univ_two]; refine Real.le_sqrt_of_sq_le ?_; norm_num) (by norm_num) ![0, 1]
    (by simp [dist2, Fin.sum_univ_two])
  have : (b1, e1) = (bt', e) := by rw [h1] at k1; simpa using k1
  obtain ⟨rfl, rfl⟩ : b1 = bt' ∧ e1 = e := by simpa using this
  exact ⟨b1, e1, bt2', f, v, h1, k2, k3, k4⟩

/-- Order 0 runs into `assert(incoming.order > 0)` instead. -/
theorem C29_order_zero (bt : BinomialTable) (hbt : Reachable bt) (e : Exp2) (he : e.order = 0)
    (center : Vec 2) : Exp2.leOfMe bt center e = .error .assertFail :=
  Exp2.leOfMe_order0 bt hbt.good e he center

/-- Converting a list of multipole expansions adds up the individual conversions. -/
theorem C29_m2l_list (bt : BinomialTable) (hbt : Reachable bt) (center : Vec 2) (p : ℕ) (hp : p ≤ 1029)
    (hp0 : 0 < p) (L : List Exp2) (hne : L ≠ []) (hL : ∀ e ∈ L, e.order = p ∧ e.coeffs.size = p + 1 ∧
      e.center ≠ toC center) :
    ∃ bt' f, Exp2.leOfMes bt center L = .ok (bt', f) ∧
      ∀ x, ∃ v vs, Exp2.lePot f x = .ok v ∧ v = vs.sum ∧
        List.Forall₂ (fun e w => ∃ g, Exp2.leOfMe bt' center e = .ok (bt', g) ∧ Exp2.lePot g x = .ok w) L vs := by
  set L' : List (Exp2 × ℂ × (ℕ → ℂ)) := L.map fun e => (e, e.center, e.coeffs.val) with hL'
  have hX : ∀ x ∈ L', x.1.Is x.2.1 p x.2.2 ∧ x.2.1 ≠ toC center := by
    intro x hx
    simp only [hL', List.mem_map] at hx
    obtain ⟨e, he, rfl⟩ := hx
    obtain ⟨h1, h2, h3⟩ := hL e he
    exact ⟨⟨h1, rfl, h2, fun _ _ => rfl⟩, h3⟩
  obtain ⟨bt', f, h1, h2, h3, h4, h5⟩ := Exp2.leOfMes_ok bt hbt.good center p hp hp0 L'
    (by simpa [hL'] using hne) hX
  have e1 : L'.map (·.1) = L := by simp [hL', Function.comp_def]
  rw [e1] at h1
  refine ⟨bt', f, h1, fun x => ?_⟩
  refine ⟨_, L'.map fun y => (leSum (Exp2.m2lCoeff bt'.maxOrder p y.2.2 (y.2.1 - toC center)) p
    (toC x - toC center)).re, Exp2.lePot_ok h5 x, ?_, ?_⟩
  · have : ∀ l : List (Exp2 × ℂ × (ℕ → ℂ)), (∑ k ∈ range (p + 1),
        (l.map fun y => Exp2.m2lCoeff bt'.maxOrder p y.2.2 (y.2.1 - toC center) k).sum
          * (toC x - toC center) ^ k).re
        = (l.map fun y => (leSum (Exp2.m2lCoeff bt'.maxOrder p y.2.2 (y.2.1 - toC center)) p
          (toC x - toC center)).re).sum := by
      intro l
      induction l with
      | nil => simp
      | cons y l ih =>
        simp only [List.map_cons, List.sum_cons, add_mul, sum_add_distrib, Complex.add_re, ih]
        rfl
    exact this L'
  · have : ∀ l : List Exp2, (∀ e ∈ l, e.order = p ∧ e.coeffs.size = p + 1 ∧ e.center ≠ toC center) →
        List.Forall₂ (fun e w => ∃ g, Exp2.leOfMe bt' center e = .ok (bt', g) ∧ Exp2.lePot g x = .ok w) l
          ((l.map fun e => (e, e.center, e.coeffs.val)).map fun y =>
            (leSum (Exp2.m2lCoeff bt'.maxOrder p y.2.2 (y.2.1 - toC center)) p (toC x - toC center)).re) := by
      intro l
      induction l with
      | nil => intro _; exact List.Forall₂.nil
      | cons e l ih =>
        intro h
        obtain ⟨q1, q2, q3⟩ := h e (by simp)
        have he : e.Is e.center p e.coeffs.val := ⟨q1, rfl, q2, fun _ _ => rfl⟩
        obtain ⟨b2, g, k1, k2, k3, k4, k5⟩ := Exp2.leOfMe_ok bt' h2 he hp hp0 center q3
        obtain rfl := k4 (by omega)
        refine List.Forall₂.cons ⟨g, k1, ?_⟩ (ih fun e' he' => h e' (by simp [he']))
        exact Exp2.lePot_ok k5 x
    exact this L hL

/-! ## C30: local expansion from sources -/

/-- **C30** Error bound of the local expansion of distant sources. -/
theorem C30_local_bound (bt : BinomialTable) (hbt : Reachable bt) (center : Vec 2) (p : ℕ) (hp : p ≤ 1029)
    (S : List (Source 2)) (r D : ℝ) (hS : ∀ s ∈ S, D ≤ dist2 s.pos center) (hrD : r < D) (x : Vec 2)
    (hx : dist2 x center ≤ r) :
    ∃ bt' e v, Exp2.leOfSources bt center p S = .ok (bt', e) ∧ Exp2.lePot e x = .ok v ∧
      |v - directPotential true S x| ≤ strength S * ((r / D) ^ (p + 1) / ((p + 1) * (1 - r / D))) := by
  have hr : 0 ≤ r := (dist2_nonneg _ _).trans hx
  obtain ⟨bt', e, h1, _, _, _, h2⟩ := Exp2.leOfSources_ok bt hbt.good center p hp S (by
    intro s hs h
    have := hS s hs
    rw [toC_injective h, (dist2_eq_zero_iff _ _).mpr rfl] at this
    linarith)
  refine ⟨bt', e, _, h1, Exp2.lePot_ok h2 x, ?_⟩
  rw [directPotential_two S x ?_, ← totalStrength_eq_strength]
  · exact le_bound (toC center) (toC x) p S (by rw [norm_toC_sub]; exact hx) hrD
      (fun s hs => by rw [norm_toC_sub]; exact hS s hs)
  · intro s hs h
    have := hS s hs
    rw [h] at this
    linarith

example : ∃ bt' e v, Exp2.leOfSources BinomialTable.init ![0, 0] 6 [⟨![3, 4], 2⟩] = .ok (bt', e) ∧
    Exp2.lePot e ![1, 0] = .ok v ∧ |v - directPotential true [⟨![3, 4], 2⟩] ![1, 0]|
      ≤ strength [(⟨![3, 4], 2⟩ : Source 2)] * ((1 / 5) ^ (6 + 1) / (((6 : ℕ) + 1) * (1 - 1 / 5))) :=
  C30_local_bound _ ⟨[], by simp, rfl⟩ _ _ (by norm_num) _ 1 5
    (by simp only [List.mem_singleton, forall_eq, dist2, Fin.sum_univ_two]
        refine Real.le_sqrt_of_sq_le ?_; norm_num) (by norm_num) _
    (by simp [dist2, Fin.sum_univ_two])

/-! ## C32: adding expansions -/

/-- **C32** `operator+=` throws exactly when the numbers of coefficients or the centres differ. -/
theorem C32_throws_iff (e f : Exp2) :
    Exp2.addEq e f = .error .logicError ↔ e.coeffs.size ≠ f.coeffs.size ∨ e.center ≠ f.center := by
  unfold Exp2.addEq
  split_ifs with h <;> simp [h]

/-- **C32** Otherwise the potentials and the force fields add up. -/
theorem C32_adds (e f : Exp2) (hs : e.coeffs.size = f.coeffs.size) (hc : e.center = f.center)
    (h0 : 0 < e.coeffs.size) :
    ∃ g, Exp2.addEq e f = .ok g ∧ ∀ x, ∃ v w F G, Exp2.lePot e x = .ok v ∧ Exp2.lePot f x = .ok w ∧
      Exp2.lePot g x = .ok (v + w) ∧ Exp2.leForce e x = .ok F ∧ Exp2.leForce f x = .ok G ∧
      Exp2.leForce g x = .ok (F + G) := by
  obtain ⟨p, hp⟩ : ∃ p, e.coeffs.size = p + 1 := ⟨e.coeffs.size - 1, by omega⟩
  -- `order` is irrelevant for addition and evaluation
  set e' : Exp2 := { e with order := p } with he'
  set f' : Exp2 := { f with order := p } with hf'
  have hE : e'.Is e.center p e.coeffs.val := ⟨rfl, rfl, hp, fun _ _ => rfl⟩
  have hF : f'.Is e.center p f.coeffs.val := ⟨rfl, hc.symm, by rw [← hs] at *; exact hp, fun _ _ => rfl⟩
  obtain ⟨g, hg1, hg2⟩ := Exp2.addEq_ok hE hF
  refine ⟨{ g with order := e.order }, ?_, fun x => ?_⟩
  · unfold Exp2.addEq at hg1 ⊢
    rw [if_neg (by simp [hs, hc])]
    rw [if_neg (by simp [he', hf', hs, hc])] at hg1
    simp only [Except.ok.injEq] at hg1
    rw [← hg1]
  · refine ⟨_, _, _, _, Exp2.lePot_ok hE x, Exp2.lePot_ok hF x, ?_, Exp2.leForce_ok hE x,
      Exp2.leForce_ok hF x, ?_⟩
    · have : Exp2.lePot { g with order := e.order } x = Exp2.lePot g x := rfl
      rw [this, Exp2.lePot_ok hg2 x]
      simp only [add_mul, sum_add_distrib, Complex.add_re]
    · have : Exp2.leForce { g with order := e.order } x = Exp2.leForce g x := rfl
      rw [this, Exp2.leForce_ok hg2 x, ← fieldOf_add]
      simp only [add_mul, mul_add, sum_add_distrib]

example : ∃ g, Exp2.addEq ⟨1, 0, ⟨2, fun _ => 1⟩⟩ ⟨1, 0, ⟨2, fun k => k⟩⟩ = .ok g :=
  let ⟨g, h, _⟩ := C32_adds ⟨1, 0, ⟨2, fun _ => 1⟩⟩ ⟨1, 0, ⟨2, fun k => k⟩⟩ rfl rfl (by norm_num)
  ⟨g, h⟩

/-! ## C33: order of the sources -/

/-- **C33** Permuting the sources changes neither kind of expansion nor a direct sum. -/
theorem C33_permutation (bt : BinomialTable) (hbt : Reachable bt) (center : Vec 2) (p : ℕ) (hp : p ≤ 1029)
    (S T : List (Source 2)) (h : S.Perm T) (hne : ∀ s ∈ S, s.pos ≠ center) (grav : Bool) (x : Vec 2) :
    (∃ b1 e b2 f, Exp2.meOfSources bt center p S = .ok (b1, e) ∧ Exp2.meOfSources bt center p T = .ok (b2, f) ∧
      e.Same f) ∧
    (∃ b1 e b2 f, Exp2.leOfSources bt center p S = .ok (b1, e) ∧ Exp2.leOfSources bt center p T = .ok (b2, f) ∧
      e.Same f) ∧ potentialSum grav true S x = potentialSum grav true T x ∧
      forcefieldSum grav true S x 0 = forcefieldSum grav true T x 0 := by
  refine ⟨?_, ?_, ?_, ?_⟩
  · obtain ⟨b1, e, h1, _, _, _, h2⟩ := Exp2.meOfSources_ok bt hbt.good center p hp S
    obtain ⟨b2, f, k1, _, _, _, k2⟩ := Exp2.meOfSources_ok bt hbt.good center p hp T
    exact ⟨b1, e, b2, f, h1, k1, h2.same (k2.congr fun k _ => (meCoeff_perm _ h k).symm)⟩
  · obtain ⟨b1, e, h1, _, _, _, h2⟩ := Exp2.leOfSources_ok bt hbt.good center p hp S
      fun s hs hh => hne s hs (toC_injective hh)
    obtain ⟨b2, f, k1, _, _, _, k2⟩ := Exp2.leOfSources_ok bt hbt.good center p hp T
      fun s hs hh => hne s (h.mem_iff.mpr hs) (toC_injective hh)
    exact ⟨b1, e, b2, f, h1, k1, h2.same (k2.congr fun k _ => (leCoeff_perm _ h k).symm)⟩
  · rw [potentialSum_safe, potentialSum_safe]
    unfold directPotential; rw [(h.map _).sum_eq]
  · rw [forcefieldSum_safe _ _ _ _ le_rfl, forcefieldSum_safe _ _ _ _ le_rfl]
    unfold directField; rw [(h.map _).sum_eq]

example : (∃ b1 e b2 f, Exp2.meOfSources BinomialTable.init ![0, 0] 2 [⟨![1, 0], 1⟩, ⟨![2, 0], 5⟩] = .ok (b1, e) ∧
    Exp2.meOfSources BinomialTable.init ![0, 0] 2 [⟨![2, 0], 5⟩, ⟨![1, 0], 1⟩] = .ok (b2, f) ∧ e.Same f) :=
  (C33_permutation BinomialTable.init ⟨[], by simp, rfl⟩ ![0, 0] 2 (by norm_num) _ _ (List.Perm.swap _ _ _)
    (by intro s hs
        simp only [List.mem_cons, List.not_mem_nil, or_false] at hs
        rcases hs with rfl | rfl <;> (intro h; have := congrFun h 0; norm_num at this)) true ![0, 0]).1

/-- **C33** Expansions are additive under concatenation of source lists. -/
theorem C33_concatenation (bt : BinomialTable) (hbt : Reachable bt) (center : Vec 2) (p : ℕ) (hp : p ≤ 1029)
    (S T : List (Source 2)) :
    ∃ b1 e b2 f b3 g h, Exp2.meOfSources bt center p S = .ok (b1, e) ∧
      Exp2.meOfSources bt center p T = .ok (b2, f) ∧ Exp2.meOfSources bt center p (S ++ T) = .ok (b3, g) ∧
      Exp2.addEq e f = .ok h ∧ h.Same g := by
  obtain ⟨b1, e, h1, _, _, _, h2⟩ := Exp2.meOfSources_ok bt hbt.good center p hp S
  obtain ⟨b2, f, k1, _, _, _, k2⟩ := Exp2.meOfSources_ok bt hbt.good center p hp T
  obtain ⟨b3, g, m1, _, _, _, m2⟩ := Exp2.meOfSources_ok bt hbt.good center p hp (S ++ T)
  obtain ⟨h, n1, n2⟩ := Exp2.addEq_ok h2 k2
  exact ⟨b1, e, b2, f, b3, g, h, h1, k1, m1, n1, n2.same (m2.congr fun k _ => meCoeff_append _ S T k)⟩

/-! ## C23: history dependence -/

/-- **C23 is false**: two processes, one of which has already used order 4, convert the same order-3 multipole
expansion (of a unit source at distance 1 of its centre) to different local expansions. -/
theorem C23_false :
    ∃ h1 h2 bt1 bt2 b e b1 f1 b2 f2, BinomialTable.run h1 = .ok bt1 ∧ BinomialTable.run h2 = .ok bt2 ∧
      Exp2.meOfSources bt1 ![0, 0] 3 [⟨![1, 0], 1⟩] = .ok (b, e) ∧
      Exp2.leOfMe bt1 ![4, 0] e = .ok (b1, f1) ∧ Exp2.leOfMe bt2 ![4, 0] e = .ok (b2, f2) ∧
      f1.coeffs.val 3 ≠ f2.coeffs.val 3 := by
  obtain ⟨bt1, r1, g1, m1⟩ := reachable_run [3] (by simp)
  obtain ⟨bt2, r2, g2, m2⟩ := reachable_run [4] (by simp)
  obtain ⟨b, e, h1, _, _, _, h2⟩ := Exp2.meOfSources_ok bt1 g1.good ![0, 0] 3 (by norm_num) [⟨![1, 0], 1⟩]
  have hne : toC ![0, 0] ≠ toC ![4, 0] := by
    intro h; have := congrArg Complex.re h; norm_num [toC] at this
  obtain ⟨b1, f1, k1, _, k3, _, k5⟩ := Exp2.leOfMe_ok bt1 g1.good h2 (by norm_num) (by norm_num) ![4, 0] hne
  obtain ⟨b2, f2, l1, _, l3, _, l5⟩ := Exp2.leOfMe_ok bt2 g2.good h2 (by norm_num) (by norm_num) ![4, 0] hne
  refine ⟨[3], [4], bt1, bt2, b, e, b1, f1, b2, f2, r1, r2, h1, k1, l1, ?_⟩
  have e1 : b1.maxOrder = 3 := by rw [k3, m1]; rfl
  have e2 : b2.maxOrder = 4 := by rw [l3, m2]; rfl
  rw [k5.val 3 le_rfl, l5.val 3 le_rfl, e1, e2]
  have hz : toC ![0, 0] - toC ![4, 0] = ((-4 : ℝ) : ℂ) := by
    apply Complex.ext <;> simp [toC]
  have hu : toC ![1, 0] - toC ![0, 0] = ((1 : ℝ) : ℂ) := by
    apply Complex.ext <;> simp [toC]
  rw [hz]
  unfold Exp2.m2lCoeff
  simp only [meCoeff_single, hu, sum_range_succ, range_zero, sum_empty, binVal]
  norm_num [Nat.choose]

/-- **C23** (what remains true) The conversion does not depend on the history once the table covers rows up
to `2p - 2`, and never for `p ≤ 2`. -/
theorem C23_independent_partial (bt1 bt2 : BinomialTable) (hb1 : Reachable bt1) (hb2 : Reachable bt2)
    (e : Exp2) (p : ℕ) (he : e.order = p) (hs : e.coeffs.size = p + 1) (hp : p ≤ 1029) (hp0 : 0 < p)
    (center : Vec 2) (hc : e.center ≠ toC center)
    (hM : p ≤ 2 ∨ (2 * p - 2 ≤ bt1.maxOrder ∧ 2 * p - 2 ≤ bt2.maxOrder)) :
    ∃ b1 f1 b2 f2, Exp2.leOfMe bt1 center e = .ok (b1, f1) ∧ Exp2.leOfMe bt2 center e = .ok (b2, f2) ∧
      f1.Same f2 := by
  have hE : e.Is e.center p e.coeffs.val := ⟨he, rfl, hs, fun _ _ => rfl⟩
  obtain ⟨b1, f1, k1, _, k3, _, k5⟩ := Exp2.leOfMe_ok bt1 hb1.good hE hp hp0 center hc
  obtain ⟨b2, f2, l1, _, l3, _, l5⟩ := Exp2.leOfMe_ok bt2 hb2.good hE hp hp0 center hc
  refine ⟨b1, f1, b2, f2, k1, l1, k5.same (l5.congr fun l hl => ?_)⟩
  unfold Exp2.m2lCoeff
  split_ifs with h0
  · rfl
  · congr 2
    refine sum_congr rfl fun i hi => ?_
    have hi' := mem_range.mp hi
    have : binVal b2.maxOrder (l + i) i = binVal b1.maxOrder (l + i) i := by
      unfold binVal
      rw [if_pos (by omega), if_pos (by omega)]
    rw [this]

example : ∃ bt, Reachable bt ∧ 2 * 3 - 2 ≤ bt.maxOrder :=
  let ⟨bt, _, h, m⟩ := reachable_run [2, 7] (by simp)
  ⟨bt, h, by rw [m]; decide⟩

/-! ## C31: force = - gradient -/

/-- `toC` as a continuous linear map. -/
noncomputable def toCL : Vec 2 →L[ℝ] ℂ :=
  (ContinuousLinearMap.proj 0 : Vec 2 →L[ℝ] ℝ).smulRight (1 : ℂ)
    + (ContinuousLinearMap.proj 1 : Vec 2 →L[ℝ] ℝ).smulRight Complex.I

theorem toCL_apply (v : Vec 2) : toCL v = toC v := by
  unfold toCL toC
  apply Complex.ext <;> simp

/-- Real part of a holomorphic function of the point. -/
theorem hasFDerivAt_re_holomorphic (g : ℂ → ℂ) (g' : ℂ) (x : Vec 2) (hg : HasDerivAt g g' (toC x)) :
    HasFDerivAt (fun y : Vec 2 => (g (toC y)).re)
      (∑ j, (-(Exp2.fieldOf g') j) • (ContinuousLinearMap.proj j : Vec 2 →L[ℝ] ℝ)) x := by
  have h1 : HasFDerivAt (fun y : Vec 2 => toC y) toCL x := by
    have := toCL.hasFDerivAt (x := x)
    have e : (fun y : Vec 2 => toC y) = fun y => toCL y := funext fun y => (toCL_apply y).symm
    rw [e]; exact this
  have h2 := (hg.hasFDerivAt.restrictScalars ℝ).comp x h1
  have h3 := Complex.reCLM.hasFDerivAt.comp x h2
  refine h3.congr_fderiv ?_
  ext v
  simp only [ContinuousLinearMap.comp_apply, Fin.sum_univ_two, Exp2.fieldOf, toCL_apply]
  simp [toC]
  ring

/-- **C31** (local expansion) -/
theorem C31_local (e : Exp2) (h0 : 0 < e.coeffs.size) (x : Vec 2) :
    ∃ (φ : Vec 2 → ℝ) (F : Vec 2), (∀ y, Exp2.lePot e y = .ok (φ y)) ∧ Exp2.leForce e x = .ok F ∧
      HasFDerivAt φ (∑ j, (-F j) • (ContinuousLinearMap.proj j : Vec 2 →L[ℝ] ℝ)) x := by
  obtain ⟨p, hp⟩ : ∃ p, e.coeffs.size = p + 1 := ⟨e.coeffs.size - 1, by omega⟩
  set e' : Exp2 := { e with order := p } with he'
  have hE : e'.Is e.center p e.coeffs.val := ⟨rfl, rfl, hp, fun _ _ => rfl⟩
  refine ⟨_, _, fun y => Exp2.lePot_ok hE y, Exp2.leForce_ok hE x, ?_⟩
  refine hasFDerivAt_re_holomorphic (fun z => ∑ k ∈ range (p + 1), e.coeffs.val k * (z - e.center) ^ k) _ x ?_
  have hk : ∀ k ∈ range (p + 1), HasDerivAt (fun z => e.coeffs.val k * (z - e.center) ^ k)
      (e.coeffs.val k * (k * (toC x - e.center) ^ (k - 1))) (toC x) := by
    intro k _
    have := (((hasDerivAt_id (toC x)).sub_const e.center).pow k).const_mul (e.coeffs.val k)
    simpa using this
  refine (HasDerivAt.fun_sum hk).congr_deriv ?_
  rw [sum_range_succ']
  simp only [Nat.cast_zero, zero_mul, mul_zero, add_zero, Nat.add_sub_cancel]
  exact sum_congr rfl fun i _ => by ring

/-- **C31** (multipole expansion; the leading coefficient is real, as it is in every expansion built from
sources) -/
theorem C31_multipole (e : Exp2) (h0 : 0 < e.coeffs.size) (hre : (e.coeffs.val 0).im = 0) (x : Vec 2)
    (hx : toC x ≠ e.center) :
    ∃ (φ : Vec 2 → ℝ) (F : Vec 2), (∀ y, toC y ≠ e.center → Exp2.mePot e y = .ok (φ y)) ∧
      Exp2.meForce e x = .ok F ∧
      HasFDerivAt φ (∑ j, (-F j) • (ContinuousLinearMap.proj j : Vec 2 →L[ℝ] ℝ)) x := by
  obtain ⟨p, hp⟩ : ∃ p, e.coeffs.size = p + 1 := ⟨e.coeffs.size - 1, by omega⟩
  set e' : Exp2 := { e with order := p } with he'
  have hE : e'.Is e.center p e.coeffs.val := ⟨rfl, rfl, hp, fun _ _ => rfl⟩
  refine ⟨_, _, fun y hy => Exp2.mePot_ok hE hre y hy, Exp2.meForce_ok hE hre x hx, ?_⟩
  -- monopole term: a single source at the centre
  set s : Source 2 := ⟨![e.center.re, e.center.im], (e.coeffs.val 0).re⟩ with hs
  have hsc : toC s.pos = e.center := by apply Complex.ext <;> simp [toC, hs]
  have hsx : s.pos ≠ x := by intro h; apply hx; rw [← h, hsc]
  obtain ⟨φ, F, h1, h2, h3⟩ := C31_single_source true true (Or.inl rfl) s x hsx
  have hF : F = Exp2.fieldOf (e.coeffs.val 0 / (toC x - e.center)) := by
    have := forcefield_of_ne true true s x 0 le_rfl hsx
    rw [h2] at this
    have h4 : F = fieldSpec true x 0 s := by simpa using this
    have h5 := directFieldTerm_two hsx
    unfold directFieldTerm at h5
    rw [if_neg hsx] at h5
    rw [h4, h5, hsc]
    congr 2
    exact Complex.ext (by simp [hs]) (by simp [hs, hre])
  have hφ : ∀ y, s.pos ≠ y → φ y = (e.coeffs.val 0 * Complex.log (toC y - e.center)).re := by
    intro y hy
    have := potential_of_ne true true s y hy
    rw [h1 y hy] at this
    have h4 : φ y = kernelSpec 2 true s.q (dist2 s.pos y) := by simpa using this
    rw [h4]
    unfold kernelSpec sgn
    have ha : (e.coeffs.val 0) = (((e.coeffs.val 0).re : ℝ) : ℂ) :=
      Complex.ext (by simp) (by simp [hre])
    rw [ha, Complex.re_ofReal_mul, Complex.log_re, ← hsc, norm_toC_sub, dist2_comm]
    simp [hs]
  have hmono : HasFDerivAt (fun y : Vec 2 => (e.coeffs.val 0 * Complex.log (toC y - e.center)).re)
      (∑ j, (-F j) • (ContinuousLinearMap.proj j : Vec 2 →L[ℝ] ℝ)) x := by
    refine h3.congr_of_eventuallyEq ?_
    filter_upwards [isOpen_ne.mem_nhds hsx.symm] with y hy
    exact (hφ y (fun h => hy h.symm)).symm
  have hrest := hasFDerivAt_re_holomorphic
    (fun z => ∑ i ∈ range p, e.coeffs.val (i + 1) * ((z - e.center)⁻¹) ^ (i + 1))
    (-∑ i ∈ range p, ((i + 1 : ℕ) : ℂ) * e.coeffs.val (i + 1) * ((toC x - e.center)⁻¹) ^ (i + 2)) x (by
      have hk : ∀ k ∈ range p, HasDerivAt (fun z => e.coeffs.val (k + 1) * ((z - e.center)⁻¹) ^ (k + 1))
          (e.coeffs.val (k + 1) * ((k + 1 : ℕ) * ((toC x - e.center)⁻¹) ^ k
            * (-1 / (toC x - e.center) ^ 2))) (toC x) := by
        intro k _
        have := ((((hasDerivAt_id (toC x)).sub_const e.center).fun_inv (sub_ne_zero.mpr hx)).fun_pow
          (k + 1)).const_mul (e.coeffs.val (k + 1))
        simpa using this
      refine (HasDerivAt.fun_sum hk).congr_deriv ?_
      rw [← sum_neg_distrib]
      refine sum_congr rfl fun i _ => ?_
      rw [pow_add _ i 2, inv_pow _ 2]
      ring)
  have hsum := hmono.add hrest
  refine (hsum.congr_fderiv ?_).congr_of_eventuallyEq ?_
  · rw [← sum_add_distrib]
    refine sum_congr rfl fun j _ => ?_
    rw [← add_smul, hF, sub_eq_add_neg (e.coeffs.val 0 / _), fieldOf_add]
    congr 1
    simp only [Pi.add_apply]; ring
  · refine Filter.Eventually.of_forall fun y => ?_
    simp only [Pi.add_apply, Complex.add_re]

/-- Multipole expansion of two sources, away from its centre. -/
example : ∃ b e, Exp2.meOfSources BinomialTable.init ![0, 0] 3 [⟨![1, 0], 1⟩, ⟨![0, 1], -2⟩] = .ok (b, e) ∧
    0 < e.coeffs.size ∧ (e.coeffs.val 0).im = 0 ∧ toC ![5, 5] ≠ e.center := by
  obtain ⟨b, e, h1, _, _, _, h2⟩ := Exp2.meOfSources_ok BinomialTable.init BinomialTable.good_init ![0, 0] 3
    (by norm_num) [⟨![1, 0], 1⟩, ⟨![0, 1], -2⟩]
  refine ⟨b, e, h1, by rw [h2.size]; norm_num, by rw [h2.val 0 (by norm_num)]; exact meCoeff_zero_im _ _, ?_⟩
  rw [h2.center]
  intro h; have := congrArg Complex.re h; norm_num [toC] at this

/-! ## C20: lookups made by the operations -/

/-- **C20** (2D) For orders from 1 to 1029 every lookup made by the operations is inside the binomial table and the
coefficient vectors: no operation is undefined. -/
theorem C20_lookups_2d (bt : BinomialTable) (hbt : Reachable bt) (center : Vec 2) (p : ℕ) (hp : p ≤ 1029) (hp0 : 0 < p)
    (S : List (Source 2)) (e : Exp2) (he : e.order = p) (hsz : e.coeffs.size = p + 1) (L : List Exp2)
    (hL : ∀ f ∈ L, f.order = p ∧ f.coeffs.size = p + 1) (G : List (Vec 2 × List (Source 2))) (x : Vec 2) :
    (∃ r, Exp2.meOfSources bt center p S = .ok r) ∧
    ((∀ s ∈ S, s.pos ≠ center) → ∃ r, Exp2.leOfSources bt center p S = .ok r) ∧
    (L ≠ [] → List.Forall₂ (fun f g => ∃ b0 b1, Reachable b0 ∧ Exp2.meOfSources b0 g.1 p g.2 = .ok (b1, f)) L G →
      ∃ r, Exp2.meOfMes bt center L = .ok r) ∧
    (L ≠ [] → (∀ f ∈ L, f.center ≠ toC center) → ∃ r, Exp2.leOfMes bt center L = .ok r) ∧
    (e.center ≠ toC center → ∃ r, Exp2.leOfMe bt center e = .ok r) ∧
    (∃ r, Exp2.leOfLe bt center e = .ok r) ∧
    (∃ r, Exp2.lePot e x = .ok r) ∧ (∃ r, Exp2.leForce e x = .ok r) ∧
    ((e.coeffs.val 0).im = 0 → toC x ≠ e.center → (∃ r, Exp2.mePot e x = .ok r) ∧ ∃ r, Exp2.meForce e x = .ok r) := by
  have hg := hbt.good
  have hE : e.Is e.center p e.coeffs.val := ⟨he, rfl, hsz, fun _ _ => rfl⟩
  refine ⟨?_, fun h => ?_, fun hne h => ?_, fun hne hc => ?_, fun h => ?_, ?_, ⟨_, Exp2.lePot_ok hE x⟩,
    ⟨_, Exp2.leForce_ok hE x⟩, fun h0 h => ⟨⟨_, Exp2.mePot_ok hE h0 x h⟩, ⟨_, Exp2.meForce_ok hE h0 x h⟩⟩⟩
  · obtain ⟨a, b, h, -⟩ := Exp2.meOfSources_ok bt hg center p hp S
    exact ⟨_, h⟩
  · obtain ⟨a, b, h, -⟩ := Exp2.leOfSources_ok bt hg center p hp S fun s hs hh => h s hs (toC_injective hh)
    exact ⟨_, h⟩
  · have hl : ∃ X : List (Exp2 × ℂ × List (Source 2)), X.map (·.1) = L ∧
        ∀ x ∈ X, x.1.Is x.2.1 p (meCoeff x.2.1 x.2.2) := by
      clear hL hne
      induction h with
      | nil => exact ⟨[], rfl, by simp⟩
      | @cons f g L G h0 _ ih =>
        obtain ⟨X, hX1, hX2⟩ := ih
        obtain ⟨b0, b1, hb0, hb1⟩ := h0
        obtain ⟨b2, e2, m1, _, _, _, m2⟩ := Exp2.meOfSources_ok b0 hb0.good g.1 p hp g.2
        rw [hb1] at m1
        obtain ⟨-, rfl⟩ : b1 = b2 ∧ f = e2 := by simpa using m1
        refine ⟨(f, toC g.1, g.2) :: X, by rw [List.map_cons, hX1], ?_⟩
        intro x hx
        rcases List.mem_cons.mp hx with rfl | hx
        · exact m2
        · exact hX2 x hx
    obtain ⟨X, rfl, hX⟩ := hl
    obtain ⟨a, b, h, -⟩ := Exp2.meOfMes_ok bt hg center p hp X (by rintro rfl; exact hne rfl) hX
    exact ⟨_, h⟩
  · obtain ⟨a, b, h, -⟩ := Exp2.leOfMes_ok bt hg center p hp hp0 (L.map fun f => (f, f.center, f.coeffs.val))
      (by simpa using hne) (by
        intro y hy
        obtain ⟨f, hf, rfl⟩ := List.mem_map.mp hy
        exact ⟨⟨(hL f hf).1, rfl, (hL f hf).2, fun _ _ => rfl⟩, hc f hf⟩)
    refine ⟨_, Eq.trans ?_ h⟩
    simp [Function.comp_def]
  · obtain ⟨a, b, h, -⟩ := Exp2.leOfMe_ok bt hg hE hp hp0 center h
    exact ⟨_, h⟩
  · obtain ⟨a, b, c, h, -⟩ := Exp2.leOfLe_ok bt hg hE hp hp0 center
    exact ⟨_, h⟩

/-- **C20** (2D) For orders above 1029 the constructors end in GSL's error handler before any lookup is made. -/
theorem C20_high_order_2d (bt : BinomialTable) (hbt : Reachable bt) (center : Vec 2) (p : ℕ) (hp : 1030 ≤ p)
    (S : List (Source 2)) (e : Exp2) (he : e.order = p) (L : List Exp2) :
    Exp2.meOfSources bt center p S = .error .gslAbort ∧ Exp2.leOfSources bt center p S = .error .gslAbort ∧
    Exp2.meOfMes bt center (e :: L) = .error .gslAbort ∧ Exp2.leOfMes bt center (e :: L) = .error .gslAbort ∧
    Exp2.leOfMe bt center e = .error .gslAbort ∧ Exp2.leOfLe bt center e = .error .gslAbort := by
  have hM : bt.maxOrder ≤ 1029 := by
    obtain ⟨l, hl, hr⟩ := hbt
    obtain ⟨t, e, -, m⟩ := foldlM_refresh BinomialTable.refresh BinomialTable.maxOrder
      BinomialTable.Good 1029 (fun t ht o ho => t.refresh_good ht o ho) l hl _ BinomialTable.good_init
    unfold BinomialTable.run at hr
    rw [hr] at e
    obtain rfl : bt = t := by simpa using e
    rw [m]
    have hm : ∀ (l : List ℕ) (a : ℕ), a ≤ 1029 → (∀ o ∈ l, o ≤ 1029) → l.foldl max a ≤ 1029 := by
      intro l
      induction l with
      | nil => intro a ha _; exact ha
      | cons o l ih => intro a ha h; exact ih _ (max_le ha (h o (by simp))) fun x hx => h x (by simp [hx])
    exact hm l _ (by simp [BinomialTable.init]) hl
  have h : Exp2.new bt center p = .error .gslAbort := by
    unfold Exp2.new
    rw [if_pos (by omega), bt.refresh_abort hM p hp]; rfl
  refine ⟨?_, ?_, ?_, ?_, ?_, ?_⟩
  · unfold Exp2.meOfSources; rw [h]; rfl
  · unfold Exp2.leOfSources; rw [h]; rfl
  · unfold Exp2.meOfMes; simp only; rw [he, h]; rfl
  · unfold Exp2.leOfMes; simp only; rw [he, h]; rfl
  · unfold Exp2.leOfMe; rw [he, h]; rfl
  · unfold Exp2.leOfLe; rw [he, h]; rfl

example : ∃ r, Exp2.leOfLe BinomialTable.init ![1, 1] ⟨1, 0, ⟨2, fun k => k⟩⟩ = .ok r :=
  (C20_lookups_2d _ ⟨[], by simp, rfl⟩ ![1, 1] 1 (by norm_num) (by norm_num) [] ⟨1, 0, ⟨2, fun k => k⟩⟩ rfl rfl []
    (by simp) [] 0).2.2.2.2.2.1

end FMM
