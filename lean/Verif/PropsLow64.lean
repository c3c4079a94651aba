import Verif.PropsLow

/-!
# C105: underflow in the two-dimensional solver, with `double`s
-/

namespace FMM
open Rounded D64
variable {F : Flt} {log : DC → DC} {θ τ C : ℝ} {r : RBox ℝ 2} {S : List (Source 2)} {max fuel h p m : ℕ}

/-- Strengths and sizes that `double`s can handle with expansions of order `p`: the strengths are zero or at least `τ`, and
`θ`, the smallest distance, is not too small for the order. -/
structure Moderate (S : List (Source 2)) (p : ℕ) (θ τ : ℝ) : Prop where
  th0 : 0 < θ
  th1 : θ ≤ 1 / 5
  tau0 : 0 < τ
  tau1 : τ ≤ 1
  strength : ∀ s ∈ S, s.q = 0 ∨ τ ≤ |s.q|
  range : (p + 1) * 2 ^ (-1019 : ℤ) ≤ τ * θ ^ (2 * p + 6)

/-- The complex logarithm of the library has a small relative error, as long as the logarithm does not underflow. -/
def LogAccurate (F : Flt) : Prop :=
  ∀ z : ℂ, z ≠ 0 → ‖F.log z - Complex.log z‖ ≤ 1 / 2 ^ 49 * Max.max ‖Complex.log z‖ (2 ^ (-1019 : ℤ))

/-- The floor. -/
noncomputable def floor64 (θ : ℝ) : ℝ := 2 ^ (-1019 : ℤ) / θ ^ 4

theorem Moderate.scale (hM : Moderate S p θ τ) : Scale (floor64 θ) (θ ^ 2 / 2) θ τ p where
  th0 := hM.th0
  th1 := hM.th1.trans (by norm_num)
  tau0 := hM.tau0
  tau1 := hM.tau1
  eta := div_nonneg (two_pow_pos _).le (pow_nonneg hM.th0.le _)
  floor := by
    have h0 := hM.th0
    have := hM.range
    unfold floor64
    rw [div_mul_eq_mul_div, div_le_iff₀ (by positivity), mul_assoc, ← pow_add, mul_comm]
    exact this
  rho := by linarith

theorem Moderate.low (hM : Moderate S p θ τ) (hF : D2.Is64 F) (hlog : LogAccurate F) :
    F.Low (1 / 2 ^ 49) (floor64 θ) (θ ^ 2 / 2) := by
  have h0 := hM.th0
  have h1 := hM.th1
  have hs := hM.scale
  have he := hs.eta
  refine Lo.low64 hF (by positivity) (by nlinarith) ?_ ?_ ?_
  · refine le_of_eq ?_
    unfold floor64
    rw [show (-1019 : ℤ) = -1021 + 2 by norm_num, zpow_add₀ (by norm_num), show ((2 : ℝ) ^ (2 : ℤ)) = 4 by norm_num]
    generalize (2 : ℝ) ^ (-1021 : ℤ) = w
    field_simp
    norm_num
  · have h2 := hs.floor
    have h3 : θ ^ (2 * p + 2) ≤ θ ^ 2 := pow_le_pow_of_le_one h0.le (by linarith) (by omega)
    have h4 : τ * θ ^ (2 * p + 2) ≤ θ ^ (2 * p + 2) := mul_le_of_le_one_left (by positivity) hM.tau1
    have h5 : floor64 θ ≤ floor64 θ * (p + 1) := le_mul_of_one_le_right he (by linarith [Nat.cast_nonneg (α := ℝ) p])
    nlinarith
  · intro z hz
    refine (hlog z hz).trans (mul_le_mul_of_nonneg_left (max_le_max le_rfl ?_) (by positivity))
    unfold floor64
    rw [le_div_iff₀ (by positivity)]
    exact mul_le_of_le_one_right (two_pow_pos _).le (pow_le_one₀ h0.le (by linarith))

theorem Moderate.theta (hM : Moderate S p θ τ) (hp : 0 < p) : (2 : ℝ) ^ (-128 : ℤ) ≤ θ := by
  have h0 := hM.th0
  by_contra hc
  push Not at hc
  have h1 : θ ^ (2 * p + 6) ≤ θ ^ 8 := pow_le_pow_of_le_one h0.le (by linarith [hM.th1]) (by omega)
  have h2 : τ * θ ^ (2 * p + 6) ≤ θ ^ (2 * p + 6) := mul_le_of_le_one_left (by positivity) hM.tau1
  have h3 : θ ^ 8 ≤ ((2 : ℝ) ^ (-128 : ℤ)) ^ 8 := pow_le_pow_left₀ h0.le hc.le 8
  have h4 : ((2 : ℝ) ^ (-128 : ℤ)) ^ 8 = 2 ^ (-1024 : ℤ) := by
    rw [← zpow_natCast, ← zpow_mul]; norm_num
  have h5 : (2 : ℝ) ^ (-1024 : ℤ) < 2 ^ (-1019 : ℤ) := zpow_lt_zpow_right₀ (by norm_num) (by norm_num)
  have h6 : (2 : ℝ) ^ (-1019 : ℤ) ≤ (p + 1) * 2 ^ (-1019 : ℤ) :=
    le_mul_of_one_le_left (two_pow_pos _).le (by linarith [Nat.cast_nonneg (α := ℝ) p])
  linarith [hM.range]

theorem Moderate.floor_le (hM : Moderate S p θ τ) (hp : 0 < p) : floor64 θ ≤ 2 ^ (-507 : ℤ) := by
  have h1 := hM.theta hp
  unfold floor64
  rw [div_le_iff₀ (pow_pos hM.th0 4)]
  have h2 : ((2 : ℝ) ^ (-128 : ℤ)) ^ 4 ≤ θ ^ 4 := pow_le_pow_left₀ (two_pow_pos _).le h1 4
  have h3 : ((2 : ℝ) ^ (-128 : ℤ)) ^ 4 = 2 ^ (-512 : ℤ) := by
    rw [← zpow_natCast, ← zpow_mul]; norm_num
  rw [h3] at h2
  refine le_trans (le_of_eq ?_) (mul_le_mul_of_nonneg_left h2 (two_pow_pos _).le)
  rw [← zpow_add₀ (by norm_num)]; norm_num

theorem Moderate.inv (hM : Moderate S p θ τ) (hp : 0 < p) : 1 / θ ≤ 2 ^ (128 : ℤ) := by
  rw [div_le_iff₀ hM.th0]
  refine le_trans (le_of_eq ?_) (mul_le_mul_of_nonneg_left (hM.theta hp) (two_pow_pos _).le)
  rw [← zpow_add₀ (by norm_num)]; norm_num

theorem Moderate.eps (hM : Moderate S p θ τ) (hp : 0 < p) : 1 / θ ^ 2 ≤ 2 ^ (1000 : ℤ) := by
  have h0 : 0 ≤ 1 / θ := by have := hM.th0; positivity
  calc 1 / θ ^ 2 = (1 / θ) ^ 2 := by rw [div_pow, one_pow]
    _ ≤ (2 ^ (128 : ℤ)) ^ 2 := pow_le_pow_left₀ h0 (hM.inv hp) 2
    _ = 2 ^ (256 : ℤ) := by rw [← zpow_natCast, ← zpow_mul]; norm_num
    _ ≤ 2 ^ (1000 : ℤ) := two_pow_mono (by norm_num)

/-- The computed number is not finite, or differs from `v` by at most `e`. -/
def NearOrBad (P : Outcome Dbl) (v e : ℝ) : Prop := ∃ d, P = .ok d ∧ ∀ y, d = .fin y → |y - v| ≤ e

/-- The computed vector has a component that is not finite, or differs from `v` by at most `e`. -/
def VNearOrBad (P : Outcome (DVec 2)) (v : Vec 2) (e : ℝ) : Prop :=
  ∃ d, P = .ok d ∧ ∀ y : Vec 2, (∀ j, d j = .fin (y j)) → dist2 y v ≤ e

theorem near_of_same {P : Outcome Dbl} {w v e : ℝ} (h : SameOrBad P w) (hw : |w - v| ≤ e) : NearOrBad P v e := by
  obtain ⟨d, h1, h2⟩ := h
  refine ⟨d, h1, fun y hy => ?_⟩
  subst hy
  rcases h2 with h2 | h2
  · injection h2 with h2; rwa [h2]
  · exact h2.elim

theorem vnear_of_same {P : Outcome (DVec 2)} {w v : Vec 2} {e : ℝ} (h : D2.VSameOrBad P w) (hw : dist2 w v ≤ e) :
    VNearOrBad P v e := by
  obtain ⟨d, h1, h2⟩ := h
  refine ⟨d, h1, fun y hy => ?_⟩
  have : y = w := by
    funext j
    rcases h2 j with h3 | h3
    · rw [hy j] at h3; injection h3
    · rw [hy j] at h3; exact h3.elim
  rwa [this]

/-- The potential computed with `double`s. -/
noncomputable def dblPotential (F : Flt) (log : DC → DC) (fuel : ℕ) (grav : Bool) (T : AdaptiveFmm (D2.kit log))
    (cur : List (Source 2)) (x : Vec 2) : Outcome Dbl :=
  Rounded.adaptiveEval F.rnd D64.add D64.neg (D2.pot log) fuel grav T cur x

/-- The force computed with `double`s. -/
noncomputable def dblForce (F : Flt) (log : DC → DC) (feps : ℝ) (fuel : ℕ) (grav : Bool) (T : AdaptiveFmm (D2.kit log))
    (cur : List (Source 2)) (x : Vec 2) : Outcome (DVec 2) :=
  Rounded.adaptiveEval F.rnd vadd vneg (D2.force log feps) fuel grav T cur x

theorem neg_fun : (Vec.neg : Vec 2 → Vec 2) = fun a => -a := by
  funext v j
  show v j * (-1) = -v j
  ring

/-- **C105** `double`s: the constructor returns a tree; potential and force at a point of a leaf are not finite or have the
errors of C77, if the boxes have sides between `25/18 θ` and `1/(2θ)` and the distances to the sources are at least `θ` or
zero. -/
theorem C105_adaptive (hF : D2.Is64 F) (hlog : LogAccurate F) (hlf : D2.LogOf log F) (hM : Moderate S p θ τ)
    (hlo : θ ≤ 18 / 25 * (r.len / 2 ^ h)) (hhi : θ * (2 * r.len) ≤ 1) (hS : ∀ s ∈ S, ∀ j, |s.pos j| ≤ 2 ^ (251 : ℤ))
    {t : BinomialTable} (ht : Reachable t) (hL : 0 < r.len) (hC : ∀ i, |r.center i| ≤ C) {eps : ℝ}
    (hord : Rounded.expansionOrder F.rnd F.rlog (Rounded.totalStrength F.rnd S) eps = .ok p) (hp0 : 0 < p) (hp : p ≤ 1029)
    (hbox : Rounded.sourceBox F.rnd S = some r) (hin : ∀ s ∈ S, r.exact.contains s.pos) {st : BuildState 2 (Source 2)} {nb : Nbh}
    (hb : Rounded.adaptiveLists F.rnd F.nrm fuel Source.pos r S max = .ok (st, h, nb)) (hf : h < fuel)
    (hk : 100 * ((8 * h + 15) * (1 / 2 ^ 49 * (4 * (C + r.len)))) < r.len / 2 ^ (h + 1)) (hm : Fl.ListsLe st.heap nb m)
    {sch : ℕ → List Path → List Path} (hsch : Schedule sch) :
    ∃ T, Rounded.adaptiveFmm F.rnd F.rlog F.nrm (D2.kit log) fuel sch t S max eps = .ok T ∧ T.order = p ∧ T.height = h ∧
      ∀ x l, Rounded.getContainingLeaf F.rnd fuel T.heap x = .ok (some l) → (∀ s ∈ S, s.pos = x ∨ θ ≤ dist2 s.pos x) →
        (∀ j, |x j| ≤ 2 ^ (254 : ℤ)) → ∀ grav,
          NearOrBad (dblPotential F log fuel grav T S x) (directPotential grav S x) (potError (1 / 2 ^ 49) r.len S p h m x) ∧
          ∀ feps, 0 ≤ feps → feps ≤ 1 / θ ^ 2 → VNearOrBad (dblForce F log feps fuel grav T S x) (directField grav S x feps)
            (forceError (1 / 2 ^ 49) (r.len / 2 ^ h) S p h m feps x) := by
  obtain ⟨T, t1, t2, t3, t4⟩ := C105_floor (hM.low hF hlog) hM.scale hM.th1 hlo hhi hM.strength ht hL hC hord hp0 hp hbox hin hb hk hm
  obtain ⟨T', u1, u2, u3, u4, -, -, -, u8⟩ := D2.C100_adaptive hF hlf hS (t1 sch hsch)
  refine ⟨T', u1, u2.trans t2, u3.trans t3, fun x l hl hd hx grav => ?_⟩
  obtain ⟨lf, g1, g2⟩ := t4 x
  rw [u4, g1 fuel hf] at hl
  injection hl with hl
  obtain ⟨⟨v, v1, v2⟩, g3⟩ := (g2 fuel hf grav S).1 (by rw [hl]; simp) hd
  refine ⟨near_of_same ((u8 x hx grav).1 v v1) v2, fun feps he he' => ?_⟩
  obtain ⟨w, w1, w2⟩ := g3 feps he he'
  refine vnear_of_same ((u8 x hx grav).2 feps ?_ w ?_) w2
  · rw [abs_of_nonneg he]; exact he'.trans (hM.eps hp0)
  · rw [neg_fun]; exact w1

/-- **C105** `double`s, hypotheses about the sources only: at distances between `θ` and `2/θ` from all sources, potential and
force are not finite or have the errors of C77. -/
theorem C105_well_placed {M a : ℝ} {k : ℕ} (hF : D2.Is64 F) (hlog : LogAccurate F) (hlf : D2.LogOf log F)
    (hM : Moderate S p θ τ) (hW : WellPlaced (1 / 2 ^ 49) S M a k) (hlo : θ ≤ 36 / 25 * (a / 2 ^ k)) (hhi : θ * (6 * M) ≤ 1)
    (hmax : 1 ≤ max) {t : BinomialTable} (ht : Reachable t) {eps : ℝ}
    (hord : Rounded.expansionOrder F.rnd F.rlog (Rounded.totalStrength F.rnd S) eps = .ok p) (hp0 : 0 < p) (hp : p ≤ 1029) :
    ∃ r h fuel, Rounded.sourceBox F.rnd S = some r ∧ 2 * a < r.len ∧ r.len ≤ 3 * M ∧ h ≤ k ∧ ∀ f ≥ fuel, ∀ sch, Schedule sch →
      ∃ T, Rounded.adaptiveFmm F.rnd F.rlog F.nrm (D2.kit log) f sch t S max eps = .ok T ∧ T.order = p ∧ T.height = h ∧
        ∀ x, (∀ s ∈ S, θ ≤ dist2 s.pos x ∧ dist2 s.pos x ≤ 2 / θ) → ∀ grav,
          NearOrBad (dblPotential F log f grav T S x) (directPotential grav S x)
            (potError (1 / 2 ^ 49) r.len S p h (4 * (h * S.length) + 1) x) ∧
          ∀ feps, 0 ≤ feps → feps ≤ 1 / θ ^ 2 → VNearOrBad (dblForce F log feps f grav T S x) (directField grav S x feps)
            (forceError (1 / 2 ^ 49) (r.len / 2 ^ h) S p h (4 * (h * S.length) + 1) feps x) := by
  have h0 := hM.th0
  have hη := hM.floor_le hp0
  have hθ := hM.theta hp0
  have hinv := hM.inv hp0
  have ha := hW.pos
  obtain ⟨s0, hs0, -⟩ := hW.low 0
  have haM : a ≤ M := by
    obtain ⟨s, hs, h1⟩ := hW.high 0
    exact h1.trans ((le_abs_self _).trans (hW.bound s hs 0))
  have hMb : M ≤ 2 ^ (128 : ℤ) := by
    have : M ≤ 1 / θ := by rw [le_div_iff₀ h0]; nlinarith
    linarith
  have hη1 : floor64 θ ≤ 1 / 100000 :=
    hη.trans ((two_pow_mono (by norm_num : (-507 : ℤ) ≤ -20)).trans (by norm_num))
  have hηM : 1000 * floor64 θ ≤ M := by
    have h1 : θ ≤ 36 / 25 * a := by
      refine hlo.trans (mul_le_mul_of_nonneg_left (div_le_self ha.le (one_le_pow₀ (by norm_num))) (by norm_num))
    have h2 : (2 : ℝ) ^ (-507 : ℤ) ≤ 2 ^ (-140 : ℤ) := two_pow_mono (by norm_num)
    have h3 : (2 : ℝ) ^ (-128 : ℤ) = 2 ^ (-140 : ℤ) * 4096 := by
      rw [show (-128 : ℤ) = -140 + 12 by norm_num, zpow_add₀ (by norm_num)]; norm_num
    have := two_pow_pos (-140)
    linarith
  obtain ⟨r, h, fuel, T, t0, t1, t2, -, t3, t4, t5, t6, t7⟩ := C105_floor_well_placed (hM.low hF hlog) hM.scale hη1 hM.th1 hW hlo hhi
    hηM hM.strength hmax ht hord hp0 hp
  refine ⟨r, h, fuel + h + 1, t0, t1, t2, t3, fun f hf sch hsch => ?_⟩
  obtain ⟨T', u1, u2, u3, -, -, -, -, u8⟩ := D2.C100_adaptive hF hlf (fun s hs j => by
    refine (hW.bound s hs j).trans (hMb.trans (two_pow_mono (by norm_num)))) (t4 f (by omega) sch hsch)
  refine ⟨T', u1, u2.trans t5, u3.trans t6, fun x hx grav => ?_⟩
  have hxb : ∀ j, |x j| ≤ 2 ^ (254 : ℤ) := fun j => by
    have h1 := (hx s0 hs0).2
    have h2 : |s0.pos j - x j| ≤ dist2 s0.pos x := by
      rw [← norm_toC_sub]
      fin_cases j
      · exact Complex.abs_re_le_norm (toC s0.pos - toC x)
      · exact Complex.abs_im_le_norm (toC s0.pos - toC x)
    have h3 := hW.bound s0 hs0 j
    have h4 : 2 / θ ≤ 2 * 2 ^ (128 : ℤ) := by rw [show 2 / θ = 2 * (1 / θ) by ring]; linarith
    have h5 : |x j| ≤ |s0.pos j| + |s0.pos j - x j| := by
      have := abs_sub (s0.pos j) (s0.pos j - x j)
      rwa [sub_sub_cancel] at this
    have h6 : (2 : ℝ) ^ (254 : ℤ) = 2 ^ (128 : ℤ) * 2 ^ (126 : ℤ) := by rw [← zpow_add₀ (by norm_num)]; norm_num
    have h7 : (4 : ℝ) ≤ 2 ^ (126 : ℤ) := le_trans (by norm_num) (two_pow_mono (by norm_num : (2 : ℤ) ≤ 126))
    have h8 := two_pow_pos 128
    rw [h6]
    nlinarith
  obtain ⟨⟨v, v1, v2⟩, g3⟩ := t7 x hx f (by omega) grav
  refine ⟨near_of_same ((u8 x hxb grav).1 v v1) v2, fun feps he he' => ?_⟩
  obtain ⟨w, w1, w2⟩ := g3 feps he he'
  refine vnear_of_same ((u8 x hxb grav).2 feps ?_ w ?_) w2
  · rw [abs_of_nonneg he]; exact he'.trans (hM.eps hp0)
  · rw [neg_fun]; exact w1

/-! ## An instance -/

theorem logAccurate_flt64 : LogAccurate D2.flt64 :=
  (Lo.low_flt64 (ρ := 1 / 2) (η := 2 ^ (-1019 : ℤ)) (by norm_num) (by norm_num)
    (by
      rw [show (-1019 : ℤ) = -1021 + 2 by norm_num, zpow_add₀ (by norm_num), show ((2 : ℝ) ^ (2 : ℤ)) = 4 by norm_num]
      generalize (2 : ℝ) ^ (-1021 : ℤ) = w
      linarith)
    ((two_pow_mono (by norm_num : (-1019 : ℤ) ≤ -10)).trans (by norm_num))).log

theorem S4_moderate : Moderate S4 1 (1 / 18) 1 where
  th0 := by norm_num
  th1 := by norm_num
  tau0 := one_pos
  tau1 := le_rfl
  strength := by
    intro s hs
    simp only [S4, List.mem_cons, List.not_mem_nil, or_false] at hs
    rcases hs with rfl | rfl | rfl | rfl <;> simp
  range := by
    have h1 : (2 : ℝ) ^ (-1019 : ℤ) ≤ 2 ^ (-60 : ℤ) := two_pow_mono (by norm_num)
    calc ((1 : ℕ) + 1 : ℝ) * 2 ^ (-1019 : ℤ) ≤ ((1 : ℕ) + 1 : ℝ) * 2 ^ (-60 : ℤ) := mul_le_mul_of_nonneg_left h1 (by norm_num)
      _ ≤ 1 * (1 / 18) ^ (2 * 1 + 6) := by norm_num

theorem S4_order64 : Rounded.expansionOrder D2.flt64.rnd D2.flt64.rlog (Rounded.totalStrength D2.flt64.rnd S4) 2 = .ok 1 := by
  have big : ∀ x : ℝ, 1 ≤ |x| → rndU x = Rounded.rndNE x := fun x hx => by
    unfold rndU
    rw [if_neg]
    exact not_lt.mpr (le_trans ((two_pow_mono (by norm_num : (-1022 : ℤ) ≤ 0)).trans (by norm_num)) hx)
  have e1 : rndU (1 : ℝ) = 1 := by
    rw [big _ (by norm_num)]
    have := rndNE_mantissa (n := 2 ^ 52) (e := -52) (by norm_num) (by norm_num)
    norm_num at this; exact this
  have e2 : rndU (2 : ℝ) = 2 := by
    rw [big _ (by norm_num)]
    have := rndNE_mantissa (n := 2 ^ 52) (e := -51) (by norm_num) (by norm_num)
    norm_num at this; exact this
  have e3 : rndU (3 : ℝ) = 3 := by
    rw [big _ (by norm_num)]
    have := rndNE_mantissa (n := 3 * 2 ^ 51) (e := -51) (by norm_num) (by norm_num)
    norm_num at this; exact this
  have e4 : rndU (4 : ℝ) = 4 := by
    rw [big _ (by norm_num)]
    have := rndNE_mantissa (n := 2 ^ 52) (e := -50) (by norm_num) (by norm_num)
    norm_num at this; exact this
  have hA : Rounded.totalStrength D2.flt64.rnd S4 = 4 := by
    unfold Rounded.totalStrength S4
    simp only [D2.flt64, Flt.ofRnd, List.foldl_cons, List.foldl_nil, abs_one, zero_add]
    norm_num [e1, e2, e3, e4]
  have hd : D2.flt64.rnd (4 / 2) = 2 := by
    show rndU (4 / 2 : ℝ) = 2
    norm_num [e2]
  have hl : D2.flt64.rlog 2 ≠ 0 := by
    intro h0
    have := (S4_moderate.low D2.flt64_is logAccurate_flt64).rlog 2 (by norm_num)
    have hlog : (1 : ℝ) / 2 ≤ Real.log 2 := by linarith [Real.log_two_gt_d9]
    have hfl := S4_moderate.floor_le one_pos
    have hfl' : (2 : ℝ) ^ (-507 : ℤ) ≤ 1 / 2 := (two_pow_mono (by norm_num : (-507 : ℤ) ≤ -1)).trans (by norm_num)
    rw [h0, zero_sub, abs_neg, abs_of_pos (by linarith), max_eq_left (hfl.trans (hfl'.trans hlog))] at this
    norm_num at this
    linarith
  unfold Rounded.expansionOrder
  rw [hA, hd, if_neg (by norm_num), div_self hl]
  have : D2.flt64.rnd 1 = 1 := e1
  rw [this, Int.ceil_one]
  rfl

theorem S4_dist (s : Source 2) (hs : s ∈ S4) : 1 / 18 ≤ dist2 s.pos 0 ∧ dist2 s.pos 0 ≤ 2 / (1 / 18) := by
  have h : dist2 s.pos 0 = Real.sqrt 18 := by
    simp only [S4, List.mem_cons, List.not_mem_nil, or_false] at hs
    rcases hs with rfl | rfl | rfl | rfl <;> (unfold dist2; rw [Fin.sum_univ_two]; norm_num)
  rw [h]
  constructor
  · exact Real.le_sqrt_of_sq_le (by norm_num)
  · rw [Real.sqrt_le_left (by norm_num)]; norm_num

/-- Non-vacuity: the potential and the force of four charges at the centre of their square. -/
example : ∃ r h f T, Rounded.sourceBox D2.flt64.rnd S4 = some r ∧ h ≤ 1 ∧
    Rounded.adaptiveFmm D2.flt64.rnd D2.flt64.rlog D2.flt64.nrm (D2.kit (D2.logOf D2.flt64)) f (fun _ l => l.reverse) BinomialTable.init S4 1 2 = .ok T ∧
    T.order = 1 ∧
    NearOrBad (dblPotential D2.flt64 (D2.logOf D2.flt64) f true T S4 0) (directPotential true S4 0)
      (potError (1 / 2 ^ 49) r.len S4 1 h (4 * (h * 4) + 1) 0) ∧
    VNearOrBad (dblForce D2.flt64 (D2.logOf D2.flt64) 0 f true T S4 0) (directField true S4 0 0)
      (forceError (1 / 2 ^ 49) (r.len / 2 ^ h) S4 1 h (4 * (h * 4) + 1) 0 0) := by
  obtain ⟨r, h, f, h0, -, -, h1, h2⟩ := C105_well_placed (max := 1) D2.flt64_is logAccurate_flt64 (D2.logOf_of D2.flt64) S4_moderate S4_placed
    (by norm_num) (by norm_num) le_rfl reachable_init S4_order64 one_pos (by norm_num)
  obtain ⟨T, t1, t2, t3, t4⟩ := h2 f le_rfl (fun _ (l : List Path) => l.reverse) (fun _ l => l.reverse_perm)
  obtain ⟨a, b⟩ := t4 0 S4_dist true
  exact ⟨r, h, f, T, h0, h1, t1, t2, a, b 0 le_rfl (by norm_num)⟩

end FMM
