import Verif.PropsFmm
import Verif.Fmm2D
import Verif.PropsBalanced
import Verif.Example2D

/-!
# Two-dimensional trees: C32 (construction), C38, C39, C40, C42, C43, C44, C55

Everything is stated for an arbitrary state of the static binomial table that previous calls can have left behind
(`Reachable`), arbitrary sources with `AdaptiveInput` / `BalancedInput` (root box covers the sources; termination,
respectively unique leaf indices) and every order `1 ≤ p ≤ 1029` produced by the order formula.
-/

namespace FMM

/-- `rho^(p+1) / ((p+1) (1-rho))`, `rho = 1/√2`. -/
noncomputable def errPot (p : ℕ) : ℝ := (1 / Real.sqrt 2) ^ (p + 1) / ((p + 1) * (1 - 1 / Real.sqrt 2))

/-- `rho^p / ((2-√2) b)`: `b` is the side of the smallest box. -/
noncomputable def errForce (p : ℕ) (b : ℝ) : ℝ := (1 / Real.sqrt 2) ^ p / ((2 - Real.sqrt 2) * b)

theorem rho2_eq : rho2 = 1 / Real.sqrt 2 := by
  have h : Real.sqrt 2 ≠ 0 := by positivity
  unfold rho2
  rw [div_eq_div_iff (by norm_num) h]
  have := Real.mul_self_sqrt (show (0 : ℝ) ≤ 2 by norm_num)
  linarith

theorem potB2_eq (p : ℕ) : potB2 p = errPot p := by
  unfold potB2 tailBound errPot; rw [rho2_eq]

theorem forceB2_eq (p : ℕ) (b : ℝ) : forceB2 p b = errForce p b := by
  unfold forceB2 errForce; rw [rho2_eq]

theorem rootBox_nil {d : ℕ} : rootBox ([] : List (Vec (d + 1))) = none := rfl

theorem nonempty_of_box {d : ℕ} {S : List (Source (d + 1))} {r : Box (d + 1)} (h : rootBox (S.map Source.pos) = some r) : S ≠ [] := by
  rintro rfl
  rw [List.map_nil, rootBox_nil] at h
  exact absurd h (by simp)

theorem box_len_nonneg {d : ℕ} {S : List (Source (d + 1))} {r : Box (d + 1)} (h : rootBox (S.map Source.pos) = some r) : 0 ≤ r.len := by
  obtain ⟨r', lo, hi, E, h1, h2, h3, -, ⟨i, h4⟩, h5, -⟩ := rootBox_spec (S.map Source.pos) (by simpa using nonempty_of_box h)
  rw [h] at h1
  injection h1 with h1
  obtain ⟨⟨q, hq, hqi⟩, -⟩ := h3 i
  have := (h2 i).2 q hq
  have hE : 0 ≤ E := by rw [← h4, ← hqi]; linarith
  rw [h1, h5]
  unfold paddingFactor
  positivity

theorem BalancedInput.len_pos {d : ℕ} {S : List (Source (d + 1))} {perCell : ℕ} {r : Box (d + 1)} {h : ℕ}
    (hI : BalancedInput S perCell r h) :
    0 < r.len := by
  obtain ⟨s, hs⟩ := List.exists_mem_of_ne_nil S (nonempty_of_box hI.box)
  have := hI.inside s hs 0
  rw [Box.lower_apply, Box.upper_apply] at this
  linarith [this.1, this.2]

theorem le2_zero {t : BinomialTable} (ht : t.Good) (c : Vec 2) {p : ℕ} (hp : p ≤ 1029) :
    ∃ t' e, Exp2.new t c p = .ok (t', e) ∧ (∀ x, Exp2.lePot e x = .ok 0) ∧ ∀ x, Exp2.leForce e x = .ok 0 := by
  obtain ⟨t', e, h1, -, -, h4⟩ := new_cov hp t c ht
  refine ⟨t', e, h1, fun x => ?_, fun x => ?_⟩
  · rw [Exp2.lePot_ok h4]; simp
  · rw [Exp2.leForce_ok h4]; simp [fieldOf_zero]

theorem sgn_direct {d : ℕ} (grav : Bool) (S : List (Source d)) (x : Vec d) :
    directPotential grav S x = if grav then directPotential true S x else -directPotential true S x := by
  cases grav
  · exact directPotential_neg S x
  · rfl

theorem sgn_directField {d : ℕ} (grav : Bool) (S : List (Source d)) (x : Vec d) (feps : ℝ) :
    directField grav S x feps = if grav then directField true S x feps else -directField true S x feps := by
  cases grav
  · exact directField_neg S x feps
  · rfl

theorem sgn_bound (grav : Bool) (v D b : ℝ) (h : |v - D| ≤ b) :
    |(if grav then v else -v) - (if grav then D else -D)| ≤ b := by
  cases grav
  · simp only [Bool.false_eq_true, if_false]
    rwa [show -v - -D = -(v - D) by ring, abs_neg]
  · simpa using h

theorem sgn_bound_field {d : ℕ} (grav : Bool) (v D : Vec d) (b : ℝ) (h : dist2 v D ≤ b) :
    dist2 (if grav then v else -v) (if grav then D else -D) ≤ b := by
  cases grav
  · simp only [Bool.false_eq_true, if_false]
    have : dist2 (-v) (-D) = dist2 v D := by
      unfold dist2; congr 1
      refine Finset.sum_congr rfl fun j _ => ?_
      simp only [Pi.neg_apply]; ring
    rwa [this]
  · simpa using h

section
variable {t : BinomialTable} {S : List (Source 2)} {r : Box 2} {eps : ℝ} {p : ℕ}

/-! ## C38 -/

/-- **C38** Adaptive tree: no iteration of a parallel loop of the passes reads or writes a cell that another iteration of the
same loop writes, and the result is the same for every schedule. -/
theorem C38_adaptive_2d (ht : Reachable t) {max : ℕ} (hI : AdaptiveInput S max r) (hN : max < S.length)
    (hord : expansionOrder (totalStrength S) eps = .ok p) (hp0 : 1 ≤ p) (hp : p ≤ 1029) :
    ∃ (fuel0 : ℕ) (T0 : AdaptiveFmm kit2) (up down : List (List Path)) (T : AdaptiveFmm kit2),
      (∀ fuel ≥ fuel0, adaptiveInit kit2 fuel t S max eps = .ok T0) ∧
      adaptiveUp T0.nodes T0.height = .ok up ∧ adaptiveDown T0.nodes T0.leaves T0.height = .ok down ∧
      RaceFreePasses kit2 T0.shape T0.order (constructLE kit2 T0.shape T0.order) T0.leaves up down T0.exps ∧
      ∀ fuel ≥ fuel0, ∀ sch, Schedule sch → adaptiveFmm kit2 fuel sch t S max eps = .ok T := by
  obtain ⟨fuel0, T, s0, up, down, h1, h2, h3, h4, h5, -⟩ := adaptive_main (laws2Pot p hp0 hp) ht.good hI hN hord
  exact ⟨fuel0, _, up, down, T, h1, h2, h3, h4, h5⟩

/-- **C38** Balanced tree. -/
theorem C38_balanced_2d (ht : Reachable t) {perCell h : ℕ} (hI : BalancedInput S perCell r h) (hh : 1 ≤ h)
    (hord : expansionOrder (totalStrength S) eps = .ok p) (hp0 : 1 ≤ p) (hp : p ≤ 1029) :
    ∃ (fuel0 : ℕ) (T0 T : BalancedFmm kit2),
      (∀ fuel ≥ fuel0, balancedInit kit2 fuel t S perCell eps = .ok T0) ∧
      RaceFreePasses kit2 T0.shape T0.order (balancedLE kit2 T0.shape) [balancedLeafLoop T0.mem.nLeaves]
        (balancedUp 2 T0.height) (balancedDown 2 T0.height T0.mem.nLeaves) T0.exps ∧
      ∀ fuel ≥ fuel0, ∀ sch, Schedule sch → balancedFmm kit2 fuel sch t S perCell eps = .ok T := by
  have hs := hI.small
  obtain ⟨fuel0, T, s0, h1, h2, h3, -⟩ := balanced_main (laws2Pot p hp0 hp) ht.good le_rfl hI hh hI.len_pos
    (by omega) hord
  exact ⟨fuel0, _, T, h1, h2, h3⟩

/-! ## C44 -/

/-- **C44** A tree with at most `max` sources returns exactly the direct sum, also at order 0. -/
theorem C44_adaptive_2d (ht : Reachable t) {max : ℕ} (hr : rootBox (S.map Source.pos) = some r) (hN : S.length ≤ max)
    (hord : expansionOrder (totalStrength S) eps = .ok p) (hp : p ≤ 1029) (feps : ℝ) (hf : 0 ≤ feps) :
    ∃ T : AdaptiveFmm kit2, (∀ fuel ≥ 1, ∀ sch, adaptiveFmm kit2 fuel sch t S max eps = .ok T) ∧ T.order = p ∧
      ∀ x, r.contains x → ∀ grav cur, ∀ fuel ≥ 1,
        adaptiveEval pot2 fuel grav T cur x = .ok (directPotential grav S x) ∧
        adaptiveEval (force2 feps) fuel grav T cur x = .ok (directField grav S x feps) := by
  obtain ⟨t', e, h1, h2, h3⟩ := le2_zero ht.good r.center hp
  obtain ⟨T, a1, a2, a3, a4, -⟩ := adaptive_single (K := kit2) (O := pot2) hr hN hord h1 (P := fun _ => True) (fun x _ => h2 x) (direct := directPotential true S)
    fun x => potentialSum_safe true S x
  obtain ⟨T', b1, b2, b3, b4, -⟩ := adaptive_single (K := kit2) (O := force2 feps) hr hN hord h1 (P := fun _ => True) (fun x _ => h3 x)
    (direct := fun x => directField true S x feps) fun x => forcefieldSum_safe true S x feps hf
  have hTT : T = T' := by
    have := (a1 1 le_rfl (fun _ l => l)).symm.trans (b1 1 le_rfl (fun _ l => l))
    injection this
  subst hTT
  refine ⟨T, a1, a2, fun x hx grav cur fuel hfu => ⟨?_, ?_⟩⟩
  · rw [a4 x hx trivial grav cur fuel hfu, ← sgn_direct grav]
  · rw [b4 x hx trivial grav cur fuel hfu, ← sgn_directField grav]

/-- **C44** The same for a balanced tree of height 0. -/
theorem C44_balanced_2d (ht : Reachable t) {perCell : ℕ} (hr : rootBox (S.map Source.pos) = some r)
    (hh : balancedHeight 2 S.length perCell = .ok 0)
    (hord : expansionOrder (totalStrength S) eps = .ok p) (hp : p ≤ 1029) (feps : ℝ) (hf : 0 ≤ feps) :
    ∃ T : BalancedFmm kit2, (∀ fuel ≥ 1, ∀ sch, balancedFmm kit2 fuel sch t S perCell eps = .ok T) ∧ T.order = p ∧
      ∀ x, r.containsHO x → ∀ grav,
        balancedEval pot2 grav T x = .ok (directPotential grav S x) ∧
        balancedEval (force2 feps) grav T x = .ok (directField grav S x feps) := by
  obtain ⟨t', e, h1, h2, h3⟩ := le2_zero ht.good r.center hp
  obtain ⟨T, a1, a2, a3, a4⟩ := balanced_single (K := kit2) (O := pot2) le_rfl (by norm_num) hr hh hord h1 (P := fun _ => True) (fun x _ => h2 x)
    (direct := directPotential true S) fun x => potentialSum_safe true S x
  obtain ⟨T', b1, b2, b3, b4⟩ := balanced_single (K := kit2) (O := force2 feps) le_rfl (by norm_num) hr hh hord h1 (P := fun _ => True) (fun x _ => h3 x)
    (direct := fun x => directField true S x feps) fun x => forcefieldSum_safe true S x feps hf
  have hTT : T = T' := by
    have := (a1 1 le_rfl (fun _ l => l)).symm.trans (b1 1 le_rfl (fun _ l => l))
    injection this
  subst hTT
  refine ⟨T, a1, a2, fun x hx grav => ⟨?_, ?_⟩⟩
  · rw [a4 x hx trivial grav, ← sgn_direct grav]
  · rw [b4 x hx trivial grav, ← sgn_directField grav]

/-! ## C39, C40 -/

/-- **C40** The adaptive tree is constructed without error, its order is `p`, and its potential differs from the direct sum
by at most `(Σ|q|) rho^(p+1)/((p+1)(1-rho))` everywhere in the root box; elsewhere the direct sum over the caller's
sources is returned. -/
theorem C40_adaptive (ht : Reachable t) {max : ℕ} (hI : AdaptiveInput S max r)
    (hord : expansionOrder (totalStrength S) eps = .ok p) (hp0 : 1 ≤ p) (hp : p ≤ 1029) :
    ∃ (fuel0 : ℕ) (T : AdaptiveFmm kit2),
      (∀ fuel ≥ fuel0, ∀ sch, Schedule sch → adaptiveFmm kit2 fuel sch t S max eps = .ok T) ∧ T.order = p ∧
      (∀ x, r.contains x → ∀ grav cur, ∃ v, (∀ fuel ≥ fuel0, adaptiveEval pot2 fuel grav T cur x = .ok v) ∧
        |v - directPotential grav S x| ≤ (S.map fun s => |s.q|).sum * errPot p) ∧
      (∀ x, ¬ r.contains x → ∀ grav cur, (∀ s ∈ cur, s.pos ≠ x) → ∀ fuel ≥ fuel0,
        adaptiveEval pot2 fuel grav T cur x = .ok (directPotential grav cur x)) := by
  by_cases hN : S.length ≤ max
  · obtain ⟨t', e, h1, h2, -⟩ := le2_zero ht.good r.center hp
    obtain ⟨T, a1, a2, a3, a4, a5⟩ := adaptive_single (K := kit2) (O := pot2) hI.box hN hord h1 (P := fun _ => True) (fun x _ => h2 x)
      (direct := directPotential true S) fun x => potentialSum_safe true S x
    refine ⟨1, T, fun fuel hf sch _ => a1 fuel hf sch, a2, fun x hx grav cur => ?_, fun x hx grav cur hc fuel hf => ?_⟩
    · refine ⟨directPotential grav S x, fun fuel hf => ?_, ?_⟩
      · rw [a4 x hx trivial grav cur fuel hf, ← sgn_direct grav]
      · rw [sub_self, abs_zero, ← totalStrength_eq, ← potB2_eq]
        exact mul_nonneg (totalStrength_nonneg S) (potB2_nonneg p)
    · rw [a5 x hx grav cur fuel hf]
      exact (C34_unguarded grav cur x).1 hc
  · obtain ⟨fuel0, T, s0, up, down, -, -, -, -, h5, h6, -, h7, h8⟩ :=
      adaptive_main (laws2Pot p hp0 hp) ht.good hI (by omega) hord
    refine ⟨fuel0, T, h5, h6, fun x hx grav cur => ?_, fun x hx grav cur hc fuel hf => ?_⟩
    · obtain ⟨v, v1, v2⟩ := h7 x hx (fun _ _ => trivial) grav cur
      refine ⟨_, v1, ?_⟩
      rw [sgn_direct grav, ← totalStrength_eq, mul_comm, ← potB2_eq]
      exact sgn_bound grav _ _ _ v2
    · rw [h8 x hx grav cur fuel hf]
      exact (C34_unguarded grav cur x).1 hc

/-- **C39** The same for the balanced tree, at all points of the half-open root box. -/
theorem C39_balanced (ht : Reachable t) {perCell h : ℕ} (hI : BalancedInput S perCell r h)
    (hord : expansionOrder (totalStrength S) eps = .ok p) (hp0 : 1 ≤ p) (hp : p ≤ 1029) :
    ∃ (fuel0 : ℕ) (T : BalancedFmm kit2),
      (∀ fuel ≥ fuel0, ∀ sch, Schedule sch → balancedFmm kit2 fuel sch t S perCell eps = .ok T) ∧ T.order = p ∧ T.height = h ∧
      ∀ x, r.containsHO x → ∀ grav, ∃ v, balancedEval pot2 grav T x = .ok v ∧
        |v - directPotential grav S x| ≤ (S.map fun s => |s.q|).sum * errPot p := by
  have hs := hI.small
  rcases Nat.eq_zero_or_pos h with rfl | hh
  · obtain ⟨t', e, h1, h2, -⟩ := le2_zero ht.good r.center hp
    obtain ⟨T, a1, a2, a3, a4⟩ := balanced_single (K := kit2) (O := pot2) le_rfl (by norm_num) hI.box hI.height hord h1 (P := fun _ => True) (fun x _ => h2 x)
      (direct := directPotential true S) fun x => potentialSum_safe true S x
    refine ⟨1, T, fun fuel hf sch _ => a1 fuel hf sch, a2, a3, fun x hx grav => ⟨directPotential grav S x, ?_, ?_⟩⟩
    · rw [a4 x hx trivial grav, ← sgn_direct grav]
    · rw [sub_self, abs_zero, ← totalStrength_eq, ← potB2_eq]
      exact mul_nonneg (totalStrength_nonneg S) (potB2_nonneg p)
  · obtain ⟨fuel0, T, s0, -, -, h3, h4, h5, h6⟩ := balanced_main (laws2Pot p hp0 hp) ht.good le_rfl hI hh hI.len_pos
      (by omega) hord
    refine ⟨fuel0, T, h3, h4, h5, fun x hx grav => ?_⟩
    obtain ⟨v, v1, v2⟩ := h6 x hx trivial grav
    refine ⟨_, v1, ?_⟩
    rw [sgn_direct grav, ← totalStrength_eq, mul_comm, ← potB2_eq]
    exact sgn_bound grav _ _ _ v2

/-! ## C55 -/

/-- **C55** Force of the adaptive tree (`force_smoothing_eps = 0`). -/
theorem C55_adaptive (ht : Reachable t) {max : ℕ} (hI : AdaptiveInput S max r)
    (hord : expansionOrder (totalStrength S) eps = .ok p) (hp0 : 1 ≤ p) (hp : p ≤ 1029) :
    ∃ (fuel0 : ℕ) (T : AdaptiveFmm kit2),
      (∀ fuel ≥ fuel0, ∀ sch, Schedule sch → adaptiveFmm kit2 fuel sch t S max eps = .ok T) ∧ T.order = p ∧
      (∀ x, r.contains x → ∀ grav cur, ∃ v, (∀ fuel ≥ fuel0, adaptiveEval (force2 0) fuel grav T cur x = .ok v) ∧
        dist2 v (directField grav S x 0) ≤ (S.map fun s => |s.q|).sum * errForce p (r.len / 2 ^ T.height)) ∧
      (∀ x, ¬ r.contains x → ∀ grav cur, (∀ s ∈ cur, s.pos ≠ x) → ∀ fuel ≥ fuel0,
        adaptiveEval (force2 0) fuel grav T cur x = .ok (directField grav cur x 0)) := by
  by_cases hN : S.length ≤ max
  · obtain ⟨t', e, h1, -, h3⟩ := le2_zero ht.good r.center hp
    obtain ⟨T, a1, a2, a3, a4, a5⟩ := adaptive_single (K := kit2) (O := force2 0) hI.box hN hord h1 (P := fun _ => True) (fun x _ => h3 x)
      (direct := fun x => directField true S x 0) fun x => forcefieldSum_safe true S x 0 le_rfl
    refine ⟨1, T, fun fuel hf sch _ => a1 fuel hf sch, a2, fun x hx grav cur => ?_, fun x hx grav cur hc fuel hf => ?_⟩
    · refine ⟨directField grav S x 0, fun fuel hf => ?_, ?_⟩
      · rw [a4 x hx trivial grav cur fuel hf, ← sgn_directField grav]
      · rw [(dist2_eq_zero_iff _ _).mpr rfl]
        have := box_len_nonneg hI.box
        have h2 : 0 < 2 - Real.sqrt 2 := by linarith [sqrt2_lt]
        rw [← totalStrength_eq]
        exact mul_nonneg (totalStrength_nonneg S) (by unfold errForce; positivity)
    · rw [a5 x hx grav cur fuel hf]
      exact forcefieldSum_unsafe grav cur x 0 le_rfl hc
  · obtain ⟨fuel0, T, s0, up, down, -, -, -, -, h5, h6, -, h7, h8⟩ :=
      adaptive_main (laws2Force p hp0 hp) ht.good hI (by omega) hord
    refine ⟨fuel0, T, h5, h6, fun x hx grav cur => ?_, fun x hx grav cur hc fuel hf => ?_⟩
    · obtain ⟨v, v1, v2⟩ := h7 x hx (fun _ _ => trivial) grav cur
      refine ⟨_, v1, ?_⟩
      rw [sgn_directField grav, ← totalStrength_eq, mul_comm, ← forceB2_eq]
      exact sgn_bound_field grav _ _ _ (by rw [← dist2_sub_zero]; exact v2)
    · rw [h8 x hx grav cur fuel hf]
      exact forcefieldSum_unsafe grav cur x 0 le_rfl hc

/-- **C55** Force of the balanced tree. -/
theorem C55_balanced (ht : Reachable t) {perCell h : ℕ} (hI : BalancedInput S perCell r h)
    (hord : expansionOrder (totalStrength S) eps = .ok p) (hp0 : 1 ≤ p) (hp : p ≤ 1029) :
    ∃ (fuel0 : ℕ) (T : BalancedFmm kit2),
      (∀ fuel ≥ fuel0, ∀ sch, Schedule sch → balancedFmm kit2 fuel sch t S perCell eps = .ok T) ∧ T.order = p ∧ T.height = h ∧
      ∀ x, r.containsHO x → ∀ grav, ∃ v, balancedEval (force2 0) grav T x = .ok v ∧
        dist2 v (directField grav S x 0) ≤ (S.map fun s => |s.q|).sum * errForce p (r.len / 2 ^ h) := by
  have hs := hI.small
  rcases Nat.eq_zero_or_pos h with rfl | hh
  · obtain ⟨t', e, h1, -, h3⟩ := le2_zero ht.good r.center hp
    obtain ⟨T, a1, a2, a3, a4⟩ := balanced_single (K := kit2) (O := force2 0) le_rfl (by norm_num) hI.box hI.height hord h1 (P := fun _ => True) (fun x _ => h3 x)
      (direct := fun x => directField true S x 0) fun x => forcefieldSum_safe true S x 0 le_rfl
    refine ⟨1, T, fun fuel hf sch _ => a1 fuel hf sch, a2, a3, fun x hx grav => ⟨directField grav S x 0, ?_, ?_⟩⟩
    · rw [a4 x hx trivial grav, ← sgn_directField grav]
    · rw [(dist2_eq_zero_iff _ _).mpr rfl]
      have := hI.len_pos
      have h2 : 0 < 2 - Real.sqrt 2 := by linarith [sqrt2_lt]
      rw [← totalStrength_eq]
      exact mul_nonneg (totalStrength_nonneg S) (by unfold errForce; positivity)
  · obtain ⟨fuel0, T, s0, -, -, h3, h4, h5, h6⟩ := balanced_main (laws2Force p hp0 hp) ht.good le_rfl hI hh hI.len_pos
      (by omega) hord
    refine ⟨fuel0, T, h3, h4, h5, fun x hx grav => ?_⟩
    obtain ⟨v, v1, v2⟩ := h6 x hx trivial grav
    refine ⟨_, v1, ?_⟩
    rw [sgn_directField grav, ← totalStrength_eq, mul_comm, ← forceB2_eq]
    exact sgn_bound_field grav _ _ _ (by rw [← dist2_sub_zero]; exact v2)

/-! ## C32 -/

/-- **C32** `operator+=` never throws while a tree is built. -/
theorem C32_construction_2d (ht : Reachable t) (hord : expansionOrder (totalStrength S) eps = .ok p) (hp0 : 1 ≤ p)
    (hp : p ≤ 1029) :
    (∀ max, AdaptiveInput S max r → ∃ fuel0, ∀ fuel ≥ fuel0, ∀ sch, Schedule sch →
      adaptiveFmm kit2 fuel sch t S max eps ≠ .error .logicError) ∧
    (∀ perCell h, BalancedInput S perCell r h → ∃ fuel0, ∀ fuel ≥ fuel0, ∀ sch, Schedule sch →
      balancedFmm kit2 fuel sch t S perCell eps ≠ .error .logicError) := by
  constructor
  · intro max hI
    obtain ⟨f, T, h, -⟩ := C40_adaptive ht hI hord hp0 hp
    exact ⟨f, fun fuel hf sch hs => by rw [h fuel hf sch hs]; simp⟩
  · intro perCell h hI
    obtain ⟨f, T, h, -⟩ := C39_balanced ht hI hord hp0 hp
    exact ⟨f, fun fuel hf sch hs => by rw [h fuel hf sch hs]; simp⟩

/-! ## C42 -/

/-- **C42** Evaluating an adaptive tree at the position of a source is a regular evaluation if the source is in the root
box; otherwise it hits the singularity of the unguarded kernel. -/
theorem C42_adaptive_2d (ht : Reachable t) {max : ℕ} (hI : AdaptiveInput S max r)
    (hord : expansionOrder (totalStrength S) eps = .ok p) (hp0 : 1 ≤ p) (hp : p ≤ 1029) :
    ∃ (fuel0 : ℕ) (T : AdaptiveFmm kit2),
      (∀ fuel ≥ fuel0, ∀ sch, Schedule sch → adaptiveFmm kit2 fuel sch t S max eps = .ok T) ∧
      ∀ s ∈ S, ∀ grav, ∃ v w, (∀ fuel ≥ fuel0, adaptiveEval pot2 fuel grav T S s.pos = .ok v) ∧
        ∀ fuel ≥ fuel0, adaptiveEval (force2 0) fuel grav T S s.pos = .ok w := by
  obtain ⟨f1, T, a1, -, a2, -⟩ := C40_adaptive ht hI hord hp0 hp
  obtain ⟨f2, T', b1, -, b2, -⟩ := C55_adaptive ht hI hord hp0 hp
  have hTT : T = T' := by
    have := (a1 (f1 + f2) (by omega) (fun _ l => l) (fun _ _ => List.Perm.refl _)).symm.trans
      (b1 (f1 + f2) (by omega) (fun _ l => l) (fun _ _ => List.Perm.refl _))
    injection this
  subst hTT
  refine ⟨f1 + f2, T, fun fuel hf => a1 fuel (by omega), fun s hs grav => ?_⟩
  obtain ⟨v, v1, -⟩ := a2 s.pos (hI.inside s hs) grav S
  obtain ⟨w, w1, -⟩ := b2 s.pos (hI.inside s hs) grav S
  exact ⟨v, w, fun fuel hf => v1 fuel (by omega), fun fuel hf => w1 fuel (by omega)⟩

/-- **C42** Balanced tree. -/
theorem C42_balanced_2d (ht : Reachable t) {perCell h : ℕ} (hI : BalancedInput S perCell r h)
    (hord : expansionOrder (totalStrength S) eps = .ok p) (hp0 : 1 ≤ p) (hp : p ≤ 1029) :
    ∃ (fuel0 : ℕ) (T : BalancedFmm kit2),
      (∀ fuel ≥ fuel0, ∀ sch, Schedule sch → balancedFmm kit2 fuel sch t S perCell eps = .ok T) ∧
      ∀ s ∈ S, ∀ grav, (∃ v, balancedEval pot2 grav T s.pos = .ok v) ∧ ∃ w, balancedEval (force2 0) grav T s.pos = .ok w := by
  obtain ⟨f1, T, a1, -, -, a2⟩ := C39_balanced ht hI hord hp0 hp
  obtain ⟨f2, T', b1, -, -, b2⟩ := C55_balanced ht hI hord hp0 hp
  have hTT : T = T' := by
    have := (a1 (f1 + f2) (by omega) (fun _ l => l) (fun _ _ => List.Perm.refl _)).symm.trans
      (b1 (f1 + f2) (by omega) (fun _ l => l) (fun _ _ => List.Perm.refl _))
    injection this
  subst hTT
  refine ⟨f1 + f2, T, fun fuel hf => a1 fuel (by omega), fun s hs grav => ?_⟩
  obtain ⟨v, v1, -⟩ := a2 s.pos (hI.inside s hs) grav
  obtain ⟨w, w1, -⟩ := b2 s.pos (hI.inside s hs) grav
  exact ⟨⟨v, v1⟩, w, w1⟩

/-- **C42** A source that the padding of the root box has left outside: the potential at its position is not finite. -/
theorem C42_outside (fuel0 : ℕ) (sch : ℕ → List Path → List Path) {max : ℕ} {T : AdaptiveFmm kit2}
    (hT : adaptiveFmm kit2 fuel0 sch t S max eps = .ok T) (hr : rootBox (S.map Source.pos) = some r) (s : Source 2)
    (hs : s ∈ S) (hout : ¬ r.contains s.pos) (grav : Bool) :
    ∀ fuel > T.height, adaptiveEval pot2 fuel grav T S s.pos = .error .nonFinite := by
  intro fuel hf
  rw [(C13_evaluation pot2 hT hr (box_len_nonneg hr) s.pos).2 hout fuel hf grav S]
  exact (C34_unguarded grav S s.pos).2 ⟨s, hs, rfl⟩

/-! ## C43 -/

/-- **C43** The two evaluation functions of the 2D classes. -/
theorem C43_odd_2d (feps : ℝ) : Odd pot2 ∧ Odd (force2 feps) :=
  ⟨fun safe S x => potentialSum_neg safe S x, fun safe S x => forcefieldSum_neg safe S x feps⟩

end

/-! ## Non-vacuity -/

theorem reachable_init : Reachable BinomialTable.init := ⟨[], by simp, rfl⟩

theorem errPot_three : errPot 3 < 1 / 4 := by
  rw [← potB2_eq]
  unfold potB2 tailBound
  have h1 := rho2_lt
  have h0 := rho2_pos
  have h2 : rho2 ^ 2 = 1 / 2 := by
    unfold rho2; rw [div_pow, Real.sq_sqrt (by norm_num)]; norm_num
  have h4 : rho2 ^ (3 + 1) = 1 / 4 := by
    rw [show 3 + 1 = 2 * 2 from rfl, pow_mul, h2]; norm_num
  rw [h4, div_lt_iff₀ (by push_cast; nlinarith)]
  push_cast
  linarith

/-- C40 for five sources, `max_sources_per_leaf = 1`, `eps = 1`: order 3, error below 5/4 at the centre. -/
example : ∃ fuel T v, adaptiveFmm kit2 fuel (fun _ l => l.reverse) BinomialTable.init S5 1 1 = .ok T ∧ T.order = 3 ∧
    adaptiveEval pot2 fuel true T S5 ![1, 1] = .ok v ∧ |v - directPotential true S5 ![1, 1]| < 5 / 4 := by
  obtain ⟨fuel, T, h1, h2, h3, -⟩ := C40_adaptive reachable_init S5_adaptive S5_order (by norm_num) (by norm_num)
  obtain ⟨v, v1, v2⟩ := h3 ![1, 1] (S5_inside ⟨![1, 1], 1⟩ (by simp [S5])) true S5
  refine ⟨fuel, T, v, h1 fuel le_rfl _ fun _ l => l.reverse_perm, h2, v1 fuel le_rfl, v2.trans_lt ?_⟩
  have : (S5.map fun s => |s.q|).sum = 5 := by simp [S5]; norm_num
  rw [this]
  linarith [errPot_three]

/-- C39, C55, C38 for the balanced tree over the same sources, height 2. -/
example : ∃ fuel T v w, balancedFmm kit2 fuel (fun _ l => l.reverse) BinomialTable.init S5 1 1 = .ok T ∧ T.height = 2 ∧
    balancedEval pot2 false T ![1, 1] = .ok v ∧ |v - directPotential false S5 ![1, 1]| < 5 / 4 ∧
    balancedEval (force2 0) false T ![1, 1] = .ok w := by
  obtain ⟨fuel, T, h1, h2, h3, h4⟩ := C39_balanced reachable_init S5_balanced S5_order (by norm_num) (by norm_num)
  obtain ⟨fuel', T', h1', h2', h3', h4'⟩ := C55_balanced reachable_init S5_balanced S5_order (by norm_num) (by norm_num)
  have hs : Schedule (fun (_ : ℕ) (l : List BAddr) => l.reverse) := fun _ l => l.reverse_perm
  have hTT : T = T' := by
    have := (h1 (fuel + fuel') (by omega) _ hs).symm.trans (h1' (fuel + fuel') (by omega) _ hs)
    injection this
  subst hTT
  obtain ⟨v, v1, v2⟩ := h4 ![1, 1] (S5_insideHO ⟨![1, 1], 1⟩ (by simp [S5])) false
  obtain ⟨w, w1, -⟩ := h4' ![1, 1] (S5_insideHO ⟨![1, 1], 1⟩ (by simp [S5])) false
  refine ⟨fuel, T, v, w, h1 fuel le_rfl _ hs, h3, v1, v2.trans_lt ?_, w1⟩
  have : (S5.map fun s => |s.q|).sum = 5 := by simp [S5]; norm_num
  rw [this]
  linarith [errPot_three]

/-- C38: the hypotheses hold for the adaptive tree over the five sources. -/
example : ∃ T, ∃ fuel0, ∀ fuel ≥ fuel0, ∀ sch, Schedule sch → adaptiveFmm kit2 fuel sch BinomialTable.init S5 1 1 = .ok T := by
  obtain ⟨f, -, -, -, T, -, -, -, -, h⟩ := C38_adaptive_2d reachable_init S5_adaptive (by simp [S5]) S5_order (by norm_num)
    (by norm_num)
  exact ⟨T, f, h⟩

/-- C44, C42: two sources in one leaf.  At the first source, which is outside the root box, the potential is not finite; at
the second it is `log √2`. -/
example : ∃ T, adaptiveFmm kit2 1 (fun _ l => l) BinomialTable.init S2 2 1 = .ok T ∧
    adaptiveEval pot2 1 true T S2 ![1, 1] = .error .nonFinite ∧
    adaptiveEval pot2 1 true T S2 ![2, 2] = .ok (Real.log (Real.sqrt 2)) := by
  obtain ⟨T, h1, h2, h3⟩ := C44_adaptive_2d reachable_init S2_box (max := 2) (by simp [S2]) S2_order (by norm_num) 0 le_rfl
  have hT := h1 1 le_rfl (fun _ l => l)
  have hh : T.height = 0 := by
    obtain ⟨r, st, -, h5, -⟩ := adaptiveFmm_inv hT
    unfold adaptiveBuild at h5
    rw [if_pos (by simp [S2])] at h5
    injection h5 with h5
    exact (congrArg Prod.snd h5).symm
  refine ⟨T, hT, C42_outside 1 _ hT S2_box ⟨![1, 1], 1⟩ (by simp [S2]) S2_outside true 1 (by omega), ?_⟩
  rw [(h3 ![2, 2] S2_inside true S2 1 le_rfl).1]
  have a1 : directTerm true (![2, 2] : Vec 2) ⟨![2, 2], 1⟩ = 0 := if_pos rfl
  have a2 : directTerm true (![2, 2] : Vec 2) ⟨![1, 1], 1⟩ = Real.log (Real.sqrt 2) := by
    unfold directTerm
    rw [if_neg]
    · unfold kernelSpec dist2 sgn
      norm_num [Fin.sum_univ_two]
    · intro h; have := congrFun h 0; norm_num at this
  simp [directPotential, S2, a1, a2]

/-- C43, C45, C37: the two-source tree with the caller's vector emptied after construction; then with particles evaluated in
reverse order. -/
example : ∃ T, adaptiveFmm kit2 1 (fun _ l => l) BinomialTable.init S2 2 1 = .ok T ∧
    adaptiveEval pot2 1 false T [] ![2, 2] = .ok (-directPotential true S2 ![2, 2]) ∧
    adaptiveEval pot2 1 false T [] ![1, 1] = .ok 0 ∧
    ∃ res, particleLoop (fun q v => q * v) (adaptiveEval pot2 1 true T [⟨![2, 2], 3⟩, ⟨![2, 2], 4⟩])
      [⟨![2, 2], 3⟩, ⟨![2, 2], 4⟩] [1, 0] = .ok res ∧ res.val 1 = 4 * directPotential true S2 ![2, 2] := by
  obtain ⟨T, h1, h2, h3⟩ := C44_adaptive_2d reachable_init S2_box (max := 2) (by simp [S2]) S2_order (by norm_num) 0 le_rfl
  have hT := h1 1 le_rfl (fun _ l => l)
  have hh : T.height = 0 := by
    obtain ⟨r, st, -, h5, -⟩ := adaptiveFmm_inv hT
    unfold adaptiveBuild at h5
    rw [if_pos (by simp [S2])] at h5
    injection h5 with h5
    exact (congrArg Prod.snd h5).symm
  obtain ⟨c1, -⟩ := C45_adaptive pot2 hT S2_box (box_len_nonneg S2_box) ![2, 2] 1 (by omega) true
  obtain ⟨-, c2⟩ := C45_adaptive pot2 hT S2_box (box_len_nonneg S2_box) ![1, 1] 1 (by omega) false
  have e := (h3 ![2, 2] S2_inside true S2 1 le_rfl).1
  refine ⟨T, hT, ?_, ?_, ?_⟩
  · rw [C43_adaptive pot2 (C43_odd_2d 0).1, c1 S2_inside [], e]; rfl
  · rw [c2 S2_outside []]; rfl
  · obtain ⟨res, r1, r2, r3⟩ := C37_tree_particles (fun q v => q * v)
      (adaptiveEval pot2 1 true T [⟨![2, 2], 3⟩, ⟨![2, 2], 4⟩]) [⟨![2, 2], 3⟩, ⟨![2, 2], 4⟩]
      (fun _ => directPotential true S2 ![2, 2]) (by
        intro i hi
        have : ([⟨![2, 2], 3⟩, ⟨![2, 2], 4⟩] : List (Source 2))[i].pos = ![2, 2] := by
          simp at hi; interval_cases i <;> rfl
        rw [this, c1 S2_inside, e]) [1, 0] (List.Perm.swap 0 1 [])
    exact ⟨res, r1, r3 1 (by simp)⟩

end FMM
