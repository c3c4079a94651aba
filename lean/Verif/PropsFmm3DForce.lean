import Verif.PropsFmm3D
import Verif.PropsForce3
import Verif.Fmm3DForce

/-!
# Three-dimensional trees: force (C58) and the force part of C42, C44, C54

`evaluateForcefield` of a 3D expansion terminates the process on the vertical line through its centre (C54), so the trees
can only be evaluated off the vertical lines through the centres of the boxes whose expansions are used. The centres of the
boxes of depth `k` form a regular grid; `Aligned r k x` says that `x` is vertically above or below one of them.
-/

namespace FMM

/-- `x` lies on the vertical line through the centre of one of the `8^k` boxes of depth `k` of the root box `r`. -/
def Aligned (r : Box 3) (k : ℕ) (x : Vec 3) : Prop :=
  ∃ i j : ℕ, x 0 = r.lower 0 + (i + 1 / 2) * (r.len / 2 ^ k) ∧ x 1 = r.lower 1 + (j + 1 / 2) * (r.len / 2 ^ k)

/-- `((p+1) rho^p / (2 (2-√3)) + rho^(p+1) / (2-√3)²) / b²`, `rho = √3/2`; `b` is the side of the smallest box. -/
noncomputable def errForce3 (p : ℕ) (b : ℝ) : ℝ :=
  ((p + 1) * (Real.sqrt 3 / 2) ^ p / (2 * (2 - Real.sqrt 3)) + (Real.sqrt 3 / 2) ^ (p + 1) / (2 - Real.sqrt 3) ^ 2) / b ^ 2

theorem forceB3_eq (p : ℕ) (b : ℝ) : forceB3 p b = errForce3 p b := rfl

theorem errForce3_nonneg (p : ℕ) (b : ℝ) : 0 ≤ errForce3 p b := by rw [← forceB3_eq]; exact forceB3_nonneg p b

theorem aligned_of_onAxis {r : Box 3} {π : Path} {x : Vec 3} (h : OnAxis (x - (boxAt r π).center)) :
    Aligned r π.length x := by
  refine ⟨grid 3 π 0, grid 3 π 1, ?_, ?_⟩
  · rw [← boxAt_center]; exact sub_eq_zero.mp h.1
  · rw [← boxAt_center]; exact sub_eq_zero.mp h.2

theorem grid_unique {a u y : ℝ} (hu : 0 < u) {g i : ℕ} (h1 : a + g * u ≤ y) (h2 : y < a + (g + 1) * u)
    (h : y = a + (i + 1 / 2) * u) : i = g := by
  rw [h] at h1 h2
  have h3 : (g : ℝ) < i + 1 := by
    by_contra hc; push Not at hc; nlinarith
  have h4 : (i : ℝ) < g + 1 := by
    by_contra hc; push Not at hc; nlinarith
  have h3' : g < i + 1 := by exact_mod_cast h3
  have h4' : i < g + 1 := by exact_mod_cast h4
  omega

/-- In the half-open root box a point is aligned with some box of depth `h` only if it is with the one containing it. -/
theorem onAxis_route {r : Box 3} (hr : 0 < r.len) {x : Vec 3} (hx : r.containsHO x) {h : ℕ} (ha : Aligned r h x) :
    OnAxis (x - (boxAt r (route r x h)).center) := by
  obtain ⟨i, j, h0, h1⟩ := ha
  have hc := route_containsHO r x hx h
  have hu : 0 < r.len / 2 ^ h := by positivity
  have key : ∀ (l : Fin 3) (n : ℕ), x l = r.lower l + (n + 1 / 2) * (r.len / 2 ^ h) →
      (x - (boxAt r (route r x h)).center) l = 0 := by
    intro l n hl
    have := hc l
    rw [boxAt_lower, boxAt_upper, route_length] at this
    have hn := grid_unique hu this.1 this.2 hl
    rw [Pi.sub_apply, boxAt_center, route_length, hl, hn, sub_self]
  exact ⟨key 0 i h0, key 1 j h1⟩

theorem le3_zero_force {t : Stat3} (ht : t.Good) (c : Vec 3) {p : ℕ} (hp : p ≤ 42) :
    ∃ t' e, Exp3.new t c p = .ok (t', e) ∧ e.center = c ∧ ∀ x, ¬ OnAxis (x - c) → Exp3.leForce e x = .ok 0 := by
  obtain ⟨t', e, h1, -, -, h4⟩ := new_cov3 hp t c ht
  refine ⟨t', e, h1, h4.center, fun x hx => ?_⟩
  rw [Exp3.leForce_ok h4 x hx]
  congr 1
  funext i
  simp [leGrad3]

theorem boxAt_root {r : Box 3} {x : Vec 3} : OnAxis (x - r.center) ↔ x 0 = r.center 0 ∧ x 1 = r.center 1 := by
  unfold OnAxis
  rw [Pi.sub_apply, Pi.sub_apply, sub_eq_zero, sub_eq_zero]

theorem onAxis_root {r : Box 3} {x : Vec 3} (h : OnAxis (x - r.center)) : Aligned r 0 x :=
  aligned_of_onAxis (π := []) h

section
variable {t : Stat3} {S : List (Source 3)} {r : Box 3} {eps : ℝ} {p : ℕ}

/-! ## C44 -/

/-- **C44** Force of an adaptive tree with at most `max` sources: exactly the direct sum off the vertical line through the
centre of the root box; on it the process is terminated, although the value is just the direct sum there as well. -/
theorem C44_adaptive_3d_force (ht : Reachable3 t) {max : ℕ} (hr : rootBox (S.map Source.pos) = some r) (hN : S.length ≤ max)
    (hord : expansionOrder (totalStrength S) eps = .ok p) (hp : p ≤ 42) (feps : ℝ) (hf : 0 ≤ feps) :
    ∃ T : AdaptiveFmm kit3, (∀ fuel ≥ 1, ∀ sch, adaptiveFmm kit3 fuel sch t S max eps = .ok T) ∧ T.order = p ∧
      T.height = 0 ∧
      ∀ x, r.contains x → ∀ grav cur, ∀ fuel ≥ 1,
        adaptiveEval (force3 feps) fuel grav T cur x =
          if x 0 = r.center 0 ∧ x 1 = r.center 1 then .error .gslAbort else .ok (directField grav S x feps) := by
  obtain ⟨t', e, h1, h2, h3⟩ := le3_zero_force ht.good.1 r.center hp
  obtain ⟨T, a1, a2, a3, a4, -⟩ := adaptive_single_full (K := kit3) (O := force3 feps) hr hN hord h1
    (direct := fun x => directField true S x feps) fun x => forcefieldSum_safe true S x feps hf
  refine ⟨T, a1, a2, a3, fun x hx grav cur fuel hfu => ?_⟩
  rw [a4 x hx grav cur fuel hfu]
  show (Exp3.leForce e x >>= _) = _
  by_cases hA : x 0 = r.center 0 ∧ x 1 = r.center 1
  · rw [if_pos hA, Exp3.leForce_abort e x (by rw [h2]; exact boxAt_root.mpr hA), err_bind]
  · rw [if_neg hA, h3 x (fun h => hA (boxAt_root.mp h)), ok_bind, zero_add, ← sgn_directField grav]

/-- **C44** The same for a balanced tree of height 0. -/
theorem C44_balanced_3d_force (ht : Reachable3 t) {perCell : ℕ} (hr : rootBox (S.map Source.pos) = some r)
    (hh : balancedHeight 3 S.length perCell = .ok 0)
    (hord : expansionOrder (totalStrength S) eps = .ok p) (hp : p ≤ 42) (feps : ℝ) (hf : 0 ≤ feps) :
    ∃ T : BalancedFmm kit3, (∀ fuel ≥ 1, ∀ sch, balancedFmm kit3 fuel sch t S perCell eps = .ok T) ∧ T.order = p ∧
      T.height = 0 ∧
      ∀ x, r.containsHO x → ∀ grav, balancedEval (force3 feps) grav T x =
        if x 0 = r.center 0 ∧ x 1 = r.center 1 then .error .gslAbort else .ok (directField grav S x feps) := by
  obtain ⟨t', e, h1, h2, h3⟩ := le3_zero_force ht.good.1 r.center hp
  obtain ⟨T, a1, a2, a3, a4⟩ := balanced_single_full (K := kit3) (O := force3 feps) (by norm_num) (by norm_num) hr hh hord h1
    (direct := fun x => directField true S x feps) fun x => forcefieldSum_safe true S x feps hf
  refine ⟨T, a1, a2, a3, fun x hx grav => ?_⟩
  rw [a4 x hx grav]
  show (Exp3.leForce e x >>= _) = _
  by_cases hA : x 0 = r.center 0 ∧ x 1 = r.center 1
  · rw [if_pos hA, Exp3.leForce_abort e x (by rw [h2]; exact boxAt_root.mpr hA), err_bind]
  · rw [if_neg hA, h3 x (fun h => hA (boxAt_root.mp h)), ok_bind, zero_add, ← sgn_directField grav]

/-! ## C58, C54 -/

/-- **C58** Force of the adaptive 3D tree (`force_smoothing_eps = 0`): at every point of the root box that is not
vertically aligned with the centre of a box of depth at most the height, the error is at most
`(Σ|q|) ((p+1) rho^p/(2(2-√3)) + rho^(p+1)/(2-√3)²) / b²`. Outside the root box the direct sum is returned. -/
theorem C58_adaptive (ht : Reachable3 t) {max : ℕ} (hI : AdaptiveInput S max r)
    (hord : expansionOrder (totalStrength S) eps = .ok p) (hp0 : 1 ≤ p) (hp : p ≤ 42) :
    ∃ (fuel0 : ℕ) (T : AdaptiveFmm kit3),
      (∀ fuel ≥ fuel0, ∀ sch, Schedule sch → adaptiveFmm kit3 fuel sch t S max eps = .ok T) ∧ T.order = p ∧
      (∀ x, r.contains x → (∀ k ≤ T.height, ¬ Aligned r k x) → ∀ grav cur, ∃ v,
        (∀ fuel ≥ fuel0, adaptiveEval (force3 0) fuel grav T cur x = .ok v) ∧
        dist2 v (directField grav S x 0) ≤ (S.map fun s => |s.q|).sum * errForce3 p (r.len / 2 ^ T.height)) ∧
      (∀ x, ¬ r.contains x → ∀ grav cur, (∀ s ∈ cur, s.pos ≠ x) → ∀ fuel ≥ fuel0,
        adaptiveEval (force3 0) fuel grav T cur x = .ok (directField grav cur x 0)) := by
  by_cases hN : S.length ≤ max
  · obtain ⟨t', e, h1, h2, h3⟩ := le3_zero_force ht.good.1 r.center hp
    obtain ⟨T, a1, a2, a3, a4, a5⟩ := adaptive_single (K := kit3) (O := force3 0) hI.box hN hord h1
      (P := fun x => ¬ OnAxis (x - r.center)) h3
      (direct := fun x => directField true S x 0) fun x => forcefieldSum_safe true S x 0 le_rfl
    refine ⟨1, T, fun fuel hf sch _ => a1 fuel hf sch, a2, fun x hx ha grav cur => ?_, fun x hx grav cur hc fuel hf => ?_⟩
    · refine ⟨directField grav S x 0, fun fuel hf => ?_, ?_⟩
      · rw [a4 x hx (fun hA => ha 0 (Nat.zero_le _) (onAxis_root hA)) grav cur fuel hf, ← sgn_directField grav]
      · rw [(dist2_eq_zero_iff _ _).mpr rfl, ← totalStrength_eq]
        exact mul_nonneg (totalStrength_nonneg S) (errForce3_nonneg p _)
    · rw [a5 x hx grav cur fuel hf]
      exact forcefieldSum_unsafe grav cur x 0 le_rfl hc
  · obtain ⟨fuel0, T, s0, up, down, -, -, -, -, h5, h6, hl, h7, h8⟩ :=
      adaptive_main (laws3Force p hp0 hp) ht.good.1 hI (by omega) hord
    refine ⟨fuel0, T, h5, h6, fun x hx ha grav cur => ?_, fun x hx grav cur hc fuel hf => ?_⟩
    · obtain ⟨st, l1, -⟩ := hl fuel0 le_rfl
      obtain ⟨-, -, hlen, -⟩ := lists_result (Or.inl (hI.len_pos (by omega))) l1
      obtain ⟨v, v1, v2⟩ := h7 x hx (fun π hπ hA => ha π.length (by have := hlen π hπ; omega) (aligned_of_onAxis hA)) grav cur
      refine ⟨_, v1, ?_⟩
      rw [sgn_directField grav, ← totalStrength_eq, mul_comm, ← forceB3_eq]
      exact sgn_bound_field grav _ _ _ (by rw [← dist2_sub_zero3]; exact v2)
    · rw [h8 x hx grav cur fuel hf]
      exact forcefieldSum_unsafe grav cur x 0 le_rfl hc

/-- **C58** Force of the balanced 3D tree in the half-open root box. -/
theorem C58_balanced (ht : Reachable3 t) {perCell h : ℕ} (hI : BalancedInput S perCell r h)
    (hord : expansionOrder (totalStrength S) eps = .ok p) (hp0 : 1 ≤ p) (hp : p ≤ 42) :
    ∃ (fuel0 : ℕ) (T : BalancedFmm kit3),
      (∀ fuel ≥ fuel0, ∀ sch, Schedule sch → balancedFmm kit3 fuel sch t S perCell eps = .ok T) ∧ T.order = p ∧ T.height = h ∧
      ∀ x, r.containsHO x → ¬ Aligned r h x → ∀ grav, ∃ v, balancedEval (force3 0) grav T x = .ok v ∧
        dist2 v (directField grav S x 0) ≤ (S.map fun s => |s.q|).sum * errForce3 p (r.len / 2 ^ h) := by
  have hs := hI.small
  rcases Nat.eq_zero_or_pos h with rfl | hh
  · obtain ⟨t', e, h1, h2, h3⟩ := le3_zero_force ht.good.1 r.center hp
    obtain ⟨T, a1, a2, a3, a4⟩ := balanced_single (K := kit3) (O := force3 0) (by norm_num) (by norm_num) hI.box hI.height hord h1
      (P := fun x => ¬ OnAxis (x - r.center)) h3
      (direct := fun x => directField true S x 0) fun x => forcefieldSum_safe true S x 0 le_rfl
    refine ⟨1, T, fun fuel hf sch _ => a1 fuel hf sch, a2, a3, fun x hx ha grav => ⟨directField grav S x 0, ?_, ?_⟩⟩
    · rw [a4 x hx (fun hA => ha (onAxis_root hA)) grav, ← sgn_directField grav]
    · rw [(dist2_eq_zero_iff _ _).mpr rfl, ← totalStrength_eq]
      exact mul_nonneg (totalStrength_nonneg S) (errForce3_nonneg p _)
  · obtain ⟨fuel0, T, s0, -, -, h3, h4, h5, h6⟩ := balanced_main (laws3Force p hp0 hp) ht.good.1 (by norm_num) hI hh hI.len_pos
      (by omega) hord
    refine ⟨fuel0, T, h3, h4, h5, fun x hx ha grav => ?_⟩
    obtain ⟨v, v1, v2⟩ := h6 x hx (fun hA => ha (by
      have := aligned_of_onAxis hA
      rwa [route_length] at this)) grav
    refine ⟨_, v1, ?_⟩
    rw [sgn_directField grav, ← totalStrength_eq, mul_comm, ← forceB3_eq]
    exact sgn_bound_field grav _ _ _ (by rw [← dist2_sub_zero3]; exact v2)

/-- **C54** in trees: evaluating the force of a balanced 3D tree at a point vertically aligned with the centre of some box of
the leaf level terminates the process, whatever the smoothing. Together with `C58_balanced`: the evaluation succeeds at
exactly the points that are not aligned. -/
theorem C54_balanced_aborts (ht : Reachable3 t) {perCell h : ℕ} (hI : BalancedInput S perCell r h)
    (hord : expansionOrder (totalStrength S) eps = .ok p) (hp0 : 1 ≤ p) (hp : p ≤ 42) (feps : ℝ) (hf : 0 ≤ feps) :
    ∃ (fuel0 : ℕ) (T : BalancedFmm kit3),
      (∀ fuel ≥ fuel0, ∀ sch, Schedule sch → balancedFmm kit3 fuel sch t S perCell eps = .ok T) ∧
      ∀ x, r.containsHO x → Aligned r h x → ∀ grav, balancedEval (force3 feps) grav T x = .error .gslAbort := by
  have hs := hI.small
  rcases Nat.eq_zero_or_pos h with rfl | hh
  · obtain ⟨T, a1, -, -, a2⟩ := C44_balanced_3d_force ht hI.box hI.height hord hp feps hf
    refine ⟨1, T, fun fuel hf sch _ => a1 fuel hf sch, fun x hx ha grav => ?_⟩
    have hA : OnAxis (x - r.center) := onAxis_route hI.len_pos hx ha
    rw [a2 x hx grav, if_pos (boxAt_root.mp hA)]
  · obtain ⟨fuel0, T, s0, -, -, h3, -, -, -, h7⟩ := balanced_full (laws3Force p hp0 hp) ht.good.1 (by norm_num) hI hh hI.len_pos
      (by omega) hord
    refine ⟨fuel0, T, h3, fun x hx ha grav => h7 x hx (force3 feps) .gslAbort ?_ grav⟩
    rintro e φ ⟨a, he, -⟩
    exact Exp3.leForce_abort e x (by rw [he.center]; exact onAxis_route hI.len_pos hx ha)

/-- **C54** in trees: the same for the adaptive tree, at the points that are aligned with the centre of the leaf in which they
are looked up. -/
theorem C54_adaptive_aborts (ht : Reachable3 t) {max : ℕ} (hI : AdaptiveInput S max r) (hN : max < S.length)
    (hord : expansionOrder (totalStrength S) eps = .ok p) (hp0 : 1 ≤ p) (hp : p ≤ 42) (feps : ℝ) :
    ∃ (fuel0 : ℕ) (T : AdaptiveFmm kit3),
      (∀ fuel ≥ fuel0, ∀ sch, Schedule sch → adaptiveFmm kit3 fuel sch t S max eps = .ok T) ∧
      ∀ x, r.contains x → ∀ π, (∀ fuel > T.height, getContainingLeaf fuel T.heap x = .ok (some π)) →
        x 0 = (boxAt r π).center 0 → x 1 = (boxAt r π).center 1 → ∀ grav cur, ∀ fuel ≥ fuel0,
        adaptiveEval (force3 feps) fuel grav T cur x = .error .gslAbort := by
  obtain ⟨fuel0, T, s0, up, down, -, -, -, -, h5, -, -, -, -, h9⟩ := adaptive_full (laws3Force p hp0 hp) ht.good.1 hI hN hord
  refine ⟨fuel0, T, h5, fun x hx π hπ h0 h1 grav cur => h9 x hx (force3 feps) .gslAbort ?_ grav cur⟩
  rintro π' - hπ' e φ ⟨a, he, -⟩
  have : π' = π := by
    have := (hπ' (T.height + 1) (by omega)).symm.trans (hπ _ (by omega))
    injection this with this
    injection this
  subst this
  exact Exp3.leForce_abort e x (by rw [he.center]; exact ⟨sub_eq_zero.mpr h0, sub_eq_zero.mpr h1⟩)

/-! ## C42 -/

/-- **C42** The force of a 3D tree at the position of a source in the root box is a regular evaluation if the source is not
vertically aligned with the centre of a box. -/
theorem C42_force_3d (ht : Reachable3 t) (hord : expansionOrder (totalStrength S) eps = .ok p) (hp0 : 1 ≤ p)
    (hp : p ≤ 42) :
    (∀ max, AdaptiveInput S max r → ∃ (fuel0 : ℕ) (T : AdaptiveFmm kit3),
      (∀ fuel ≥ fuel0, ∀ sch, Schedule sch → adaptiveFmm kit3 fuel sch t S max eps = .ok T) ∧
      ∀ s ∈ S, (∀ k ≤ T.height, ¬ Aligned r k s.pos) → ∀ grav, ∃ v, ∀ fuel ≥ fuel0,
        adaptiveEval (force3 0) fuel grav T S s.pos = .ok v) ∧
    (∀ perCell h, BalancedInput S perCell r h → ∃ (fuel0 : ℕ) (T : BalancedFmm kit3),
      (∀ fuel ≥ fuel0, ∀ sch, Schedule sch → balancedFmm kit3 fuel sch t S perCell eps = .ok T) ∧
      ∀ s ∈ S, ¬ Aligned r h s.pos → ∀ grav, ∃ v, balancedEval (force3 0) grav T s.pos = .ok v) := by
  constructor
  · intro max hI
    obtain ⟨f, T, h1, -, h2, -⟩ := C58_adaptive ht hI hord hp0 hp
    refine ⟨f, T, h1, fun s hs ha grav => ?_⟩
    obtain ⟨v, hv, -⟩ := h2 s.pos (hI.inside s hs) ha grav S
    exact ⟨v, hv⟩
  · intro perCell h hI
    obtain ⟨f, T, h1, -, -, h2⟩ := C58_balanced ht hI hord hp0 hp
    refine ⟨f, T, h1, fun s hs ha grav => ?_⟩
    obtain ⟨v, hv, -⟩ := h2 s.pos (hI.inside s hs) ha grav
    exact ⟨v, hv⟩

end

/-! ## Non-vacuity -/

/-- A point of the root box of the nine sources that is not aligned with a box of depth 2: `4 = (1 + pad) (-4 + (i+1/2) 2)`
has no solution. -/
theorem S9_notAligned : ¬ Aligned box9 2 ![4, 4, 4] := by
  rintro ⟨i, j, h, -⟩
  have hb : box9.lower 0 = -((1 + paddingFactor) * 4) := by
    rw [Box.lower_apply]; simp only [box9]; ring
  rw [hb] at h
  have h' : (4 : ℝ) = (1 + paddingFactor) * (2 * i - 3) := by
    have : (![4, 4, 4] : Vec 3) 0 = 4 := rfl
    rw [this] at h
    rw [h]; simp only [box9]; ring
  unfold paddingFactor at h'
  have h1 : (i : ℝ) < 4 := by
    by_contra hc; push Not at hc; nlinarith
  have h2 : (3 : ℝ) < i := by
    by_contra hc; push Not at hc; nlinarith
  have h1' : i < 4 := by exact_mod_cast h1
  have h2' : 3 < i := by exact_mod_cast h2
  omega

/-- C58, C42: the force on the last of the nine sources. -/
example : ∃ fuel T v, balancedFmm kit3 fuel (fun _ l => l.reverse) (Stat3.init 0 0 0) S9 1 1 = .ok T ∧ T.height = 2 ∧
    balancedEval (force3 0) true T ![4, 4, 4] = .ok v ∧
    dist2 v (directField true S9 ![4, 4, 4] 0) ≤ 9 * errForce3 4 (box9.len / 2 ^ 2) := by
  obtain ⟨fuel, T, h1, h2, h3, h4⟩ := C58_balanced reachable3_init S9_balanced S9_order (by norm_num) (by norm_num)
  obtain ⟨v, v1, v2⟩ := h4 ![4, 4, 4] (S9_insideHO ⟨![4, 4, 4], 1⟩ (by simp [S9])) S9_notAligned true
  rw [← totalStrength_eq, S9_total] at v2
  exact ⟨fuel, T, v, h1 fuel le_rfl _ (fun _ l => l.reverse_perm), h3, v1, v2⟩

/-- C54: with all nine sources in one leaf the centre of the root box is the position of the fifth source, and the force on it
cannot be computed; the force on the last source is the direct sum (C44). -/
example : ∃ T, adaptiveFmm kit3 1 (fun _ l => l) (Stat3.init 0 0 0) S9 9 1 = .ok T ∧
    adaptiveEval (force3 0) 1 true T [] ![0, 0, 0] = .error .gslAbort ∧
    adaptiveEval (force3 0) 1 true T [] ![4, 4, 4] = .ok (directField true S9 ![4, 4, 4] 0) := by
  obtain ⟨T, h1, h2, -, h3⟩ := C44_adaptive_3d_force reachable3_init S9_box (max := 9) (by simp [S9]) S9_order (by norm_num) 0 le_rfl
  refine ⟨T, h1 1 le_rfl _, ?_, ?_⟩
  · rw [h3 _ (S9_inside ⟨![0, 0, 0], 1⟩ (by simp [S9])) true [] 1 le_rfl, if_pos]
    constructor <;> simp [box9]
  · rw [h3 _ (S9_inside ⟨![4, 4, 4], 1⟩ (by simp [S9])) true [] 1 le_rfl, if_neg]
    rintro ⟨h, -⟩
    norm_num [box9] at h

end FMM
