import Verif.PropsFmm3DForce
import Verif.FmmSmooth

/-!
# Force smoothing in trees: C60

With `force_smoothing_eps = feps > 0` the trees add smoothed near-field terms and unsmoothed expansions. Compared to the direct
sum with smoothing this costs at most `feps / b^3` (2D) or `feps / b^5` (3D) per unit of source strength, `b` being the side
of the smallest box.
-/

namespace FMM

theorem errForce_nonneg (p : ℕ) {b : ℝ} (hb : 0 ≤ b) : 0 ≤ errForce p b := by
  have h2 : 0 < 2 - Real.sqrt 2 := by linarith [sqrt2_lt]
  unfold errForce; positivity


/-- **C60** Force of the adaptive 2D tree with any `force_smoothing_eps ≥ 0`. -/
theorem C60_adaptive_2d {t : BinomialTable} {S : List (Source 2)} {r : Box 2} {eps : ℝ} {p : ℕ} (ht : Reachable t) {max : ℕ}
    (hI : AdaptiveInput S max r) (hord : expansionOrder (totalStrength S) eps = .ok p) (hp0 : 1 ≤ p) (hp : p ≤ 1029) (feps : ℝ)
    (hf : 0 ≤ feps) :
    ∃ (fuel0 : ℕ) (T : AdaptiveFmm kit2),
      (∀ fuel ≥ fuel0, ∀ sch, Schedule sch → adaptiveFmm kit2 fuel sch t S max eps = .ok T) ∧ T.order = p ∧
      (∀ x, r.contains x → ∀ grav cur, ∃ v,
        (∀ fuel ≥ fuel0, adaptiveEval (force2 feps) fuel grav T cur x = .ok v) ∧
        dist2 v (directField grav S x feps) ≤ (S.map fun s => |s.q|).sum * (errForce p (r.len / 2 ^ T.height) + feps / (r.len / 2 ^ T.height) ^ 3)) ∧
      (∀ x, ¬ r.contains x → ∀ grav cur, (∀ s ∈ cur, s.pos ≠ x) → ∀ fuel ≥ fuel0,
        adaptiveEval (force2 feps) fuel grav T cur x = .ok (directField grav cur x feps)) := by
  have hlen0 := box_len_nonneg hI.box
  by_cases hN : S.length ≤ max
  · obtain ⟨t', e, h1, -, h3⟩ := le2_zero ht.good r.center hp
    obtain ⟨T, a1, a2, a3, a4, a5⟩ := adaptive_single (K := kit2) (O := force2 feps) hI.box hN hord h1
      (P := fun _ => True) (fun x _ => h3 x)
      (direct := fun x => directField true S x feps) fun x => forcefieldSum_safe true S x feps hf
    refine ⟨1, T, fun fuel hf sch _ => a1 fuel hf sch, a2, fun x hx grav cur => ?_, fun x hx grav cur hc fuel hfu => ?_⟩
    · refine ⟨directField grav S x feps, fun fuel hfu => ?_, ?_⟩
      · rw [a4 x hx trivial grav cur fuel hfu, ← sgn_directField grav]
      · rw [(dist2_eq_zero_iff _ _).mpr rfl, ← totalStrength_eq]
        exact mul_nonneg (totalStrength_nonneg S) (add_nonneg (errForce_nonneg p (by positivity)) (by positivity))
    · rw [a5 x hx grav cur fuel hfu]
      exact forcefieldSum_unsafe grav cur x feps hf hc
  · obtain ⟨fuel0, T, s0, up, down, -, -, -, -, h5, h6, hl, h7, h8⟩ :=
      adaptive_main (laws2ForceS p hp0 hp hf) ht.good hI (by omega) hord
    refine ⟨fuel0, T, h5, h6, fun x hx grav cur => ?_, fun x hx grav cur hc fuel hfu => ?_⟩
    · obtain ⟨v, v1, v2⟩ := h7 x hx (fun _ _ => trivial) grav cur
      refine ⟨_, v1, ?_⟩
      rw [sgn_directField grav, ← totalStrength_eq, mul_comm, ← forceB2_eq]
      exact sgn_bound_field grav _ _ _ (by rw [← dist2_sub_zero]; exact v2)
    · rw [h8 x hx grav cur fuel hfu]
      exact forcefieldSum_unsafe grav cur x feps hf hc

/-- **C60** Force of the balanced 2D tree with any `force_smoothing_eps ≥ 0`. -/
theorem C60_balanced_2d {t : BinomialTable} {S : List (Source 2)} {r : Box 2} {eps : ℝ} {p : ℕ} (ht : Reachable t) {perCell h : ℕ}
    (hI : BalancedInput S perCell r h) (hord : expansionOrder (totalStrength S) eps = .ok p) (hp0 : 1 ≤ p) (hp : p ≤ 1029)
    (feps : ℝ) (hf : 0 ≤ feps) :
    ∃ (fuel0 : ℕ) (T : BalancedFmm kit2),
      (∀ fuel ≥ fuel0, ∀ sch, Schedule sch → balancedFmm kit2 fuel sch t S perCell eps = .ok T) ∧ T.order = p ∧ T.height = h ∧
      ∀ x, r.containsHO x → ∀ grav, ∃ v, balancedEval (force2 feps) grav T x = .ok v ∧
        dist2 v (directField grav S x feps) ≤ (S.map fun s => |s.q|).sum * (errForce p (r.len / 2 ^ h) + feps / (r.len / 2 ^ h) ^ 3) := by
  have hs := hI.small
  have hlen0 := hI.len_pos
  rcases Nat.eq_zero_or_pos h with rfl | hh
  · obtain ⟨t', e, h1, -, h3⟩ := le2_zero ht.good r.center hp
    obtain ⟨T, a1, a2, a3, a4⟩ := balanced_single (K := kit2) (O := force2 feps) (by norm_num) (by norm_num) hI.box hI.height hord h1
      (P := fun _ => True) (fun x _ => h3 x)
      (direct := fun x => directField true S x feps) fun x => forcefieldSum_safe true S x feps hf
    refine ⟨1, T, fun fuel hf sch _ => a1 fuel hf sch, a2, a3, fun x hx grav => ⟨directField grav S x feps, ?_, ?_⟩⟩
    · rw [a4 x hx trivial grav, ← sgn_directField grav]
    · rw [(dist2_eq_zero_iff _ _).mpr rfl, ← totalStrength_eq]
      exact mul_nonneg (totalStrength_nonneg S) (add_nonneg (errForce_nonneg p (by positivity)) (by positivity))
  · obtain ⟨fuel0, T, s0, -, -, h3, h4, h5, h6⟩ := balanced_main (laws2ForceS p hp0 hp hf) ht.good (by norm_num) hI hh
      hI.len_pos (by omega) hord
    refine ⟨fuel0, T, h3, h4, h5, fun x hx grav => ?_⟩
    obtain ⟨v, v1, v2⟩ := h6 x hx trivial grav
    refine ⟨_, v1, ?_⟩
    rw [sgn_directField grav, ← totalStrength_eq, mul_comm, ← forceB2_eq]
    exact sgn_bound_field grav _ _ _ (by rw [← dist2_sub_zero]; exact v2)

/-- **C60** Force of the adaptive 3D tree with any `force_smoothing_eps ≥ 0`. -/
theorem C60_adaptive_3d {t : Stat3} {S : List (Source 3)} {r : Box 3} {eps : ℝ} {p : ℕ} (ht : Reachable3 t) {max : ℕ}
    (hI : AdaptiveInput S max r) (hord : expansionOrder (totalStrength S) eps = .ok p) (hp0 : 1 ≤ p) (hp : p ≤ 42) (feps : ℝ)
    (hf : 0 ≤ feps) :
    ∃ (fuel0 : ℕ) (T : AdaptiveFmm kit3),
      (∀ fuel ≥ fuel0, ∀ sch, Schedule sch → adaptiveFmm kit3 fuel sch t S max eps = .ok T) ∧ T.order = p ∧
      (∀ x, r.contains x → (∀ k ≤ T.height, ¬ Aligned r k x) → ∀ grav cur, ∃ v,
        (∀ fuel ≥ fuel0, adaptiveEval (force3 feps) fuel grav T cur x = .ok v) ∧
        dist2 v (directField grav S x feps) ≤ (S.map fun s => |s.q|).sum * (errForce3 p (r.len / 2 ^ T.height) + feps / (r.len / 2 ^ T.height) ^ 5)) ∧
      (∀ x, ¬ r.contains x → ∀ grav cur, (∀ s ∈ cur, s.pos ≠ x) → ∀ fuel ≥ fuel0,
        adaptiveEval (force3 feps) fuel grav T cur x = .ok (directField grav cur x feps)) := by
  have hlen0 := box_len_nonneg hI.box
  by_cases hN : S.length ≤ max
  · obtain ⟨t', e, h1, h2, h3⟩ := le3_zero_force ht.good.1 r.center hp
    obtain ⟨T, a1, a2, a3, a4, a5⟩ := adaptive_single (K := kit3) (O := force3 feps) hI.box hN hord h1
      (P := fun x => ¬ OnAxis (x - r.center)) h3
      (direct := fun x => directField true S x feps) fun x => forcefieldSum_safe true S x feps hf
    refine ⟨1, T, fun fuel hf sch _ => a1 fuel hf sch, a2, fun x hx ha grav cur => ?_, fun x hx grav cur hc fuel hfu => ?_⟩
    · refine ⟨directField grav S x feps, fun fuel hfu => ?_, ?_⟩
      · rw [a4 x hx (fun hA => ha 0 (Nat.zero_le _) (onAxis_root hA)) grav cur fuel hfu, ← sgn_directField grav]
      · rw [(dist2_eq_zero_iff _ _).mpr rfl, ← totalStrength_eq]
        exact mul_nonneg (totalStrength_nonneg S) (add_nonneg (errForce3_nonneg p _) (by positivity))
    · rw [a5 x hx grav cur fuel hfu]
      exact forcefieldSum_unsafe grav cur x feps hf hc
  · obtain ⟨fuel0, T, s0, up, down, -, -, -, -, h5, h6, hl, h7, h8⟩ :=
      adaptive_main (laws3ForceS p hp0 hp hf) ht.good.1 hI (by omega) hord
    refine ⟨fuel0, T, h5, h6, fun x hx ha grav cur => ?_, fun x hx grav cur hc fuel hfu => ?_⟩
    · obtain ⟨st, l1, -⟩ := hl fuel0 le_rfl
      obtain ⟨-, -, hlen, -⟩ := lists_result (Or.inl (hI.len_pos (by omega))) l1
      obtain ⟨v, v1, v2⟩ := h7 x hx (fun π hπ hA => ha π.length (by have := hlen π hπ; omega) (aligned_of_onAxis hA)) grav cur
      refine ⟨_, v1, ?_⟩
      rw [sgn_directField grav, ← totalStrength_eq, mul_comm, ← forceB3_eq]
      exact sgn_bound_field grav _ _ _ (by rw [← dist2_sub_zero3]; exact v2)
    · rw [h8 x hx grav cur fuel hfu]
      exact forcefieldSum_unsafe grav cur x feps hf hc

/-- **C60** Force of the balanced 3D tree with any `force_smoothing_eps ≥ 0`. -/
theorem C60_balanced_3d {t : Stat3} {S : List (Source 3)} {r : Box 3} {eps : ℝ} {p : ℕ} (ht : Reachable3 t) {perCell h : ℕ}
    (hI : BalancedInput S perCell r h) (hord : expansionOrder (totalStrength S) eps = .ok p) (hp0 : 1 ≤ p) (hp : p ≤ 42)
    (feps : ℝ) (hf : 0 ≤ feps) :
    ∃ (fuel0 : ℕ) (T : BalancedFmm kit3),
      (∀ fuel ≥ fuel0, ∀ sch, Schedule sch → balancedFmm kit3 fuel sch t S perCell eps = .ok T) ∧ T.order = p ∧ T.height = h ∧
      ∀ x, r.containsHO x → ¬ Aligned r h x → ∀ grav, ∃ v, balancedEval (force3 feps) grav T x = .ok v ∧
        dist2 v (directField grav S x feps) ≤ (S.map fun s => |s.q|).sum * (errForce3 p (r.len / 2 ^ h) + feps / (r.len / 2 ^ h) ^ 5) := by
  have hs := hI.small
  have hlen0 := hI.len_pos
  rcases Nat.eq_zero_or_pos h with rfl | hh
  · obtain ⟨t', e, h1, h2, h3⟩ := le3_zero_force ht.good.1 r.center hp
    obtain ⟨T, a1, a2, a3, a4⟩ := balanced_single (K := kit3) (O := force3 feps) (by norm_num) (by norm_num) hI.box hI.height hord h1
      (P := fun x => ¬ OnAxis (x - r.center)) h3
      (direct := fun x => directField true S x feps) fun x => forcefieldSum_safe true S x feps hf
    refine ⟨1, T, fun fuel hf sch _ => a1 fuel hf sch, a2, a3, fun x hx ha grav => ⟨directField grav S x feps, ?_, ?_⟩⟩
    · rw [a4 x hx (fun hA => ha (onAxis_root hA)) grav, ← sgn_directField grav]
    · rw [(dist2_eq_zero_iff _ _).mpr rfl, ← totalStrength_eq]
      exact mul_nonneg (totalStrength_nonneg S) (add_nonneg (errForce3_nonneg p _) (by positivity))
  · obtain ⟨fuel0, T, s0, -, -, h3, h4, h5, h6⟩ := balanced_main (laws3ForceS p hp0 hp hf) ht.good.1 (by norm_num) hI hh
      hI.len_pos (by omega) hord
    refine ⟨fuel0, T, h3, h4, h5, fun x hx ha grav => ?_⟩
    obtain ⟨v, v1, v2⟩ := h6 x hx (fun hA => ha (by
      have := aligned_of_onAxis hA
      rwa [route_length] at this)) grav
    refine ⟨_, v1, ?_⟩
    rw [sgn_directField grav, ← totalStrength_eq, mul_comm, ← forceB3_eq]
    exact sgn_bound_field grav _ _ _ (by rw [← dist2_sub_zero3]; exact v2)

/-- Five sources in a balanced tree with the smoothing used by the integrator example. -/
example : ∃ fuel T v, balancedFmm kit2 fuel (fun _ l => l.reverse) BinomialTable.init S5 1 1 = .ok T ∧ T.height = 2 ∧
    balancedEval (force2 (1 / 1000000)) false T ![1, 1] = .ok v ∧
    dist2 v (directField false S5 ![1, 1] (1 / 1000000)) ≤
      (S5.map fun s => |s.q|).sum * (errForce 3 (box5.len / 2 ^ 2) + 1 / 1000000 / (box5.len / 2 ^ 2) ^ 3) := by
  obtain ⟨fuel, T, h1, h2, h3, h4⟩ := C60_balanced_2d reachable_init S5_balanced S5_order (by norm_num) (by norm_num)
    (1 / 1000000) (by norm_num)
  obtain ⟨v, v1, v2⟩ := h4 ![1, 1] (S5_insideHO ⟨![1, 1], 1⟩ (by simp [S5])) false
  exact ⟨fuel, T, v, h1 fuel le_rfl _ (fun _ l => l.reverse_perm), h3, v1, v2⟩

/-- Nine sources in a balanced 3D tree. -/
example : ∃ fuel T v, balancedFmm kit3 fuel (fun _ l => l.reverse) (Stat3.init 0 0 0) S9 1 1 = .ok T ∧
    balancedEval (force3 (1 / 1000000)) true T ![4, 4, 4] = .ok v ∧
    dist2 v (directField true S9 ![4, 4, 4] (1 / 1000000)) ≤
      (S9.map fun s => |s.q|).sum * (errForce3 4 (box9.len / 2 ^ 2) + 1 / 1000000 / (box9.len / 2 ^ 2) ^ 5) := by
  obtain ⟨fuel, T, h1, h2, h3, h4⟩ := C60_balanced_3d reachable3_init S9_balanced S9_order (by norm_num) (by norm_num)
    (1 / 1000000) (by norm_num)
  obtain ⟨v, v1, v2⟩ := h4 ![4, 4, 4] (S9_insideHO ⟨![4, 4, 4], 1⟩ (by simp [S9])) S9_notAligned true
  exact ⟨fuel, T, v, h1 fuel le_rfl _ (fun _ l => l.reverse_perm), v1, v2⟩

end FMM
