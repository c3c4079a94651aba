import Verif.PropsFmm2D
import Verif.Fmm3D
import Verif.Example3D

/-!
# Three-dimensional trees: potential (C53) and the 3D instances of C32, C38, C42, C43, C44

For every state of the static tables that earlier calls can have left behind (`Reachable3`) and every order `1 ≤ p ≤ 42`
(above that the factorials used for the tables overflow in GSL and the program aborts, C22).
-/

namespace FMM

/-- `rho^(p+1) / ((2-√3) b)`, `rho = √3/2`; `b` is the side of the smallest box. -/
noncomputable def errPot3 (p : ℕ) (b : ℝ) : ℝ := (Real.sqrt 3 / 2) ^ (p + 1) / ((2 - Real.sqrt 3) * b)

theorem potB3_eq (p : ℕ) (b : ℝ) : potB3 p b = errPot3 p b := rfl

theorem errPot3_nonneg (p : ℕ) {b : ℝ} (hb : 0 ≤ b) : 0 ≤ errPot3 p b := by
  unfold errPot3
  have h : 0 < 2 - Real.sqrt 3 := by linarith [sqrt3_lt]
  positivity

theorem le3_zero {t : Stat3} (ht : t.Good) (c : Vec 3) {p : ℕ} (hp : p ≤ 42) :
    ∃ t' e, Exp3.new t c p = .ok (t', e) ∧ ∀ x, Exp3.lePot e x = .ok 0 := by
  obtain ⟨t', e, h1, -, -, h4⟩ := new_cov3 hp t c ht
  refine ⟨t', e, h1, fun x => ?_⟩
  rw [Exp3.lePot_ok h4]; simp [leSum3]

section
variable {t : Stat3} {S : List (Source 3)} {r : Box 3} {eps : ℝ} {p : ℕ}

/-! ## C38 -/

/-- **C38** Adaptive 3D tree: race freedom of every parallel loop and independence of the schedule. -/
theorem C38_adaptive_3d (ht : Reachable3 t) {max : ℕ} (hI : AdaptiveInput S max r) (hN : max < S.length)
    (hord : expansionOrder (totalStrength S) eps = .ok p) (hp0 : 1 ≤ p) (hp : p ≤ 42) :
    ∃ (fuel0 : ℕ) (T0 : AdaptiveFmm kit3) (up down : List (List Path)) (T : AdaptiveFmm kit3),
      (∀ fuel ≥ fuel0, adaptiveInit kit3 fuel t S max eps = .ok T0) ∧
      adaptiveUp T0.nodes T0.height = .ok up ∧ adaptiveDown T0.nodes T0.leaves T0.height = .ok down ∧
      RaceFreePasses kit3 T0.shape T0.order (constructLE kit3 T0.shape T0.order) T0.leaves up down T0.exps ∧
      ∀ fuel ≥ fuel0, ∀ sch, Schedule sch → adaptiveFmm kit3 fuel sch t S max eps = .ok T := by
  obtain ⟨fuel0, T, s0, up, down, h1, h2, h3, h4, h5, -⟩ := adaptive_main (laws3Pot p hp) ⟨ht.good.1, Or.inl hp0⟩ hI hN hord
  exact ⟨fuel0, _, up, down, T, h1, h2, h3, h4, h5⟩

/-- **C38** Balanced 3D tree. -/
theorem C38_balanced_3d (ht : Reachable3 t) {perCell h : ℕ} (hI : BalancedInput S perCell r h) (hh : 1 ≤ h)
    (hord : expansionOrder (totalStrength S) eps = .ok p) (hp0 : 1 ≤ p) (hp : p ≤ 42) :
    ∃ (fuel0 : ℕ) (T0 T : BalancedFmm kit3),
      (∀ fuel ≥ fuel0, balancedInit kit3 fuel t S perCell eps = .ok T0) ∧
      RaceFreePasses kit3 T0.shape T0.order (balancedLE kit3 T0.shape) [balancedLeafLoop T0.mem.nLeaves]
        (balancedUp 3 T0.height) (balancedDown 3 T0.height T0.mem.nLeaves) T0.exps ∧
      ∀ fuel ≥ fuel0, ∀ sch, Schedule sch → balancedFmm kit3 fuel sch t S perCell eps = .ok T := by
  have hs := hI.small
  obtain ⟨fuel0, T, s0, h1, h2, h3, -⟩ := balanced_main (laws3Pot p hp) ⟨ht.good.1, Or.inl hp0⟩ (by norm_num) hI hh hI.len_pos
    (by omega) hord
  exact ⟨fuel0, _, T, h1, h2, h3⟩

/-! ## C44 -/

/-- **C44** A 3D tree with at most `max` sources returns exactly the direct potential, also at order 0. -/
theorem C44_adaptive_3d (ht : Reachable3 t) {max : ℕ} (hr : rootBox (S.map Source.pos) = some r) (hN : S.length ≤ max)
    (hord : expansionOrder (totalStrength S) eps = .ok p) (hp : p ≤ 42) :
    ∃ T : AdaptiveFmm kit3, (∀ fuel ≥ 1, ∀ sch, adaptiveFmm kit3 fuel sch t S max eps = .ok T) ∧ T.order = p ∧
      ∀ x, r.contains x → ∀ grav cur, ∀ fuel ≥ 1,
        adaptiveEval pot3 fuel grav T cur x = .ok (directPotential grav S x) := by
  obtain ⟨t', e, h1, h2⟩ := le3_zero ht.good.1 r.center hp
  obtain ⟨T, a1, a2, a3, a4, -⟩ := adaptive_single (K := kit3) (O := pot3) hr hN hord h1 (P := fun _ => True) (fun x _ => h2 x) (direct := directPotential true S)
    fun x => potentialSum_safe true S x
  refine ⟨T, a1, a2, fun x hx grav cur fuel hfu => ?_⟩
  rw [a4 x hx trivial grav cur fuel hfu, ← sgn_direct grav]

/-- **C44** The same for a balanced tree of height 0. -/
theorem C44_balanced_3d (ht : Reachable3 t) {perCell : ℕ} (hr : rootBox (S.map Source.pos) = some r)
    (hh : balancedHeight 3 S.length perCell = .ok 0)
    (hord : expansionOrder (totalStrength S) eps = .ok p) (hp : p ≤ 42) :
    ∃ T : BalancedFmm kit3, (∀ fuel ≥ 1, ∀ sch, balancedFmm kit3 fuel sch t S perCell eps = .ok T) ∧ T.order = p ∧
      ∀ x, r.containsHO x → ∀ grav, balancedEval pot3 grav T x = .ok (directPotential grav S x) := by
  obtain ⟨t', e, h1, h2⟩ := le3_zero ht.good.1 r.center hp
  obtain ⟨T, a1, a2, a3, a4⟩ := balanced_single (K := kit3) (O := pot3) (by norm_num) (by norm_num) hr hh hord h1 (P := fun _ => True) (fun x _ => h2 x)
    (direct := directPotential true S) fun x => potentialSum_safe true S x
  refine ⟨T, a1, a2, fun x hx grav => ?_⟩
  rw [a4 x hx trivial grav, ← sgn_direct grav]

/-! ## C53 -/

/-- Also for order 0, if the tables have been filled before. -/
theorem pot3_adaptive (ht : Reachable3 t) {max : ℕ} (hI : AdaptiveInput S max r)
    (hord : expansionOrder (totalStrength S) eps = .ok p) (hp0 : 0 < p ∨ 0 < t.alm.maxOrder) (hp : p ≤ 42) :
    ∃ (fuel0 : ℕ) (T : AdaptiveFmm kit3),
      (∀ fuel ≥ fuel0, ∀ sch, Schedule sch → adaptiveFmm kit3 fuel sch t S max eps = .ok T) ∧ T.order = p ∧
      (∀ x, r.contains x → ∀ grav cur, ∃ v, (∀ fuel ≥ fuel0, adaptiveEval pot3 fuel grav T cur x = .ok v) ∧
        |v - directPotential grav S x| ≤ (S.map fun s => |s.q|).sum * errPot3 p (r.len / 2 ^ T.height)) ∧
      (∀ x, ¬ r.contains x → ∀ grav cur, (∀ s ∈ cur, s.pos ≠ x) → ∀ fuel ≥ fuel0,
        adaptiveEval pot3 fuel grav T cur x = .ok (directPotential grav cur x)) := by
  by_cases hN : S.length ≤ max
  · obtain ⟨t', e, h1, h2⟩ := le3_zero ht.good.1 r.center hp
    obtain ⟨T, a1, a2, a3, a4, a5⟩ := adaptive_single (K := kit3) (O := pot3) hI.box hN hord h1 (P := fun _ => True) (fun x _ => h2 x)
      (direct := directPotential true S) fun x => potentialSum_safe true S x
    refine ⟨1, T, fun fuel hf sch _ => a1 fuel hf sch, a2, fun x hx grav cur => ?_, fun x hx grav cur hc fuel hf => ?_⟩
    · refine ⟨directPotential grav S x, fun fuel hf => ?_, ?_⟩
      · rw [a4 x hx trivial grav cur fuel hf, ← sgn_direct grav]
      · rw [sub_self, abs_zero, ← totalStrength_eq]
        have := box_len_nonneg hI.box
        exact mul_nonneg (totalStrength_nonneg S) (errPot3_nonneg p (by positivity))
    · rw [a5 x hx grav cur fuel hf]
      exact (C34_unguarded grav cur x).1 hc
  · obtain ⟨fuel0, T, s0, up, down, -, -, -, -, h5, h6, -, h7, h8⟩ :=
      adaptive_main (laws3Pot p hp) ⟨ht.good.1, hp0⟩ hI (by omega) hord
    refine ⟨fuel0, T, h5, h6, fun x hx grav cur => ?_, fun x hx grav cur hc fuel hf => ?_⟩
    · obtain ⟨v, v1, v2⟩ := h7 x hx (fun _ _ => trivial) grav cur
      refine ⟨_, v1, ?_⟩
      rw [sgn_direct grav, ← totalStrength_eq, mul_comm, ← potB3_eq]
      exact sgn_bound grav _ _ _ v2
    · rw [h8 x hx grav cur fuel hf]
      exact (C34_unguarded grav cur x).1 hc

/-- Also for order 0, if the tables have been filled before. -/
theorem pot3_balanced (ht : Reachable3 t) {perCell h : ℕ} (hI : BalancedInput S perCell r h)
    (hord : expansionOrder (totalStrength S) eps = .ok p) (hp0 : 0 < p ∨ 0 < t.alm.maxOrder) (hp : p ≤ 42) :
    ∃ (fuel0 : ℕ) (T : BalancedFmm kit3),
      (∀ fuel ≥ fuel0, ∀ sch, Schedule sch → balancedFmm kit3 fuel sch t S perCell eps = .ok T) ∧ T.order = p ∧ T.height = h ∧
      ∀ x, r.containsHO x → ∀ grav, ∃ v, balancedEval pot3 grav T x = .ok v ∧
        |v - directPotential grav S x| ≤ (S.map fun s => |s.q|).sum * errPot3 p (r.len / 2 ^ h) := by
  have hs := hI.small
  rcases Nat.eq_zero_or_pos h with rfl | hh
  · obtain ⟨t', e, h1, h2⟩ := le3_zero ht.good.1 r.center hp
    obtain ⟨T, a1, a2, a3, a4⟩ := balanced_single (K := kit3) (O := pot3) (by norm_num) (by norm_num) hI.box hI.height hord
      h1 (P := fun _ => True) (fun x _ => h2 x) (direct := directPotential true S) fun x => potentialSum_safe true S x
    refine ⟨1, T, fun fuel hf sch _ => a1 fuel hf sch, a2, a3, fun x hx grav => ⟨directPotential grav S x, ?_, ?_⟩⟩
    · rw [a4 x hx trivial grav, ← sgn_direct grav]
    · rw [sub_self, abs_zero, ← totalStrength_eq]
      have := hI.len_pos
      exact mul_nonneg (totalStrength_nonneg S) (errPot3_nonneg p (by positivity))
  · obtain ⟨fuel0, T, s0, -, -, h3, h4, h5, h6⟩ := balanced_main (laws3Pot p hp) ⟨ht.good.1, hp0⟩ (by norm_num) hI hh hI.len_pos
      (by omega) hord
    refine ⟨fuel0, T, h3, h4, h5, fun x hx grav => ?_⟩
    obtain ⟨v, v1, v2⟩ := h6 x hx trivial grav
    refine ⟨_, v1, ?_⟩
    rw [sgn_direct grav, ← totalStrength_eq, mul_comm, ← potB3_eq]
    exact sgn_bound grav _ _ _ v2

/-- **C53** The adaptive 3D tree is constructed without error, its order is `p`, and its potential differs from the direct
sum by at most `(Σ|q|) rho^(p+1)/((2-√3) b)` everywhere in the root box, where `b` is the side of the boxes of the
deepest level; elsewhere the direct sum over the caller's sources is returned. -/
theorem C53_adaptive (ht : Reachable3 t) {max : ℕ} (hI : AdaptiveInput S max r)
    (hord : expansionOrder (totalStrength S) eps = .ok p) (hp0 : 1 ≤ p) (hp : p ≤ 42) :
    ∃ (fuel0 : ℕ) (T : AdaptiveFmm kit3),
      (∀ fuel ≥ fuel0, ∀ sch, Schedule sch → adaptiveFmm kit3 fuel sch t S max eps = .ok T) ∧ T.order = p ∧
      (∀ x, r.contains x → ∀ grav cur, ∃ v, (∀ fuel ≥ fuel0, adaptiveEval pot3 fuel grav T cur x = .ok v) ∧
        |v - directPotential grav S x| ≤ (S.map fun s => |s.q|).sum * errPot3 p (r.len / 2 ^ T.height)) ∧
      (∀ x, ¬ r.contains x → ∀ grav cur, (∀ s ∈ cur, s.pos ≠ x) → ∀ fuel ≥ fuel0,
        adaptiveEval pot3 fuel grav T cur x = .ok (directPotential grav cur x)) :=
  pot3_adaptive ht hI hord (Or.inl hp0) hp

/-- **C53** The same for the balanced tree, at all points of the half-open root box. -/
theorem C53_balanced (ht : Reachable3 t) {perCell h : ℕ} (hI : BalancedInput S perCell r h)
    (hord : expansionOrder (totalStrength S) eps = .ok p) (hp0 : 1 ≤ p) (hp : p ≤ 42) :
    ∃ (fuel0 : ℕ) (T : BalancedFmm kit3),
      (∀ fuel ≥ fuel0, ∀ sch, Schedule sch → balancedFmm kit3 fuel sch t S perCell eps = .ok T) ∧ T.order = p ∧ T.height = h ∧
      ∀ x, r.containsHO x → ∀ grav, ∃ v, balancedEval pot3 grav T x = .ok v ∧
        |v - directPotential grav S x| ≤ (S.map fun s => |s.q|).sum * errPot3 p (r.len / 2 ^ h) :=
  pot3_balanced ht hI hord (Or.inl hp0) hp

/-! ## C32 -/

/-- **C32** `operator+=` never throws while a 3D tree is built. -/
theorem C32_construction_3d (ht : Reachable3 t) (hord : expansionOrder (totalStrength S) eps = .ok p) (hp0 : 1 ≤ p)
    (hp : p ≤ 42) :
    (∀ max, AdaptiveInput S max r → ∃ fuel0, ∀ fuel ≥ fuel0, ∀ sch, Schedule sch →
      adaptiveFmm kit3 fuel sch t S max eps ≠ .error .logicError) ∧
    (∀ perCell h, BalancedInput S perCell r h → ∃ fuel0, ∀ fuel ≥ fuel0, ∀ sch, Schedule sch →
      balancedFmm kit3 fuel sch t S perCell eps ≠ .error .logicError) := by
  constructor
  · intro max hI
    obtain ⟨f, T, h, -⟩ := C53_adaptive ht hI hord hp0 hp
    exact ⟨f, fun fuel hf sch hs => by rw [h fuel hf sch hs]; simp⟩
  · intro perCell h hI
    obtain ⟨f, T, h, -⟩ := C53_balanced ht hI hord hp0 hp
    exact ⟨f, fun fuel hf sch hs => by rw [h fuel hf sch hs]; simp⟩

/-! ## C42 -/

/-- **C42** The potential of a 3D tree at the position of a source in the root box is a regular evaluation. -/
theorem C42_potential_3d (ht : Reachable3 t) (hord : expansionOrder (totalStrength S) eps = .ok p) (hp0 : 1 ≤ p)
    (hp : p ≤ 42) :
    (∀ max, AdaptiveInput S max r → ∃ (fuel0 : ℕ) (T : AdaptiveFmm kit3),
      (∀ fuel ≥ fuel0, ∀ sch, Schedule sch → adaptiveFmm kit3 fuel sch t S max eps = .ok T) ∧
      ∀ s ∈ S, ∀ grav, ∃ v, ∀ fuel ≥ fuel0, adaptiveEval pot3 fuel grav T S s.pos = .ok v) ∧
    (∀ perCell h, BalancedInput S perCell r h → ∃ (fuel0 : ℕ) (T : BalancedFmm kit3),
      (∀ fuel ≥ fuel0, ∀ sch, Schedule sch → balancedFmm kit3 fuel sch t S perCell eps = .ok T) ∧
      ∀ s ∈ S, ∀ grav, ∃ v, balancedEval pot3 grav T s.pos = .ok v) := by
  constructor
  · intro max hI
    obtain ⟨f, T, h1, -, h2, -⟩ := C53_adaptive ht hI hord hp0 hp
    refine ⟨f, T, h1, fun s hs grav => ?_⟩
    obtain ⟨v, hv, -⟩ := h2 s.pos (hI.inside s hs) grav S
    exact ⟨v, hv⟩
  · intro perCell h hI
    obtain ⟨f, T, h1, -, -, h2⟩ := C53_balanced ht hI hord hp0 hp
    refine ⟨f, T, h1, fun s hs grav => ?_⟩
    obtain ⟨v, hv, -⟩ := h2 s.pos (hI.inside s hs) grav
    exact ⟨v, hv⟩

/-- **C42** A source that the padding of the root box has left outside: the potential at its position is not finite. -/
theorem C42_outside_3d (fuel0 : ℕ) (sch : ℕ → List Path → List Path) {max : ℕ} {T : AdaptiveFmm kit3}
    (hT : adaptiveFmm kit3 fuel0 sch t S max eps = .ok T) (hr : rootBox (S.map Source.pos) = some r) (s : Source 3)
    (hs : s ∈ S) (hout : ¬ r.contains s.pos) (grav : Bool) :
    ∀ fuel > T.height, adaptiveEval pot3 fuel grav T S s.pos = .error .nonFinite := by
  intro fuel hf
  rw [(C13_evaluation pot3 hT hr (box_len_nonneg hr) s.pos).2 hout fuel hf grav S]
  exact (C34_unguarded grav S s.pos).2 ⟨s, hs, rfl⟩

/-! ## C43 -/

/-- **C43** The two evaluation functions of the 3D classes. -/
theorem C43_odd_3d (feps : ℝ) : Odd pot3 ∧ Odd (force3 feps) :=
  ⟨fun safe S x => potentialSum_neg safe S x, fun safe S x => forcefieldSum_neg safe S x feps⟩

end

/-! ## Non-vacuity -/

/-- C53, C38 for the adaptive tree over nine sources, `max_sources_per_leaf = 1`, `eps = 1`: order 4. -/
example : ∃ fuel T v, adaptiveFmm kit3 fuel (fun _ l => l.reverse) (Stat3.init 0 0 0) S9 1 1 = .ok T ∧ T.order = 4 ∧
    adaptiveEval pot3 fuel true T S9 ![4, 4, 4] = .ok v ∧
    |v - directPotential true S9 ![4, 4, 4]| ≤ 9 * errPot3 4 (box9.len / 2 ^ T.height) := by
  obtain ⟨fuel, T, h1, h2, h3, -⟩ := C53_adaptive reachable3_init S9_adaptive S9_order (by norm_num) (by norm_num)
  obtain ⟨v, v1, v2⟩ := h3 ![4, 4, 4] (S9_inside ⟨![4, 4, 4], 1⟩ (by simp [S9])) true S9
  rw [← totalStrength_eq, S9_total] at v2
  exact ⟨fuel, T, v, h1 fuel le_rfl _ fun _ l => l.reverse_perm, h2, v1 fuel le_rfl, v2⟩

theorem errPot3_four : errPot3 4 2 < 1 := by
  unfold errPot3
  have hs : Real.sqrt 3 ^ 2 = 3 := Real.sq_sqrt (by norm_num)
  have h4 : (Real.sqrt 3 / 2) ^ (4 + 1) = 9 / 32 * Real.sqrt 3 := by
    linear_combination (Real.sqrt 3 ^ 3 / 32 + 3 * Real.sqrt 3 / 32) * hs
  have h1 := sqrt3_lt
  rw [h4, div_lt_one (by linarith)]
  have : Real.sqrt 3 < 174 / 100 := by rw [Real.sqrt_lt' (by norm_num)]; norm_num
  linarith

/-- C53 for the balanced tree of height 2: leaves have side above 2, so the error bound is below `9`, and the
construction does not depend on the schedule (C38). -/
example : ∃ fuel T v, balancedFmm kit3 fuel (fun _ l => l.reverse) (Stat3.init 0 0 0) S9 1 1 = .ok T ∧ T.height = 2 ∧
    balancedEval pot3 false T ![4, 4, 4] = .ok v ∧ |v - directPotential false S9 ![4, 4, 4]| < 9 := by
  obtain ⟨fuel, T, h1, h2, h3, h4⟩ := C53_balanced reachable3_init S9_balanced S9_order (by norm_num) (by norm_num)
  obtain ⟨v, v1, v2⟩ := h4 ![4, 4, 4] (S9_insideHO ⟨![4, 4, 4], 1⟩ (by simp [S9])) false
  refine ⟨fuel, T, v, h1 fuel le_rfl _ (fun _ l => l.reverse_perm), h3, v1, v2.trans_lt ?_⟩
  rw [← totalStrength_eq, S9_total]
  have hb : (2 : ℝ) ≤ box9.len / 2 ^ 2 := by norm_num [box9, paddingFactor]
  have : errPot3 4 (box9.len / 2 ^ 2) ≤ errPot3 4 2 := by
    unfold errPot3
    have : 0 < 2 - Real.sqrt 3 := by linarith [sqrt3_lt]
    gcongr
  linarith [errPot3_four]

/-- C44: all nine sources in one leaf: the direct sum. -/
example : ∃ T, adaptiveFmm kit3 1 (fun _ l => l) (Stat3.init 0 0 0) S9 9 1 = .ok T ∧
    adaptiveEval pot3 1 true T [] ![0, 0, 0] = .ok (directPotential true S9 ![0, 0, 0]) := by
  obtain ⟨T, h1, h2, h3⟩ := C44_adaptive_3d reachable3_init S9_box (max := 9) (by simp [S9]) S9_order (by norm_num)
  exact ⟨T, h1 1 le_rfl _, h3 _ (S9_inside ⟨![0, 0, 0], 1⟩ (by simp [S9])) true [] 1 le_rfl⟩

end FMM
