import Verif.LinKits
import Verif.LinTrees
import Verif.PropsFmm3DForce

/-!
# Superposition (C116)

The values computed by both trees are linear in the charges: `∑ q_s h(x, y_s)`, with a function `h` determined by the positions of the sources, the
expansion order, and the parameters of the tree.  So trees over the same positions may be superposed as if they computed the fields exactly, and the
order in which the sources are given does not matter.  Real arithmetic; the tolerances must lead to the same order.
-/

namespace FMM

/-! ## What superposition says -/

section
variable {d : ℕ} {V : Type} [AddCommGroup V] [Module ℝ V] {K : Kit d} {O : Obs K V} {t : K.T} {S0 : List (Source d)} {r : Box d} {p : ℕ}

/-- Positions with two charges. -/
structure TwoCharges (d : ℕ) where
  pos : Vec d
  q : ℝ
  q' : ℝ

/-- The sources with charges `a q + b q'`. -/
def TwoCharges.mix (a b : ℝ) (X : List (TwoCharges d)) : List (Source d) := X.map fun x => ⟨x.pos, a * x.q + b * x.q'⟩

theorem TwoCharges.mix_pos (a b : ℝ) (X : List (TwoCharges d)) : (mix a b X).map Source.pos = X.map TwoCharges.pos := by
  simp [mix, Function.comp_def]

theorem superpose_mix (h : Vec d → Vec d → V) (a b : ℝ) (X : List (TwoCharges d)) (x : Vec d) :
    superpose h (TwoCharges.mix a b X) x = a • superpose h (TwoCharges.mix 1 0 X) x + b • superpose h (TwoCharges.mix 0 1 X) x := by
  unfold superpose TwoCharges.mix
  rw [← Lin.sum_smul, ← Lin.sum_smul]
  simp only [List.map_map]
  rw [← List.sum_map_add]
  refine congrArg List.sum (List.map_congr_left fun s _ => ?_)
  simp only [Function.comp_apply]
  module

/-- **C116** Linear combinations: a tree for the charges `q`, one for `q'` and one for `a q + b q'`. -/
theorem C116_combine_adaptive {max : ℕ} {P : ℕ → Vec d → Prop} (H : AdaptiveSuperposition O t S0 max r p P) (a b : ℝ) (X : List (TwoCharges d))
    (hX : (X.map TwoCharges.pos).Perm (S0.map Source.pos)) {e1 e2 e3 : ℝ}
    (h1 : expansionOrder (totalStrength (TwoCharges.mix 1 0 X)) e1 = .ok p) (h2 : expansionOrder (totalStrength (TwoCharges.mix 0 1 X)) e2 = .ok p)
    (h3 : expansionOrder (totalStrength (TwoCharges.mix a b X)) e3 = .ok p) :
    ∃ (fuel0 : ℕ) (T1 T2 T3 : AdaptiveFmm K), (∀ fuel ≥ fuel0, ∀ sch, Schedule sch →
        adaptiveFmm K fuel sch t (TwoCharges.mix 1 0 X) max e1 = .ok T1 ∧ adaptiveFmm K fuel sch t (TwoCharges.mix 0 1 X) max e2 = .ok T2 ∧
        adaptiveFmm K fuel sch t (TwoCharges.mix a b X) max e3 = .ok T3) ∧
      ∀ x, r.contains x → P T1.height x → P T2.height x → P T3.height x → ∀ grav, ∃ v w, ∀ cur, ∀ fuel ≥ fuel0,
        adaptiveEval O fuel grav T1 cur x = .ok v ∧ adaptiveEval O fuel grav T2 cur x = .ok w ∧
        adaptiveEval O fuel grav T3 cur x = .ok (a • v + b • w) := by
  obtain ⟨n, h, H⟩ := H
  obtain ⟨f1, T1, a1, -, b1⟩ := H _ e1 (by rw [TwoCharges.mix_pos]; exact hX) h1
  obtain ⟨f2, T2, a2, -, b2⟩ := H _ e2 (by rw [TwoCharges.mix_pos]; exact hX) h2
  obtain ⟨f3, T3, a3, -, b3⟩ := H _ e3 (by rw [TwoCharges.mix_pos]; exact hX) h3
  refine ⟨f1 + f2 + f3, T1, T2, T3, fun fuel hf sch hs => ⟨a1 fuel (by omega) sch hs, a2 fuel (by omega) sch hs, a3 fuel (by omega) sch hs⟩,
    fun x hx p1 p2 p3 grav => ⟨_, _, fun cur fuel hf => ⟨b1 x hx p1 grav cur fuel (by omega), b2 x hx p2 grav cur fuel (by omega), ?_⟩⟩⟩
  rw [b3 x hx p3 grav cur fuel (by omega), superpose_mix]
  cases grav
  · simp only [Bool.false_eq_true, if_false]; congr 1; module
  · rfl

/-- **C116** The same for the balanced tree. -/
theorem C116_combine_balanced {perCell : ℕ} {P : Vec d → Prop} (H : BalancedSuperposition O t S0 perCell r p P) (a b : ℝ) (X : List (TwoCharges d))
    (hX : (X.map TwoCharges.pos).Perm (S0.map Source.pos)) {e1 e2 e3 : ℝ}
    (h1 : expansionOrder (totalStrength (TwoCharges.mix 1 0 X)) e1 = .ok p) (h2 : expansionOrder (totalStrength (TwoCharges.mix 0 1 X)) e2 = .ok p)
    (h3 : expansionOrder (totalStrength (TwoCharges.mix a b X)) e3 = .ok p) :
    ∃ (fuel0 : ℕ) (T1 T2 T3 : BalancedFmm K), (∀ fuel ≥ fuel0, ∀ sch, Schedule sch →
        balancedFmm K fuel sch t (TwoCharges.mix 1 0 X) perCell e1 = .ok T1 ∧ balancedFmm K fuel sch t (TwoCharges.mix 0 1 X) perCell e2 = .ok T2 ∧
        balancedFmm K fuel sch t (TwoCharges.mix a b X) perCell e3 = .ok T3) ∧
      ∀ x, r.containsHO x → P x → ∀ grav, ∃ v w, balancedEval O grav T1 x = .ok v ∧ balancedEval O grav T2 x = .ok w ∧
        balancedEval O grav T3 x = .ok (a • v + b • w) := by
  obtain ⟨h, H⟩ := H
  obtain ⟨f1, T1, a1, b1⟩ := H _ e1 (by rw [TwoCharges.mix_pos]; exact hX) h1
  obtain ⟨f2, T2, a2, b2⟩ := H _ e2 (by rw [TwoCharges.mix_pos]; exact hX) h2
  obtain ⟨f3, T3, a3, b3⟩ := H _ e3 (by rw [TwoCharges.mix_pos]; exact hX) h3
  refine ⟨f1 + f2 + f3, T1, T2, T3, fun fuel hf sch hs => ⟨a1 fuel (by omega) sch hs, a2 fuel (by omega) sch hs, a3 fuel (by omega) sch hs⟩,
    fun x hx hp grav => ⟨_, _, b1 x hx hp grav, b2 x hx hp grav, ?_⟩⟩
  rw [b3 x hx hp grav, superpose_mix]
  cases grav
  · simp only [Bool.false_eq_true, if_false]; congr 1; module
  · rfl

theorem expansionOrder_scale {c : ℝ} (hc : c ≠ 0) (A eps : ℝ) : expansionOrder (|c| * A) (|c| * eps) = expansionOrder A eps := by
  have h : |c| ≠ 0 := abs_ne_zero.mpr hc
  unfold expansionOrder
  simp only [mul_div_mul_left _ _ h, mul_eq_zero, h, false_or]

theorem totalStrength_scale (c : ℝ) (S : List (Source d)) : totalStrength (S.map fun s => ⟨s.pos, c * s.q⟩) = |c| * totalStrength S := by
  rw [totalStrength_eq, totalStrength_eq, List.map_map, ← List.sum_map_mul_left]
  exact congrArg List.sum (List.map_congr_left fun s _ => by simp [abs_mul])

/-- **C116** Units: multiplying the charges by `c ≠ 0` and the tolerance by `|c|` multiplies the results by `c`; and the order of the sources does
not matter. -/
theorem C116_scale_adaptive {max : ℕ} {P : ℕ → Vec d → Prop} (H : AdaptiveSuperposition O t S0 max r p P) {c : ℝ} (hc : c ≠ 0) {S : List (Source d)}
    (hS : S.Perm S0) {eps : ℝ} (hord : expansionOrder (totalStrength S0) eps = .ok p) :
    ∃ (fuel0 : ℕ) (T T' : AdaptiveFmm K), (∀ fuel ≥ fuel0, ∀ sch, Schedule sch → adaptiveFmm K fuel sch t S0 max eps = .ok T ∧
        adaptiveFmm K fuel sch t (S.map fun s => ⟨s.pos, c * s.q⟩) max (|c| * eps) = .ok T') ∧
      ∀ x, r.contains x → P T.height x → P T'.height x → ∀ grav, ∃ v, ∀ cur, ∀ fuel ≥ fuel0,
        adaptiveEval O fuel grav T cur x = .ok v ∧ adaptiveEval O fuel grav T' cur x = .ok (c • v) := by
  obtain ⟨n, h, H⟩ := H
  obtain ⟨f1, T1, a1, -, b1⟩ := H S0 eps (List.Perm.refl _) hord
  obtain ⟨f2, T2, a2, -, b2⟩ := H (S.map fun s => ⟨s.pos, c * s.q⟩) (|c| * eps) (by simpa [Function.comp_def] using hS.map Source.pos)
    (by rw [totalStrength_scale, expansionOrder_scale hc, totalStrength_perm hS]; exact hord)
  refine ⟨f1 + f2, T1, T2, fun fuel hf sch hs => ⟨a1 fuel (by omega) sch hs, a2 fuel (by omega) sch hs⟩,
    fun x hx p1 p2 grav => ⟨_, fun cur fuel hf => ⟨b1 x hx p1 grav cur fuel (by omega), ?_⟩⟩⟩
  rw [b2 x hx p2 grav cur fuel (by omega), superpose_scale, superpose_perm h hS]
  cases grav <;> simp

/-- **C116** The same for the balanced tree. -/
theorem C116_scale_balanced {perCell : ℕ} {P : Vec d → Prop} (H : BalancedSuperposition O t S0 perCell r p P) {c : ℝ} (hc : c ≠ 0)
    {S : List (Source d)} (hS : S.Perm S0) {eps : ℝ} (hord : expansionOrder (totalStrength S0) eps = .ok p) :
    ∃ (fuel0 : ℕ) (T T' : BalancedFmm K), (∀ fuel ≥ fuel0, ∀ sch, Schedule sch → balancedFmm K fuel sch t S0 perCell eps = .ok T ∧
        balancedFmm K fuel sch t (S.map fun s => ⟨s.pos, c * s.q⟩) perCell (|c| * eps) = .ok T') ∧
      ∀ x, r.containsHO x → P x → ∀ grav, ∃ v, balancedEval O grav T x = .ok v ∧ balancedEval O grav T' x = .ok (c • v) := by
  obtain ⟨h, H⟩ := H
  obtain ⟨f1, T1, a1, b1⟩ := H S0 eps (List.Perm.refl _) hord
  obtain ⟨f2, T2, a2, b2⟩ := H (S.map fun s => ⟨s.pos, c * s.q⟩) (|c| * eps) (by simpa [Function.comp_def] using hS.map Source.pos)
    (by rw [totalStrength_scale, expansionOrder_scale hc, totalStrength_perm hS]; exact hord)
  refine ⟨f1 + f2, T1, T2, fun fuel hf sch hs => ⟨a1 fuel (by omega) sch hs, a2 fuel (by omega) sch hs⟩,
    fun x hx hp grav => ⟨_, b1 x hx hp grav, ?_⟩⟩
  rw [b2 x hx hp grav, superpose_scale, superpose_perm h hS]
  cases grav <;> simp

theorem AdaptiveSuperposition.mono {max : ℕ} {P Q : ℕ → Vec d → Prop} (H : AdaptiveSuperposition O t S0 max r p P) (h : ∀ H x, Q H x → P H x) :
    AdaptiveSuperposition O t S0 max r p Q := by
  obtain ⟨n, g, H⟩ := H
  refine ⟨n, g, fun S eps hS ho => ?_⟩
  obtain ⟨f, T, a, e, b⟩ := H S eps hS ho
  exact ⟨f, T, a, e, fun x hx hq => b x hx (h _ _ hq)⟩

theorem BalancedSuperposition.mono {perCell : ℕ} {P Q : Vec d → Prop} (H : BalancedSuperposition O t S0 perCell r p P) (h : ∀ x, Q x → P x) :
    BalancedSuperposition O t S0 perCell r p Q := by
  obtain ⟨g, H⟩ := H
  refine ⟨g, fun S eps hS ho => ?_⟩
  obtain ⟨f, T, a, b⟩ := H S eps hS ho
  exact ⟨f, T, a, fun x hx hq => b x hx (h _ hq)⟩

end

/-! ## The trees -/

section
variable {t : BinomialTable} {S0 : List (Source 2)} {r : Box 2} {p : ℕ}

/-- **C116** Adaptive tree in the plane: potential, and force with any smoothing. -/
theorem C116_adaptive_2d (ht : Reachable t) {max : ℕ} (hI : AdaptiveInput S0 max r) (hp0 : 1 ≤ p) (hp : p ≤ 1029) :
    AdaptiveSuperposition pot2 t S0 max r p (fun _ _ => True) ∧
    ∀ feps : ℝ, 0 ≤ feps → AdaptiveSuperposition (force2 feps) t S0 max r p fun _ _ => True :=
  ⟨(adaptive_linear (lin2Pot p hp0 hp _) ⟨ht.good, rfl⟩ hI).mono fun _ _ _ _ _ => trivial,
   fun feps hf => (adaptive_linear ((lin2Force p hp0 hp _).smooth (O' := force2 feps) hf rfl rfl rfl rfl rfl) ⟨ht.good, rfl⟩ hI).mono
    fun _ _ _ _ _ => trivial⟩

/-- **C116** Balanced tree in the plane. -/
theorem C116_balanced_2d (ht : Reachable t) {perCell h : ℕ} (hI : BalancedInput S0 perCell r h) (hp0 : 1 ≤ p) (hp : p ≤ 1029) :
    BalancedSuperposition pot2 t S0 perCell r p (fun _ => True) ∧
    ∀ feps : ℝ, 0 ≤ feps → BalancedSuperposition (force2 feps) t S0 perCell r p fun _ => True := by
  have hs := hI.small
  exact ⟨(balanced_linear (lin2Pot p hp0 hp _) ⟨ht.good, rfl⟩ le_rfl (by norm_num) hI hI.len_pos (by omega)).mono fun _ _ => trivial,
   fun feps hf => (balanced_linear ((lin2Force p hp0 hp _).smooth (O' := force2 feps) hf rfl rfl rfl rfl rfl) ⟨ht.good, rfl⟩ le_rfl (by norm_num) hI
    hI.len_pos (by omega)).mono fun _ _ => trivial⟩

end

section
variable {t : Stat3} {S0 : List (Source 3)} {r : Box 3} {p : ℕ}

/-- **C116** Adaptive tree in space; the force only off the vertical lines through the centres of the boxes (C54). -/
theorem C116_adaptive_3d (ht : Reachable3 t) {max : ℕ} (hI : AdaptiveInput S0 max r) (hp0 : 1 ≤ p) (hp : p ≤ 42) :
    AdaptiveSuperposition pot3 t S0 max r p (fun _ _ => True) ∧
    ∀ feps : ℝ, 0 ≤ feps → AdaptiveSuperposition (force3 feps) t S0 max r p fun H x => ∀ k ≤ H, ¬ Aligned r k x :=
  ⟨(adaptive_linear (lin3Pot p hp) ⟨ht.good.1, Or.inl hp0⟩ hI).mono fun _ _ _ _ _ => trivial,
   fun feps hf => (adaptive_linear ((lin3Force p hp0 hp).smooth (O' := force3 feps) hf rfl rfl rfl rfl rfl) ht.good.1 hI).mono
    fun _ _ hA π hπ h => hA π.length hπ (aligned_of_onAxis h)⟩

/-- **C116** Balanced tree in space. -/
theorem C116_balanced_3d (ht : Reachable3 t) {perCell h : ℕ} (hI : BalancedInput S0 perCell r h) (hp0 : 1 ≤ p) (hp : p ≤ 42) :
    BalancedSuperposition pot3 t S0 perCell r p (fun _ => True) ∧
    ∀ feps : ℝ, 0 ≤ feps → BalancedSuperposition (force3 feps) t S0 perCell r p fun x => ¬ Aligned r h x := by
  have hs := hI.small
  exact ⟨(balanced_linear (lin3Pot p hp) ⟨ht.good.1, Or.inl hp0⟩ (by norm_num) (by norm_num) hI hI.len_pos (by omega)).mono fun _ _ => trivial,
   fun feps hf => (balanced_linear ((lin3Force p hp0 hp).smooth (O' := force3 feps) hf rfl rfl rfl rfl rfl) ht.good.1 (by norm_num) (by norm_num) hI
    hI.len_pos (by omega)).mono fun x hA h => hA (by have := aligned_of_onAxis h; rwa [route_length] at this)⟩

end

/-! ## Non-vacuity -/

/-- Five sources, in reverse order with charges three times as large and of the opposite sign, tolerance 3. -/
example : ∃ fuel T T' v, adaptiveFmm kit2 fuel (fun _ l => l) BinomialTable.init S5 1 1 = .ok T ∧
    adaptiveFmm kit2 fuel (fun _ l => l.reverse) BinomialTable.init (S5.reverse.map fun s => ⟨s.pos, -3 * s.q⟩) 1 (|(-3)| * 1) = .ok T' ∧
    adaptiveEval pot2 fuel true T S5 ![1, 1] = .ok v ∧ adaptiveEval pot2 fuel true T' S5 ![1, 1] = .ok (-3 * v) := by
  obtain ⟨f, T, T', h1, h2⟩ := C116_scale_adaptive (C116_adaptive_2d (p := 3) reachable_init S5_adaptive (by norm_num) (by norm_num)).1
    (c := -3) (by norm_num) S5.reverse_perm S5_order
  obtain ⟨v, hv⟩ := h2 ![1, 1] (S5_inside ⟨![1, 1], 1⟩ (by simp [S5])) trivial trivial true
  exact ⟨f, T, T', v, (h1 f le_rfl _ fun _ l => List.Perm.refl l).1, (h1 f le_rfl _ fun _ l => l.reverse_perm).2, (hv S5 f le_rfl).1, (hv S5 f le_rfl).2⟩

/-- The positions of the five sources, with their charges and with unit charges. -/
noncomputable def X5 : List (TwoCharges 2) :=
  [⟨![1, 1], 1, 1⟩, ⟨![-1, 1], -1, 1⟩, ⟨![1, -1], 1, 1⟩, ⟨![-1, -1], 1, 1⟩, ⟨![1 / 2, 1 / 2], 1, 1⟩]

/-- The charges `q + q'`: potential of the balanced tree of height 2. -/
example : ∃ fuel T1 T2 T3 v w, balancedFmm kit2 fuel (fun _ l => l) BinomialTable.init (TwoCharges.mix 1 0 X5) 1 1 = .ok T1 ∧
    balancedFmm kit2 fuel (fun _ l => l) BinomialTable.init (TwoCharges.mix 0 1 X5) 1 1 = .ok T2 ∧
    balancedFmm kit2 fuel (fun _ l => l) BinomialTable.init (TwoCharges.mix 1 1 X5) 1 1 = .ok T3 ∧
    balancedEval pot2 true T1 ![1, 1] = .ok v ∧ balancedEval pot2 true T2 ![1, 1] = .ok w ∧ balancedEval pot2 true T3 ![1, 1] = .ok (v + w) := by
  have ho : ∀ A : ℝ, 4 < A → A ≤ 8 → expansionOrder A 1 = .ok 3 := by
    intro A h1 h2
    refine order_eq A 1 3 (by norm_num) (by linarith) (by norm_num; linarith) ?_ (by norm_num)
    intro q hq
    interval_cases q <;> norm_num <;> linarith
  obtain ⟨f, T1, T2, T3, h1, h2⟩ := C116_combine_balanced (C116_balanced_2d (p := 3) reachable_init S5_balanced (by norm_num) (by norm_num)).1
    1 1 X5 (by simp [X5, S5]) (e1 := 1) (e2 := 1) (e3 := 1)
    (ho _ (by rw [totalStrength_eq]; simp [TwoCharges.mix, X5]; norm_num) (by rw [totalStrength_eq]; simp [TwoCharges.mix, X5]; norm_num))
    (ho _ (by rw [totalStrength_eq]; simp [TwoCharges.mix, X5]; norm_num) (by rw [totalStrength_eq]; simp [TwoCharges.mix, X5]; norm_num))
    (ho _ (by rw [totalStrength_eq]; simp [TwoCharges.mix, X5]; norm_num) (by rw [totalStrength_eq]; simp [TwoCharges.mix, X5]; norm_num))
  obtain ⟨a1, a2, a3⟩ := h1 f le_rfl (fun _ l => l) fun _ l => List.Perm.refl l
  obtain ⟨v, w, b1, b2, b3⟩ := h2 ![1, 1] (S5_insideHO ⟨![1, 1], 1⟩ (by simp [S5])) trivial true
  refine ⟨f, T1, T2, T3, v, w, a1, a2, a3, b1, b2, ?_⟩
  rw [b3, one_smul, one_smul]

end FMM
