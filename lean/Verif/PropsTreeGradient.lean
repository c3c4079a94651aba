import Verif.LinGradKits
import Verif.LinGradTree
import Verif.PropsLinear
import Verif.PropsFmm3DForce

/-!
# Forces and potentials computed by a tree (C118)

The force computed at a point is exactly minus the gradient of the potential computed by the same tree, although both are only approximations: at every
point in the interior of the box of a leaf; at the position of a particle after subtraction of its own potential.  Real arithmetic.
-/

namespace FMM

section
variable {d : ℕ} {K : Kit d} {O : Obs K ℝ} {O' : Obs K (Vec d)} {t : K.T} {S : List (Source d)} {r : Box d} {p : ℕ}

theorem AdaptiveGradient.mono {max : ℕ} {P P' : ℕ → Vec d → Prop} (H : AdaptiveGradient O O' t S max r p P) (h : ∀ H x, P' H x → P H x) :
    AdaptiveGradient O O' t S max r p P' := by
  intro eps ho
  obtain ⟨f, T, a, b⟩ := H eps ho
  exact ⟨f, T, a, fun π hm hl x hx hp => b π hm hl x hx (h _ _ hp)⟩

theorem BalancedGradient.mono {perCell h : ℕ} {P P' : Vec d → Prop} (H : BalancedGradient O O' t S perCell r h p P) (hp : ∀ x, P' x → P x) :
    BalancedGradient O O' t S perCell r h p P' := by
  intro eps ho
  obtain ⟨f, T, a, b⟩ := H eps ho
  exact ⟨f, T, a, fun π hm hl x hx hq => b π hm hl x hx (hp _ hq)⟩

theorem directPotential_off (grav : Bool) {x : Vec d} (h : ∀ s ∈ S, s.pos ≠ x) (y : Vec d) :
    directPotential grav (open Classical in S.filter fun s => s.pos = x) y = 0 := by
  have : (open Classical in S.filter fun s => s.pos = x) = [] := by
    rw [List.filter_eq_nil_iff]
    intro s hs
    simpa using h s hs
  rw [this]
  rfl

/-- **C118** Where there is no source, the computed potential itself has the derivative. -/
theorem C118_adaptive_off {max : ℕ} {P : ℕ → Vec d → Prop} (H : AdaptiveGradient O O' t S max r p P) {eps : ℝ}
    (ho : expansionOrder (totalStrength S) eps = .ok p) :
    ∃ (fuel0 : ℕ) (T : AdaptiveFmm K), (∀ fuel ≥ fuel0, ∀ sch, Schedule sch → adaptiveFmm K fuel sch t S max eps = .ok T) ∧
      ∀ π, (fmmTree Source.pos r S max).Mem π → (fmmTree Source.pos r S max).leaf π = true → ∀ x, (boxAt r π).Inner x → (∀ s ∈ S, s.pos ≠ x) →
        P T.height x → ∀ grav : Bool, ∃ (φ : Vec d → ℝ) (F : Vec d), (∀ cur, ∀ fuel ≥ fuel0,
            (∀ y, (boxAt r π).Inner y → adaptiveEval O fuel grav T cur y = .ok (φ y)) ∧ adaptiveEval O' fuel grav T cur x = .ok F) ∧
          HasFDerivAt φ (minusGrad F) x := by
  obtain ⟨f, T, a, b⟩ := H eps ho
  refine ⟨f, T, a, fun π hm hl x hx hs hp grav => ?_⟩
  obtain ⟨φ, F, b1, b2⟩ := b π hm hl x hx hp grav
  refine ⟨φ, F, fun cur fuel hf => ⟨fun y hy => ?_, (b1 cur fuel hf).2⟩, b2⟩
  rw [(b1 cur fuel hf).1 y hy, directPotential_off grav hs, add_zero]

theorem C118_balanced_off {perCell h : ℕ} {P : Vec d → Prop} (H : BalancedGradient O O' t S perCell r h p P) {eps : ℝ}
    (ho : expansionOrder (totalStrength S) eps = .ok p) :
    ∃ (fuel0 : ℕ) (T : BalancedFmm K), (∀ fuel ≥ fuel0, ∀ sch, Schedule sch → balancedFmm K fuel sch t S perCell eps = .ok T) ∧
      ∀ π, ValidPath d π → π.length = h → ∀ x, (boxAt r π).Inner x → (∀ s ∈ S, s.pos ≠ x) → P x → ∀ grav : Bool,
        ∃ (φ : Vec d → ℝ) (F : Vec d), (∀ y, (boxAt r π).Inner y → balancedEval O grav T y = .ok (φ y)) ∧ balancedEval O' grav T x = .ok F ∧
          HasFDerivAt φ (minusGrad F) x := by
  obtain ⟨f, T, a, b⟩ := H eps ho
  refine ⟨f, T, a, fun π hm hl x hx hs hp grav => ?_⟩
  obtain ⟨φ, F, b1, b2, b3⟩ := b π hm hl x hx hp grav
  refine ⟨φ, F, fun y hy => ?_, b2, b3⟩
  rw [b1 y hy, directPotential_off grav hs, add_zero]

end

section
variable {t : BinomialTable} {S : List (Source 2)} {r : Box 2} {p : ℕ}

/-- **C118** Adaptive tree in the plane. -/
theorem C118_adaptive_2d (ht : Reachable t) {max : ℕ} (hI : AdaptiveInput S max r) (hp0 : 1 ≤ p) (hp : p ≤ 1029) :
    AdaptiveGradient pot2 (force2 0) t S max r p fun _ _ => True :=
  (adaptive_gradient (Gr.grad2 p hp0 hp _) (fun _ _ => trivial) ⟨ht.good, rfl⟩ ⟨ht.good, rfl⟩ hI).mono fun _ _ _ _ _ => trivial

/-- **C118** Balanced tree in the plane. -/
theorem C118_balanced_2d (ht : Reachable t) {perCell h : ℕ} (hI : BalancedInput S perCell r h) (hp0 : 1 ≤ p) (hp : p ≤ 1029) :
    BalancedGradient pot2 (force2 0) t S perCell r h p fun _ => True := by
  have hs := hI.small
  exact (balanced_gradient (Gr.grad2 p hp0 hp _) (fun _ _ => trivial) ⟨ht.good, rfl⟩ ⟨ht.good, rfl⟩ le_rfl (by norm_num) hI hI.len_pos (by omega)).mono
    fun _ _ => trivial

end

section
variable {t : Stat3} {S : List (Source 3)} {r : Box 3} {p : ℕ}

/-- **C118** Adaptive tree in space, off the vertical lines through the centres of the boxes (C54). -/
theorem C118_adaptive_3d (ht : Reachable3 t) {max : ℕ} (hI : AdaptiveInput S max r) (hp0 : 1 ≤ p) (hp : p ≤ 42) :
    AdaptiveGradient pot3 (force3 0) t S max r p fun H x => ∀ k ≤ H, ¬ Aligned r k x :=
  (adaptive_gradient (Gr.grad3 p hp0 hp) (fun _ _ => trivial) ⟨ht.good.1, Or.inl hp0⟩ ht.good.1 hI).mono
    fun _ _ hA π hπ h => hA π.length hπ (aligned_of_onAxis h)

/-- **C118** Balanced tree in space. -/
theorem C118_balanced_3d (ht : Reachable3 t) {perCell h : ℕ} (hI : BalancedInput S perCell r h) (hp0 : 1 ≤ p) (hp : p ≤ 42) :
    BalancedGradient pot3 (force3 0) t S perCell r h p fun x => ¬ Aligned r h x := by
  have hs := hI.small
  exact (balanced_gradient (Gr.grad3 p hp0 hp) (fun _ _ => trivial) ⟨ht.good.1, Or.inl hp0⟩ ht.good.1 (by norm_num) (by norm_num) hI
      hI.len_pos (by omega)).mono fun x hA h => hA (by have := aligned_of_onAxis h; rwa [route_length] at this)

end

/-! ## Non-vacuity -/

/-- The force on the particle at `(1, 1)` is minus the gradient of the potential of the others, in its leaf. -/
example : ∃ fuel T φ F, balancedFmm kit2 fuel (fun _ (l : List BAddr) => l.reverse) BinomialTable.init S5 1 1 = .ok T ∧
    (∀ y, (boxAt box5 [3, 3]).Inner y → balancedEval pot2 true T y
      = .ok (φ y + directPotential true (open Classical in S5.filter fun s => s.pos = ![1, 1]) y)) ∧
    balancedEval (force2 0) true T ![1, 1] = .ok F ∧ HasFDerivAt φ (minusGrad F) ![1, 1] := by
  obtain ⟨f, T, a, b⟩ := C118_balanced_2d (p := 3) reachable_init S5_balanced (by norm_num) (by norm_num) 1 S5_order
  have hx : (boxAt box5 [3, 3]).Inner ![1, 1] := by
    have h3 : ∀ j, childDir 2 3 j = 1 := fun j => if_pos (by fin_cases j <;> decide)
    intro j
    simp only [boxAt, Box.lower_apply, Box.upper_apply, Box.child, Pi.add_apply, Pi.smul_apply, smul_eq_mul, h3, box5, paddingFactor]
    fin_cases j <;> norm_num
  obtain ⟨φ, F, b1, b2, b3⟩ := b [3, 3] (by intro i hi; simp at hi; omega) rfl ![1, 1] hx trivial true
  exact ⟨f, T, φ, F, a f le_rfl _ fun _ l => l.reverse_perm, b1, b2, b3⟩

/-- A leaf of the adaptive tree of five sources, at its centre or, if there is a source there, without it. -/
example : ∃ fuel T π φ F, adaptiveFmm kit2 fuel (fun _ l => l) BinomialTable.init S5 1 1 = .ok T ∧ (fmmTree Source.pos box5 S5 1).leaf π = true ∧
    (∀ y, (boxAt box5 π).Inner y → adaptiveEval pot2 fuel false T [] y
      = .ok (φ y + directPotential false (open Classical in S5.filter fun s => s.pos = (boxAt box5 π).center) y)) ∧
    adaptiveEval (force2 0) fuel false T [] (boxAt box5 π).center = .ok F ∧ HasFDerivAt φ (minusGrad F) (boxAt box5 π).center := by
  obtain ⟨f, T, a, b⟩ := C118_adaptive_2d (p := 3) reachable_init S5_adaptive (by norm_num) (by norm_num) 1 S5_order
  have hN : 1 < S5.length := by simp [S5]
  have hr := S5_adaptive.len_pos hN
  obtain ⟨hh, k, h1, h2, h3, h4, h5⟩ := adaptive_depths S5_adaptive hN
  have hx : (boxAt box5 (route box5 ![1, 1] (k ![1, 1]))).Inner (boxAt box5 (route box5 ![1, 1] (k ![1, 1]))).center := by
    intro j
    rw [Box.lower_apply, Box.upper_apply]
    have := boxAt_len_pos box5 hr (route box5 ![1, 1] (k ![1, 1]))
    constructor <;> linarith
  obtain ⟨φ, F, b1, b2⟩ := b _ (h3 ![1, 1]) (h4 _) _ hx trivial false
  exact ⟨f, T, _, φ, F, a f le_rfl _ fun _ l => List.Perm.refl l, h4 _, (b1 [] f le_rfl).1, (b1 [] f le_rfl).2, b2⟩

/-- Nine sources in space, at the corner `(4, 4, 4)`. -/
example : ∃ fuel T φ F, balancedFmm kit3 fuel (fun _ l => l) (Stat3.init 0 0 0) S9 1 1 = .ok T ∧
    (∀ y, (boxAt box9 [7, 7]).Inner y → balancedEval pot3 false T y
      = .ok (φ y + directPotential false (open Classical in S9.filter fun s => s.pos = ![4, 4, 4]) y)) ∧
    balancedEval (force3 0) false T ![4, 4, 4] = .ok F ∧ HasFDerivAt φ (minusGrad F) ![4, 4, 4] := by
  obtain ⟨f, T, a, b⟩ := C118_balanced_3d (p := 4) reachable3_init S9_balanced (by norm_num) (by norm_num) 1 S9_order
  have hx : (boxAt box9 [7, 7]).Inner ![4, 4, 4] := by
    have h3 : ∀ j, childDir 3 7 j = 1 := fun j => if_pos (by fin_cases j <;> decide)
    intro j
    simp only [boxAt, Box.lower_apply, Box.upper_apply, Box.child, Pi.add_apply, Pi.smul_apply, smul_eq_mul, h3, box9, paddingFactor]
    fin_cases j <;> norm_num
  have hA : ¬ Aligned box9 2 ![4, 4, 4] := by
    rintro ⟨i, -, h, -⟩
    rw [Box.lower_apply] at h
    norm_num [box9, paddingFactor] at h
    have e : (400000 : ℝ) = 100001 * (2 * i - 3) := by linarith
    have e' : (400000 : ℤ) = 100001 * (2 * i - 3) := by exact_mod_cast e
    omega
  obtain ⟨φ, F, b1, b2, b3⟩ := b [7, 7] (by intro i hi; simp at hi; omega) rfl ![4, 4, 4] hx hA false
  exact ⟨f, T, φ, F, a f le_rfl _ fun _ l => List.Perm.refl l, b1, b2, b3⟩

end FMM
