import Verif.LinHarmTree
import Verif.PropsTreeGradient
import Mathlib.Analysis.Calculus.Deriv.Add
import Mathlib.Analysis.Calculus.Deriv.Pi

/-!
# Laplace's equation for the results of the trees (C121)

The potentials computed by a tree, although only approximations, satisfy Laplace's equation exactly: at every point in the interior of the box of a leaf
where there is no source; at the position of a particle after subtraction of its own potential.  The computed forces have divergence zero there.  Real
arithmetic.
-/

namespace FMM

/-- The sum of the second derivatives along the axes. -/
noncomputable def laplacian {d : ℕ} (φ : Vec d → ℝ) (x : Vec d) : ℝ :=
  ∑ j : Fin d, deriv (deriv fun t : ℝ => φ (x + t • Pi.single j 1)) 0

section
variable {d : ℕ} {K : Kit d} {O : Obs K ℝ} {O' : Obs K (Vec d)} {t : K.T} {S : List (Source d)} {r : Box d} {p : ℕ}

theorem laplacian_congr {φ ψ : Vec d → ℝ} {x : Vec d} (h : φ =ᶠ[nhds x] ψ) : laplacian φ x = laplacian ψ x := by
  refine Finset.sum_congr rfl fun j _ => ?_
  have hc : Filter.Tendsto (fun t : ℝ => x + t • (Pi.single j 1 : Vec d)) (nhds 0) (nhds x) := by
    have : Continuous fun t : ℝ => x + t • (Pi.single j 1 : Vec d) := by fun_prop
    simpa using this.tendsto 0
  have e : (fun t : ℝ => φ (x + t • Pi.single j 1)) =ᶠ[nhds 0] fun t => ψ (x + t • Pi.single j 1) := hc.eventually h
  exact e.deriv.deriv_eq

theorem laplacian_of_free {φ : Vec d → ℝ} {F : Vec d → Vec d} {x : Vec d} (h1 : ∀ᶠ y in nhds x, HasFDerivAt φ (minusGrad (F y)) y)
    (h2 : SourceFree F x) : laplacian φ x = 0 := by
  obtain ⟨J, h3, h4⟩ := h2
  have key : ∀ j, deriv (deriv fun t : ℝ => φ (x + t • Pi.single j 1)) 0 = -J (Pi.single j 1) j := by
    intro j
    have hl : ∀ t : ℝ, HasDerivAt (fun t : ℝ => x + t • (Pi.single j 1 : Vec d)) (Pi.single j 1) t := fun t => by
      simpa using ((hasDerivAt_id t).smul_const (Pi.single j 1 : Vec d)).const_add x
    have hc : Filter.Tendsto (fun t : ℝ => x + t • (Pi.single j 1 : Vec d)) (nhds 0) (nhds x) := by
      have : Continuous fun t : ℝ => x + t • (Pi.single j 1 : Vec d) := by fun_prop
      simpa using this.tendsto 0
    have e : (deriv fun t : ℝ => φ (x + t • Pi.single j 1)) =ᶠ[nhds 0] fun t => -F (x + t • Pi.single j 1) j := by
      filter_upwards [hc.eventually h1] with t ht
      have := (ht.comp_hasDerivAt t (hl t)).deriv
      rw [show (fun t : ℝ => φ (x + t • Pi.single j 1)) = φ ∘ fun t : ℝ => x + t • (Pi.single j 1 : Vec d) from rfl, this]
      simp [minusGrad, Pi.single_apply]
    rw [e.deriv_eq]
    have h5 : HasFDerivAt F J (x + (0 : ℝ) • (Pi.single j 1 : Vec d)) := by simpa using h3
    have h6 := h5.comp_hasDerivAt (0 : ℝ) (hl 0)
    exact ((hasDerivAt_pi.mp h6) j).neg.deriv
  unfold laplacian
  simp only [key, Finset.sum_neg_distrib, h4, neg_zero]

theorem AdaptiveHarmonic.mono {max : ℕ} {P P' : ℕ → Vec d → Prop} (H : AdaptiveHarmonic O O' t S max r p P) (h : ∀ H x, P' H x → P H x) :
    AdaptiveHarmonic O O' t S max r p P' := by
  intro eps ho
  obtain ⟨f, T, a, b⟩ := H eps ho
  refine ⟨f, T, a, fun π hm hl x hx grav => ?_⟩
  obtain ⟨φ, F, b1, b2⟩ := b π hm hl x hx grav
  exact ⟨φ, F, fun cur fuel hf y hy => ⟨(b1 cur fuel hf y hy).1, fun hp => (b1 cur fuel hf y hy).2 (h _ _ hp)⟩, b2⟩

theorem BalancedHarmonic.mono {perCell h : ℕ} {P P' : Vec d → Prop} (H : BalancedHarmonic O O' t S perCell r h p P) (hp : ∀ x, P' x → P x) :
    BalancedHarmonic O O' t S perCell r h p P' := by
  intro eps ho
  obtain ⟨f, T, a, b⟩ := H eps ho
  refine ⟨f, T, a, fun π hm hl x hx grav => ?_⟩
  obtain ⟨φ, F, b1, b2⟩ := b π hm hl x hx grav
  exact ⟨φ, F, fun y hy => ⟨(b1 y hy).1, fun hq => (b1 y hy).2 (hp _ hq)⟩, b2⟩

/-- The values of a function given near every point of `U`. -/
theorem exists_potential {U : Set (Vec d)} {g : Vec d → Outcome ℝ} (hU : IsOpen U)
    (h : ∀ x ∈ U, ∃ φ : Vec d → ℝ, (∀ y ∈ U, g y = .ok (φ y)) ∧ ((∀ s ∈ S, s.pos ≠ x) → laplacian φ x = 0)) :
    ∃ φ : Vec d → ℝ, (∀ y ∈ U, g y = .ok (φ y)) ∧ ∀ x ∈ U, (∀ s ∈ S, s.pos ≠ x) → laplacian φ x = 0 := by
  by_cases hne : ∃ x, x ∈ U
  · obtain ⟨x, hx⟩ := hne
    obtain ⟨φ, h1, -⟩ := h x hx
    refine ⟨φ, h1, fun z hz hs => ?_⟩
    obtain ⟨ψ, h2, h3⟩ := h z hz
    rw [← h3 hs]
    refine laplacian_congr ?_
    filter_upwards [hU.mem_nhds hz] with y hy
    have := h1 y hy
    rw [h2 y hy] at this
    exact (Except.ok.inj this).symm
  · exact ⟨fun _ => 0, fun y hy => absurd ⟨y, hy⟩ hne, fun y hy => absurd ⟨y, hy⟩ hne⟩

/-- **C121** In the leaves of an adaptive tree the sum of the second derivatives of the computed potential is zero where there is no source. -/
theorem C121_adaptive_laplacian {max : ℕ} {P : ℕ → Vec d → Prop} (H : AdaptiveHarmonic O O' t S max r p P) {eps : ℝ}
    (ho : expansionOrder (totalStrength S) eps = .ok p) :
    ∃ (fuel0 : ℕ) (T : AdaptiveFmm K), (∀ fuel ≥ fuel0, ∀ sch, Schedule sch → adaptiveFmm K fuel sch t S max eps = .ok T) ∧
      ∀ π, (fmmTree Source.pos r S max).Mem π → (fmmTree Source.pos r S max).leaf π = true → ∀ (grav : Bool) (cur) , ∀ fuel ≥ fuel0,
        ∃ φ : Vec d → ℝ, (∀ y, (boxAt r π).Inner y → adaptiveEval O fuel grav T cur y = .ok (φ y)) ∧
          ∀ x, (boxAt r π).Inner x → (∀ s ∈ S, s.pos ≠ x) → laplacian φ x = 0 := by
  obtain ⟨f, T, a, b⟩ := H eps ho
  refine ⟨f, T, a, fun π hm hl grav cur fuel hf => ?_⟩
  refine exists_potential (S := S) (Gr.inner_open (boxAt r π)) fun x hx => ?_
  obtain ⟨φ, F, b1, b2, b3⟩ := b π hm hl x hx grav
  refine ⟨_, fun y hy => (b1 cur fuel hf y hy).1, fun hs => ?_⟩
  simp only [directPotential_off grav hs, add_zero]
  exact laplacian_of_free b2 b3

/-- **C121** The same for a balanced tree. -/
theorem C121_balanced_laplacian {perCell h : ℕ} {P : Vec d → Prop} (H : BalancedHarmonic O O' t S perCell r h p P) {eps : ℝ}
    (ho : expansionOrder (totalStrength S) eps = .ok p) :
    ∃ (fuel0 : ℕ) (T : BalancedFmm K), (∀ fuel ≥ fuel0, ∀ sch, Schedule sch → balancedFmm K fuel sch t S perCell eps = .ok T) ∧
      ∀ π, ValidPath d π → π.length = h → ∀ grav : Bool,
        ∃ φ : Vec d → ℝ, (∀ y, (boxAt r π).Inner y → balancedEval O grav T y = .ok (φ y)) ∧
          ∀ x, (boxAt r π).Inner x → (∀ s ∈ S, s.pos ≠ x) → laplacian φ x = 0 := by
  obtain ⟨f, T, a, b⟩ := H eps ho
  refine ⟨f, T, a, fun π hm hl grav => ?_⟩
  refine exists_potential (S := S) (Gr.inner_open (boxAt r π)) fun x hx => ?_
  obtain ⟨φ, F, b1, b2, b3⟩ := b π hm hl x hx grav
  refine ⟨_, fun y hy => (b1 y hy).1, fun hs => ?_⟩
  simp only [directPotential_off grav hs, add_zero]
  exact laplacian_of_free b2 b3

end

section
variable {t : BinomialTable} {S : List (Source 2)} {r : Box 2} {p : ℕ}

/-- **C121** Adaptive tree in the plane. -/
theorem C121_adaptive_2d (ht : Reachable t) {max : ℕ} (hI : AdaptiveInput S max r) (hp0 : 1 ≤ p) (hp : p ≤ 1029) :
    AdaptiveHarmonic pot2 (force2 0) t S max r p fun _ _ => True :=
  (adaptive_harmonic (Gr.grad2 p hp0 hp _) (Hm.harm2 p hp0 hp _) (fun _ _ => trivial) ⟨ht.good, rfl⟩ ⟨ht.good, rfl⟩ hI).mono fun _ _ _ _ _ => trivial

/-- **C121** Balanced tree in the plane. -/
theorem C121_balanced_2d (ht : Reachable t) {perCell h : ℕ} (hI : BalancedInput S perCell r h) (hp0 : 1 ≤ p) (hp : p ≤ 1029) :
    BalancedHarmonic pot2 (force2 0) t S perCell r h p fun _ => True := by
  have hs := hI.small
  exact (balanced_harmonic (Gr.grad2 p hp0 hp _) (Hm.harm2 p hp0 hp _) (fun _ _ => trivial) ⟨ht.good, rfl⟩ ⟨ht.good, rfl⟩ le_rfl (by norm_num) hI hI.len_pos
    (by omega)).mono fun _ _ => trivial

end

section
variable {t : Stat3} {S : List (Source 3)} {r : Box 3} {p : ℕ}

/-- **C121** Adaptive tree in space. The forces are computed only off the vertical lines through the centres of the boxes (C54); the potentials have the
property on these lines, too. -/
theorem C121_adaptive_3d (ht : Reachable3 t) {max : ℕ} (hI : AdaptiveInput S max r) (hp0 : 1 ≤ p) (hp : p ≤ 42) :
    AdaptiveHarmonic pot3 (force3 0) t S max r p fun H x => ∀ k ≤ H, ¬ Aligned r k x :=
  (adaptive_harmonic (Gr.grad3 p hp0 hp) (Hm.harm3 p hp0 hp) (fun _ _ => trivial) ⟨ht.good.1, Or.inl hp0⟩ ht.good.1 hI).mono
    fun _ _ hA π hπ h => hA π.length hπ (aligned_of_onAxis h)

/-- **C121** Balanced tree in space. -/
theorem C121_balanced_3d (ht : Reachable3 t) {perCell h : ℕ} (hI : BalancedInput S perCell r h) (hp0 : 1 ≤ p) (hp : p ≤ 42) :
    BalancedHarmonic pot3 (force3 0) t S perCell r h p fun x => ¬ Aligned r h x := by
  have hs := hI.small
  exact (balanced_harmonic (Gr.grad3 p hp0 hp) (Hm.harm3 p hp0 hp) (fun _ _ => trivial) ⟨ht.good.1, Or.inl hp0⟩ ht.good.1 (by norm_num) (by norm_num) hI
      hI.len_pos (by omega)).mono fun x hA h => hA (by have := aligned_of_onAxis h; rwa [route_length] at this)

end

/-! ## Non-vacuity -/

/-- Five sources in the plane: the potential computed in the leaf of the particle at `(1, 1)`. -/
example : ∃ fuel T φ, balancedFmm kit2 fuel (fun _ (l : List BAddr) => l.reverse) BinomialTable.init S5 1 1 = .ok T ∧
    (∀ y, (boxAt box5 [3, 3]).Inner y → balancedEval pot2 true T y = .ok (φ y)) ∧
    ∀ x, (boxAt box5 [3, 3]).Inner x → (∀ s ∈ S5, s.pos ≠ x) → laplacian φ x = 0 := by
  obtain ⟨f, T, a, b⟩ := C121_balanced_laplacian (C121_balanced_2d (p := 3) reachable_init S5_balanced (by norm_num) (by norm_num)) S5_order
  obtain ⟨φ, h1, h2⟩ := b [3, 3] (by intro i hi; simp at hi; omega) rfl true
  exact ⟨f, T, φ, a f le_rfl _ fun _ l => l.reverse_perm, h1, h2⟩

/-- Nine sources in space, adaptive tree, every leaf. -/
example : ∃ fuel T, adaptiveFmm kit3 fuel (fun _ l => l) (Stat3.init 0 0 0) S9 1 1 = .ok T ∧
    ∀ π, (fmmTree Source.pos box9 S9 1).Mem π → (fmmTree Source.pos box9 S9 1).leaf π = true →
      ∃ φ : Vec 3 → ℝ, (∀ y, (boxAt box9 π).Inner y → adaptiveEval pot3 fuel false T [] y = .ok (φ y)) ∧
        ∀ x, (boxAt box9 π).Inner x → (∀ s ∈ S9, s.pos ≠ x) → laplacian φ x = 0 := by
  obtain ⟨f, T, a, b⟩ := C121_adaptive_laplacian (C121_adaptive_3d (p := 4) reachable3_init S9_adaptive (by norm_num) (by norm_num)) S9_order
  exact ⟨f, T, a f le_rfl _ fun _ l => List.Perm.refl l, fun π hm hl => b π hm hl false [] f le_rfl⟩

/-- The sum is not zero for every function. -/
example : laplacian (fun y : Vec 2 => y 0 ^ 2) ![1, 1] = 2 := by
  unfold laplacian
  rw [Fin.sum_univ_two]
  have h0 : (fun t : ℝ => ((![1, 1] : Vec 2) + t • (Pi.single 0 1 : Vec 2)) 0 ^ 2) = fun t => (1 + t) ^ 2 := by funext t; simp
  have h1 : (fun t : ℝ => ((![1, 1] : Vec 2) + t • (Pi.single 1 1 : Vec 2)) 0 ^ 2) = fun t => 1 := by funext t; simp
  have e : deriv (fun t : ℝ => (1 + t) ^ 2) = fun t => 2 * (1 + t) := by
    funext t
    have : deriv (fun t : ℝ => (1 + t) ^ 2) t = _ := (((hasDerivAt_id t).const_add 1).pow 2).deriv
    simpa using this
  rw [h0, h1, e]
  have e2 : deriv (fun t : ℝ => 2 * (1 + t)) 0 = 2 := by simp
  rw [e2]
  simp

end FMM
