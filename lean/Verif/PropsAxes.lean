import Verif.AxKits
import Verif.PropsLinear
import Verif.PropsFmm3D

/-!
# Exchange of axes (C126)

Exchanging two coordinates of all sources and of the evaluation point leaves the computed potential as it is and exchanges the components of the
computed force, although the results are only approximations.  The children of a box are numbered by the coordinates and the expansions are written in polar
and spherical coordinates, so the two runs visit the boxes in different orders and compute with different coefficients; in space the vertical axis plays a special role in all of them.  Real arithmetic.

Reflections of a single axis are no symmetry (`PropsMirror`): a source on the boundary of two boxes changes sides.
-/

namespace FMM

section
variable {d : ℕ} {V : Type} [AddCommGroup V] [Module ℝ V] {K : Kit d} {O : Obs K V} {t : K.T} {S : List (Source d)} {r : Box d} {p : ℕ}
  {σ : Fin d → Fin d} {φ : V →ₗ[ℝ] V}

theorem AdaptiveAxes.mono {max : ℕ} {P Q : ℕ → Vec d → Prop} (H : AdaptiveAxes O t S max r p P σ φ) (h : ∀ H x, Q H x → P H x) :
    AdaptiveAxes O t S max r p Q σ φ := by
  intro eps ho
  obtain ⟨f, T, T', a, e, b⟩ := H eps ho
  exact ⟨f, T, T', a, e, fun x hx hq => b x hx (h _ _ hq)⟩

theorem BalancedAxes.mono {perCell : ℕ} {P Q : Vec d → Prop} (H : BalancedAxes O t S perCell r p P σ φ) (h : ∀ x, Q x → P x) :
    BalancedAxes O t S perCell r p Q σ φ := by
  intro eps ho
  obtain ⟨f, T, T', a, b⟩ := H eps ho
  exact ⟨f, T, T', a, fun x hx hq => b x hx (h _ hq)⟩

end

section
variable {t : BinomialTable} {S : List (Source 2)} {r : Box 2} {p : ℕ}

/-- **C126** Adaptive tree in the plane. -/
theorem C126_adaptive_2d (ht : Reachable t) {max : ℕ} (hI : AdaptiveInput S max r) (hp0 : 1 ≤ p) (hp : p ≤ 1029) :
    AdaptiveAxes pot2 t S max r p (fun _ _ => True) xy2 LinearMap.id ∧
    ∀ feps : ℝ, 0 ≤ feps → AdaptiveAxes (force2 feps) t S max r p (fun _ _ => True) xy2 (axL xy2) :=
  ⟨(adaptive_axes (Ax.ax2Pot p hp0 hp _) xy2_inv ⟨ht.good, rfl⟩ hI).mono fun _ _ _ _ _ => ⟨trivial, trivial⟩,
   fun _ hf => (adaptive_axes (Ax.ax2Force p hp0 hp _ hf) xy2_inv ⟨ht.good, rfl⟩ hI).mono fun _ _ _ _ _ => ⟨trivial, trivial⟩⟩

/-- **C126** Balanced tree in the plane. -/
theorem C126_balanced_2d (ht : Reachable t) {perCell h : ℕ} (hI : BalancedInput S perCell r h) (hp0 : 1 ≤ p) (hp : p ≤ 1029) :
    BalancedAxes pot2 t S perCell r p (fun _ => True) xy2 LinearMap.id ∧
    ∀ feps : ℝ, 0 ≤ feps → BalancedAxes (force2 feps) t S perCell r p (fun _ => True) xy2 (axL xy2) := by
  have hs := hI.small
  exact ⟨(balanced_axes (Ax.ax2Pot p hp0 hp _) xy2_inv ⟨ht.good, rfl⟩ le_rfl (by norm_num) hI hI.len_pos (by omega)).mono
      fun _ _ => ⟨trivial, trivial⟩,
   fun _ hf => (balanced_axes (Ax.ax2Force p hp0 hp _ hf) xy2_inv ⟨ht.good, rfl⟩ le_rfl (by norm_num) hI hI.len_pos (by omega)).mono
      fun _ _ => ⟨trivial, trivial⟩⟩

end

section
variable {t : Stat3} {S : List (Source 3)} {r : Box 3} {p : ℕ} {σ : Fin 3 → Fin 3}

theorem aligned_ax (hσ : Function.Involutive σ) {π : Path} {x : Vec 3} (h : OnAxis (axV σ x - axV σ (boxAt r π).center)) :
    Aligned (r.ax σ) π.length (axV σ x) := by
  have e : axV σ (boxAt r π).center = (boxAt (r.ax σ) (Ax.pm σ π)).center := by
    have hb : (r.ax σ).ax σ = r := by
      show Box.mk (axV σ (axV σ r.center)) r.len = r
      rw [Ax.axV_axV hσ]
    have h1 := Ax.boxAt_ax hσ (r.ax σ) π
    rw [hb] at h1
    rw [h1]
    exact Ax.axV_axV hσ _
  rw [e] at h
  have := aligned_of_onAxis h
  rwa [Ax.pm_length] at this

/-- **C126** Adaptive tree in space: any two axes (or none) are exchanged.  The force only off the vertical lines through the centres of the boxes (C54),
before and after the exchange. -/
theorem C126_adaptive_3d (ht : Reachable3 t) {max : ℕ} (hI : AdaptiveInput S max r) (hp0 : 1 ≤ p) (hp : p ≤ 42) (hσ : Function.Involutive σ) :
    AdaptiveAxes pot3 t S max r p (fun _ _ => True) σ LinearMap.id ∧
    ∀ feps : ℝ, 0 ≤ feps →
      AdaptiveAxes (force3 feps) t S max r p (fun H x => ∀ k ≤ H, ¬ Aligned r k x ∧ ¬ Aligned (r.ax σ) k (axV σ x)) σ (axL σ) :=
  ⟨(adaptive_axes (Ax.ax3Pot hσ p hp) hσ ⟨ht.good.1, Or.inl hp0⟩ hI).mono fun _ _ _ _ _ => ⟨trivial, trivial⟩,
   fun _ hf => (adaptive_axes (Ax.ax3Force hσ p hp0 hp hf) hσ ht.good.1 hI).mono
    fun _ _ hA π hπ => ⟨fun h => (hA π.length hπ).1 (aligned_of_onAxis h), fun h => (hA π.length hπ).2 (aligned_ax hσ h)⟩⟩

/-- **C126** Balanced tree in space. -/
theorem C126_balanced_3d (ht : Reachable3 t) {perCell h : ℕ} (hI : BalancedInput S perCell r h) (hp0 : 1 ≤ p) (hp : p ≤ 42)
    (hσ : Function.Involutive σ) :
    BalancedAxes pot3 t S perCell r p (fun _ => True) σ LinearMap.id ∧
    ∀ feps : ℝ, 0 ≤ feps →
      BalancedAxes (force3 feps) t S perCell r p (fun x => ¬ Aligned r h x ∧ ¬ Aligned (r.ax σ) h (axV σ x)) σ (axL σ) := by
  have hs := hI.small
  exact ⟨(balanced_axes (Ax.ax3Pot hσ p hp) hσ ⟨ht.good.1, Or.inl hp0⟩ (by norm_num) (by norm_num) hI hI.len_pos (by omega)).mono
      fun _ _ => ⟨trivial, trivial⟩,
   fun _ hf => (balanced_axes (Ax.ax3Force hσ p hp0 hp hf) hσ ht.good.1 (by norm_num) (by norm_num) hI hI.len_pos (by omega)).mono
      fun x hA => ⟨fun h => hA.1 (by have := aligned_of_onAxis h; rwa [route_length] at this),
        fun h => hA.2 (by have := aligned_ax hσ h; rwa [route_length] at this)⟩⟩

/-- The condition on the evaluation point is the same before and after the exchange of the horizontal axes. -/
theorem aligned_xy {k : ℕ} {x : Vec 3} : Aligned (r.ax xy3) k (axV xy3 x) ↔ Aligned r k x :=
  ⟨fun ⟨i, j, h1, h2⟩ => ⟨j, i, h2, h1⟩, fun ⟨i, j, h1, h2⟩ => ⟨j, i, h2, h1⟩⟩

/-! ### Permutations of all axes -/

theorem AdaptiveAxes.trans {d : ℕ} {V : Type} [AddCommGroup V] [Module ℝ V] {K : Kit d} {O : Obs K V} {t : K.T} {S : List (Source d)} {r : Box d} {p max : ℕ}
    {σ τ : Fin d → Fin d} {φ ψ : V →ₗ[ℝ] V} (hr : ∀ x, r.contains x → (r.ax σ).contains (axV σ x))
    (h1 : AdaptiveAxes O t S max r p (fun _ _ => True) σ φ) (h2 : AdaptiveAxes O t (S.map (Source.ax σ)) max (r.ax σ) p (fun _ _ => True) τ ψ) :
    AdaptiveAxes O t S max r p (fun _ _ => True) (σ ∘ τ) (ψ ∘ₗ φ) := by
  intro eps ho
  obtain ⟨f1, T1, T1', a1, e1, b1⟩ := h1 eps ho
  obtain ⟨f2, T2, T2', a2, e2, b2⟩ := h2 eps (by rw [Ax.totalStrength]; exact ho)
  have hT : T1' = T2 := by
    have u := (a1 (f1 + f2) (by omega) (fun _ l => l) fun _ l => List.Perm.refl l).2
    have v := (a2 (f1 + f2) (by omega) (fun _ l => l) fun _ l => List.Perm.refl l).1
    exact Except.ok.inj (u.symm.trans v)
  subst hT
  have em : ∀ l : List (Source d), (l.map (Source.ax σ)).map (Source.ax τ) = l.map (Source.ax (σ ∘ τ)) := fun l => by rw [List.map_map]; rfl
  refine ⟨f1 + f2, T1, T2', fun fuel hf sch hs => ⟨(a1 fuel (by omega) sch hs).1, ?_⟩, e2.trans e1, fun x hx _ grav => ?_⟩
  · rw [← em]; exact (a2 fuel (by omega) sch hs).2
  · obtain ⟨v, hv⟩ := b1 x hx trivial grav
    obtain ⟨w, hw⟩ := b2 (axV σ x) (hr x hx) trivial grav
    refine ⟨v, fun cur fuel hf => ⟨(hv cur fuel (by omega)).1, ?_⟩⟩
    have e : w = φ v := Except.ok.inj ((hw (cur.map (Source.ax σ)) fuel (by omega)).1.symm.trans (hv cur fuel (by omega)).2)
    have := (hw (cur.map (Source.ax σ)) fuel (by omega)).2
    rw [em, e] at this
    exact this

theorem BalancedAxes.trans {d : ℕ} {V : Type} [AddCommGroup V] [Module ℝ V] {K : Kit d} {O : Obs K V} {t : K.T} {S : List (Source d)} {r : Box d}
    {p perCell : ℕ} {σ τ : Fin d → Fin d} {φ ψ : V →ₗ[ℝ] V} (hr : ∀ x, r.containsHO x → (r.ax σ).containsHO (axV σ x))
    (h1 : BalancedAxes O t S perCell r p (fun _ => True) σ φ) (h2 : BalancedAxes O t (S.map (Source.ax σ)) perCell (r.ax σ) p (fun _ => True) τ ψ) :
    BalancedAxes O t S perCell r p (fun _ => True) (σ ∘ τ) (ψ ∘ₗ φ) := by
  intro eps ho
  obtain ⟨f1, T1, T1', a1, b1⟩ := h1 eps ho
  obtain ⟨f2, T2, T2', a2, b2⟩ := h2 eps (by rw [Ax.totalStrength]; exact ho)
  have hT : T1' = T2 := by
    have u := (a1 (f1 + f2) (by omega) (fun _ l => l) fun _ l => List.Perm.refl l).2
    have v := (a2 (f1 + f2) (by omega) (fun _ l => l) fun _ l => List.Perm.refl l).1
    exact Except.ok.inj (u.symm.trans v)
  subst hT
  have em : ∀ l : List (Source d), (l.map (Source.ax σ)).map (Source.ax τ) = l.map (Source.ax (σ ∘ τ)) := fun l => by rw [List.map_map]; rfl
  refine ⟨f1 + f2, T1, T2', fun fuel hf sch hs => ⟨(a1 fuel (by omega) sch hs).1, ?_⟩, fun x hx _ grav => ?_⟩
  · rw [← em]; exact (a2 fuel (by omega) sch hs).2
  · obtain ⟨v, hv, hv'⟩ := b1 x hx trivial grav
    obtain ⟨w, hw, hw'⟩ := b2 (axV σ x) (hr x hx) trivial grav
    have e : w = φ v := Except.ok.inj (hw.symm.trans hv')
    rw [e] at hw'
    exact ⟨v, hv, hw'⟩

theorem swap_inv {d : ℕ} (i j : Fin d) : Function.Involutive (Equiv.swap i j) := fun k => Equiv.swap_apply_self i j k

/-- **C126** The computed potentials in space do not depend on the names of the axes: adaptive tree, all six permutations. -/
theorem C126_adaptive_perm (ht : Reachable3 t) {max : ℕ} (hI : AdaptiveInput S max r) (hp0 : 1 ≤ p) (hp : p ≤ 42) (π : Equiv.Perm (Fin 3)) :
    AdaptiveAxes pot3 t S max r p (fun _ _ => True) π LinearMap.id := by
  induction π using Equiv.Perm.swap_induction_on generalizing S r with
  | one => exact (C126_adaptive_3d ht hI hp0 hp (σ := id) fun _ => rfl).1
  | swap_mul f i j _ ih =>
    have h1 := (C126_adaptive_3d ht hI hp0 hp (swap_inv i j)).1
    exact h1.trans (fun x hx => (Ax.contains (swap_inv i j) _ _).mpr hx) (ih (Ax.adaptiveInput (swap_inv i j) hI))

/-- **C126** Balanced tree, all six permutations. -/
theorem C126_balanced_perm (ht : Reachable3 t) {perCell h : ℕ} (hI : BalancedInput S perCell r h) (hp0 : 1 ≤ p) (hp : p ≤ 42) (π : Equiv.Perm (Fin 3)) :
    BalancedAxes pot3 t S perCell r p (fun _ => True) π LinearMap.id := by
  induction π using Equiv.Perm.swap_induction_on generalizing S r with
  | one => exact (C126_balanced_3d ht hI hp0 hp (σ := id) fun _ => rfl).1
  | swap_mul f i j _ ih =>
    have h1 := (C126_balanced_3d ht hI hp0 hp (swap_inv i j)).1
    exact h1.trans (fun x hx => (Ax.containsHO (swap_inv i j) _ _).mpr hx) (ih (Ax.balancedInput (swap_inv i j) hI))

end

/-! ## Non-vacuity -/

/-- Five sources in the plane, one box division; the force at a corner of the square. -/
example : ∃ fuel T T' v, adaptiveFmm kit2 fuel (fun _ l => l) BinomialTable.init S5 1 1 = .ok T ∧
    adaptiveFmm kit2 fuel (fun _ l => l.reverse) BinomialTable.init (S5.map (Source.ax xy2)) 1 1 = .ok T' ∧
    adaptiveEval (force2 0) fuel true T S5 ![-1, 1] = .ok v ∧
    adaptiveEval (force2 0) fuel true T' (S5.map (Source.ax xy2)) ![1, -1] = .ok ![v 1, v 0] := by
  obtain ⟨f, T, T', h1, -, h2⟩ := (C126_adaptive_2d (p := 3) reachable_init S5_adaptive (by norm_num) (by norm_num)).2 0 le_rfl 1 S5_order
  obtain ⟨v, hv⟩ := h2 ![-1, 1] (S5_inside ⟨![-1, 1], -1⟩ (by simp [S5])) trivial true
  refine ⟨f, T, T', v, (h1 f le_rfl _ fun _ l => List.Perm.refl l).1, (h1 f le_rfl _ fun _ l => l.reverse_perm).2, (hv S5 f le_rfl).1, ?_⟩
  have e1 : (![1, -1] : Vec 2) = axV xy2 ![-1, 1] := by funext j; fin_cases j <;> rfl
  have e2 : (![v 1, v 0] : Vec 2) = axL xy2 v := by funext j; fin_cases j <;> rfl
  rw [e1, e2]
  exact (hv S5 f le_rfl).2

/-- Nine sources in space, cyclic permutation of the axes. -/
example : ∃ fuel T T' v, balancedFmm kit3 fuel (fun _ l => l) (Stat3.init 0 0 0) S9 1 1 = .ok T ∧
    balancedFmm kit3 fuel (fun _ l => l) (Stat3.init 0 0 0) (S9.map (Source.ax (finRotate 3))) 1 1 = .ok T' ∧
    balancedEval pot3 false T ![4, 4, 4] = .ok v ∧ balancedEval pot3 false T' (axV (finRotate 3) ![4, 4, 4]) = .ok v := by
  obtain ⟨f, T, T', h1, h2⟩ := (C126_balanced_perm (p := 4) reachable3_init S9_balanced (by norm_num) (by norm_num) (finRotate 3)) 1 S9_order
  obtain ⟨v, hv, hw⟩ := h2 ![4, 4, 4] (S9_insideHO ⟨![4, 4, 4], 1⟩ (by simp [S9])) trivial false
  exact ⟨f, T, T', v, (h1 f le_rfl _ fun _ l => List.Perm.refl l).1, (h1 f le_rfl _ fun _ l => List.Perm.refl l).2, hv, hw⟩

/-- The exchange moves a source: it is not the identity on the examples. -/
example : Source.ax xy2 ⟨![-1, 1], -1⟩ ≠ (⟨![-1, 1], -1⟩ : Source 2) := by
  intro h
  have := congrFun (congrArg Source.pos h) 0
  simp [Source.ax, axV, xy2] at this
  norm_num at this

end FMM
