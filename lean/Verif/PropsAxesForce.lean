import Verif.PropsMirrorOff
import Verif.PropsFmm3DForce

/-!
# Forces in space for all permutations of the axes (C126)

The evaluation point is on no line through the centre of a box which is parallel to one of the axes.
-/

namespace FMM

section
variable {d : ℕ} {V : Type} [AddCommGroup V] [Module ℝ V] {K : Kit d} {O : Obs K V} {t : K.T} {S : List (Source d)} {r : Box d} {p : ℕ}
  {σ τ : Fin d → Fin d} {φ ψ : V →ₗ[ℝ] V}

theorem AdaptiveAxes.comp {max : ℕ} {P Q : ℕ → Vec d → Prop} (hr : ∀ x, r.contains x → (r.ax σ).contains (axV σ x))
    (h1 : AdaptiveAxes O t S max r p P σ φ) (h2 : AdaptiveAxes O t (S.map (Source.ax σ)) max (r.ax σ) p Q τ ψ) :
    AdaptiveAxes O t S max r p (fun H x => P H x ∧ Q H (axV σ x)) (σ ∘ τ) (ψ ∘ₗ φ) := by
  intro eps ho
  obtain ⟨f1, T1, T1', a1, e1, b1⟩ := h1 eps ho
  obtain ⟨f2, T2, T2', a2, e2, b2⟩ := h2 eps (by rw [Ax.totalStrength]; exact ho)
  have hT : T1' = T2 := by
    have u := (a1 (f1 + f2) (by omega) (fun _ l => l) fun _ l => List.Perm.refl l).2
    have v := (a2 (f1 + f2) (by omega) (fun _ l => l) fun _ l => List.Perm.refl l).1
    exact Except.ok.inj (u.symm.trans v)
  subst hT
  have em : ∀ l : List (Source d), (l.map (Source.ax σ)).map (Source.ax τ) = l.map (Source.ax (σ ∘ τ)) := fun l => by rw [List.map_map]; rfl
  refine ⟨f1 + f2, T1, T2', fun fuel hf sch hs => ⟨(a1 fuel (by omega) sch hs).1, ?_⟩, e2.trans e1, fun x hx hp grav => ?_⟩
  · rw [← em]; exact (a2 fuel (by omega) sch hs).2
  · obtain ⟨v, hv⟩ := b1 x hx hp.1 grav
    obtain ⟨w, hw⟩ := b2 (axV σ x) (hr x hx) (by rw [e1]; exact hp.2) grav
    refine ⟨v, fun cur fuel hf => ⟨(hv cur fuel (by omega)).1, ?_⟩⟩
    have e : w = φ v := Except.ok.inj ((hw (cur.map (Source.ax σ)) fuel (by omega)).1.symm.trans (hv cur fuel (by omega)).2)
    have := (hw (cur.map (Source.ax σ)) fuel (by omega)).2
    rw [em, e] at this
    exact this

theorem BalancedAxes.comp {perCell : ℕ} {P Q : Vec d → Prop} (hr : ∀ x, r.containsHO x → (r.ax σ).containsHO (axV σ x))
    (h1 : BalancedAxes O t S perCell r p P σ φ) (h2 : BalancedAxes O t (S.map (Source.ax σ)) perCell (r.ax σ) p Q τ ψ) :
    BalancedAxes O t S perCell r p (fun x => P x ∧ Q (axV σ x)) (σ ∘ τ) (ψ ∘ₗ φ) := by
  intro eps ho
  obtain ⟨f1, T1, T1', a1, b1⟩ := h1 eps ho
  obtain ⟨f2, T2, T2', a2, b2⟩ := h2 eps (by rw [Ax.totalStrength]; exact ho)
  have hT : T1' = T2 := by
    have u := (a1 (f1 + f2) (by omega) (fun _ l => l) fun _ l => List.Perm.refl l).2
    have v := (a2 (f1 + f2) (by omega) (fun _ l => l) fun _ l => List.Perm.refl l).1
    exact Except.ok.inj (u.symm.trans v)
  subst hT
  have em : ∀ l : List (Source d), (l.map (Source.ax σ)).map (Source.ax τ) = l.map (Source.ax (σ ∘ τ)) := fun l => by rw [List.map_map]; rfl
  refine ⟨f1 + f2, T1, T2', fun fuel hf sch hs => ⟨(a1 fuel (by omega) sch hs).1, ?_⟩, fun x hx hp grav => ?_⟩
  · rw [← em]; exact (a2 fuel (by omega) sch hs).2
  · obtain ⟨v, hv, hv'⟩ := b1 x hx hp.1 grav
    obtain ⟨w, hw, hw'⟩ := b2 (axV σ x) (hr x hx) hp.2 grav
    have e : w = φ v := Except.ok.inj (hw.symm.trans hv')
    rw [e] at hw'
    exact ⟨v, hv, hw'⟩

end

/-- `x` is on a line through the centre of a cell of level `k` parallel to one of the axes: two of its coordinates are those of centres. -/
def AlignedAny (r : Box 3) (k : ℕ) (x : Vec 3) : Prop :=
  ∃ a b : Fin 3, a ≠ b ∧ ∃ i j : ℕ, x a = r.lower a + (i + 1 / 2) * (r.len / 2 ^ k) ∧ x b = r.lower b + (j + 1 / 2) * (r.len / 2 ^ k)

section
variable {t : Stat3} {S : List (Source 3)} {r : Box 3} {p : ℕ}

theorem lower_ax (σ : Fin 3 → Fin 3) (i : Fin 3) : (r.ax σ).lower i = r.lower (σ i) := by rw [Box.lower_apply, Box.lower_apply]; rfl

theorem alignedAny_of {k : ℕ} {x : Vec 3} (σ : Equiv.Perm (Fin 3)) (h : Aligned (r.ax σ) k (axV σ x)) : AlignedAny r k x := by
  obtain ⟨i, j, h1, h2⟩ := h
  rw [lower_ax] at h1 h2
  exact ⟨σ 0, σ 1, fun e => absurd (σ.injective e) (by decide), i, j, h1, h2⟩

theorem alignedAny_ax {k : ℕ} {x : Vec 3} (σ : Equiv.Perm (Fin 3)) (h : AlignedAny (r.ax σ) k (axV σ x)) : AlignedAny r k x := by
  obtain ⟨a, b, hab, i, j, h1, h2⟩ := h
  rw [lower_ax] at h1 h2
  exact ⟨σ a, σ b, fun e => hab (σ.injective e), i, j, h1, h2⟩

theorem aligned_any {k : ℕ} {x : Vec 3} (h : Aligned r k x) : AlignedAny r k x := by
  obtain ⟨i, j, h1, h2⟩ := h
  exact ⟨0, 1, by decide, i, j, h1, h2⟩

/-- **C126** The computed forces in space for all six permutations of the axes: adaptive tree. -/
theorem C126_adaptive_perm_force (ht : Reachable3 t) {max : ℕ} (hI : AdaptiveInput S max r) (hp0 : 1 ≤ p) (hp : p ≤ 42) {feps : ℝ} (hf : 0 ≤ feps)
    (π : Equiv.Perm (Fin 3)) : AdaptiveAxes (force3 feps) t S max r p (fun H x => ∀ k ≤ H, ¬ AlignedAny r k x) π (axL π) := by
  induction π using Equiv.Perm.swap_induction_on generalizing S r with
  | one =>
    exact ((C126_adaptive_3d ht hI hp0 hp (σ := id) fun _ => rfl).2 feps hf).mono fun _ _ h k hk =>
      ⟨fun h' => h k hk (aligned_any h'), fun h' => h k hk (aligned_any h')⟩
  | swap_mul f i j _ ih =>
    have h1 := (C126_adaptive_3d ht hI hp0 hp (swap_inv i j)).2 feps hf
    exact (h1.comp (fun x hx => (Ax.contains (swap_inv i j) _ _).mpr hx) (ih (Ax.adaptiveInput (swap_inv i j) hI))).mono fun _ _ h =>
      ⟨fun k hk => ⟨fun h' => h k hk (aligned_any h'), fun h' => h k hk (alignedAny_of _ h')⟩, fun k hk h' => h k hk (alignedAny_ax _ h')⟩

/-- **C126** Forces, balanced tree, all six permutations. -/
theorem C126_balanced_perm_force (ht : Reachable3 t) {perCell h : ℕ} (hI : BalancedInput S perCell r h) (hp0 : 1 ≤ p) (hp : p ≤ 42) {feps : ℝ}
    (hf : 0 ≤ feps) (π : Equiv.Perm (Fin 3)) : BalancedAxes (force3 feps) t S perCell r p (fun x => ¬ AlignedAny r h x) π (axL π) := by
  induction π using Equiv.Perm.swap_induction_on generalizing S r with
  | one =>
    exact ((C126_balanced_3d ht hI hp0 hp (σ := id) fun _ => rfl).2 feps hf).mono fun _ h =>
      ⟨fun h' => h (aligned_any h'), fun h' => h (aligned_any h')⟩
  | swap_mul f i j _ ih =>
    have h1 := (C126_balanced_3d ht hI hp0 hp (swap_inv i j)).2 feps hf
    exact (h1.comp (fun x hx => (Ax.containsHO (swap_inv i j) _ _).mpr hx) (ih (Ax.balancedInput (swap_inv i j) hI))).mono fun _ h =>
      ⟨⟨fun h' => h (aligned_any h'), fun h' => h (alignedAny_of _ h')⟩, fun h' => h (alignedAny_ax _ h')⟩

end

/-! ## Non-vacuity -/

/-- Centres of boxes are on faces of smaller boxes. -/
theorem not_alignedAny {r : Box 3} {k : ℕ} {x : Vec 3} (h : OffFaces r x) : ¬ AlignedAny r k x := by
  rintro ⟨a, b, -, i, j, h1, -⟩
  refine h a (k + 1) (2 * i + 1) (h1.trans ?_)
  push_cast
  rw [pow_succ]
  field_simp

/-- Nine sources in space, cyclic permutation of the axes, force at a corner. -/
example : ∃ fuel T T' v, balancedFmm kit3 fuel (fun _ l => l) (Stat3.init 0 0 0) S9o 1 1 = .ok T ∧
    balancedFmm kit3 fuel (fun _ l => l) (Stat3.init 0 0 0) (S9o.map (Source.ax (finRotate 3))) 1 1 = .ok T' ∧
    balancedEval (force3 0) false T ![4, 4, 4] = .ok v ∧
    balancedEval (force3 0) false T' (axV (finRotate 3) ![4, 4, 4]) = .ok (fun i => v (finRotate 3 i)) := by
  obtain ⟨f, T, T', h1, h2⟩ := C126_balanced_perm_force (p := 4) reachable3_init S9o_balanced (by norm_num) (by norm_num) le_rfl (finRotate 3) 1 S9o_order
  obtain ⟨v, hv, hw⟩ := h2 ![4, 4, 4] (S9o_insideHO ⟨![4, 4, 4], 1⟩ (by simp [S9o])) (not_alignedAny (S9o_off ⟨![4, 4, 4], 1⟩ (by simp [S9o]))) false
  exact ⟨f, T, T', v, (h1 f le_rfl _ fun _ l => List.Perm.refl l).1, (h1 f le_rfl _ fun _ l => List.Perm.refl l).2, hv, hw⟩

end FMM
