import Verif.LinGrad

/-!
# Forces and gradients in trees
-/

namespace FMM
variable {d : ℕ} {p : ℕ}

open Classical in
/-- The forces computed by an adaptive tree are minus the gradients of the potentials computed by it: in the interior of the box of a leaf the potential
is `φ`, up to the singular part due to sources at the point `x`, and the force at `x` is minus the gradient of `φ`. -/
def AdaptiveGradient {K : Kit d} (O : Obs K ℝ) (O' : Obs K (Vec d)) (t : K.T) (S : List (Source d)) (max : ℕ) (r : Box d) (p : ℕ)
    (P : ℕ → Vec d → Prop) : Prop :=
  ∀ eps : ℝ, expansionOrder (totalStrength S) eps = .ok p →
    ∃ (fuel0 : ℕ) (T : AdaptiveFmm K), (∀ fuel ≥ fuel0, ∀ sch, Schedule sch → adaptiveFmm K fuel sch t S max eps = .ok T) ∧
      ∀ π, (fmmTree Source.pos r S max).Mem π → (fmmTree Source.pos r S max).leaf π = true → ∀ x, (boxAt r π).Inner x → P T.height x → ∀ grav : Bool,
        ∃ (φ : Vec d → ℝ) (F : Vec d), (∀ cur, ∀ fuel ≥ fuel0,
            (∀ y, (boxAt r π).Inner y → adaptiveEval O fuel grav T cur y = .ok (φ y + directPotential grav (S.filter fun s => s.pos = x) y)) ∧
            adaptiveEval O' fuel grav T cur x = .ok F) ∧
          HasFDerivAt φ (minusGrad F) x

open Classical in
/-- The same for a balanced tree of height `h`. -/
def BalancedGradient {K : Kit d} (O : Obs K ℝ) (O' : Obs K (Vec d)) (t : K.T) (S : List (Source d)) (perCell : ℕ) (r : Box d) (h p : ℕ)
    (P : Vec d → Prop) : Prop :=
  ∀ eps : ℝ, expansionOrder (totalStrength S) eps = .ok p →
    ∃ (fuel0 : ℕ) (T : BalancedFmm K), (∀ fuel ≥ fuel0, ∀ sch, Schedule sch → balancedFmm K fuel sch t S perCell eps = .ok T) ∧
      ∀ π, ValidPath d π → π.length = h → ∀ x, (boxAt r π).Inner x → P x → ∀ grav : Bool,
        ∃ (φ : Vec d → ℝ) (F : Vec d),
          (∀ y, (boxAt r π).Inner y → balancedEval O grav T y = .ok (φ y + directPotential grav (S.filter fun s => s.pos = x) y)) ∧
          balancedEval O' grav T x = .ok F ∧ HasFDerivAt φ (minusGrad F) x

namespace Gr

theorem root_HO {r : Box d} (hr : 0 < r.len) {x : Vec d} : ∀ π : Path, (boxAt r π).containsHO x → r.containsHO x
  | [], h => h
  | i :: π, h => by
    refine root_HO hr π fun j => ?_
    have := h j
    have hb := boxAt_len_pos r hr π
    simp only [boxAt, Box.lower_apply, Box.upper_apply, Box.child, Pi.add_apply, Pi.smul_apply, smul_eq_mul, childDir] at this
    rw [Box.lower_apply, Box.upper_apply]
    by_cases hi : i.testBit (d - j - 1)
    · simp only [hi, if_true] at this; exact ⟨by linarith [this.1], by linarith [this.2]⟩
    · simp only [hi, Bool.false_eq_true, if_false] at this; exact ⟨by linarith [this.1], by linarith [this.2]⟩

theorem path_of_HO {r : Box d} (hr : 0 < r.len) {x : Vec d} {π : Path} (hπ : ValidPath d π) (h : (boxAt r π).containsHO x) : route r x π.length = π :=
  grid_injective (route_valid r x _) hπ (route_length r x _)
    (cell_unique r hr _ _ (route_length r x _) x (route_containsHO r x (root_HO hr π h) _) h)

open Classical in
theorem signed {U : Set (Vec d)} {h : Vec d → Vec d → ℝ} {h' : Vec d → Vec d → Vec d} (H : Region U h h') (S : List (Source d)) {x : Vec d}
    (hx : x ∈ U) (grav : Bool) : ∃ φ : Vec d → ℝ,
      (∀ z ∈ U, (if grav then superpose h S z else -superpose h S z) = φ z + directPotential grav (S.filter fun s => s.pos = x) z) ∧
      HasFDerivAt φ (minusGrad (if grav then superpose h' S x else -superpose h' S x)) x := by
  obtain ⟨φ, h1, h2⟩ := superpose_deriv H S hx
  cases grav
  · refine ⟨fun z => -φ z, fun z hz => ?_, ?_⟩
    · simp only [Bool.false_eq_true, if_false]
      rw [h1 z hz, directPotential_neg]
      ring
    · simp only [Bool.false_eq_true, if_false]
      rw [minusGrad_neg]
      exact h2.neg
  · exact ⟨φ, fun z hz => by simpa using h1 z hz, by simpa using h2⟩

theorem adaptive_of {K : Kit d} {O : Obs K ℝ} {O' : Obs K (Vec d)} {t : K.T} {S : List (Source d)} {max : ℕ} {r : Box d} {n n' : ℕ}
    {P P' : ℕ → Vec d → Prop} {h : Vec d → Vec d → ℝ} {h' : Vec d → Vec d → Vec d} (h1 : AdaptiveSuperposed O t S max r p n P h)
    (h2 : AdaptiveSuperposed O' t S max r p n' P' h') (hP : ∀ m x, P m x)
    (hR : ∀ π, (fmmTree Source.pos r S max).Mem π → (fmmTree Source.pos r S max).leaf π = true →
      (∀ x, (boxAt r π).Inner x → r.contains x) ∧ Region {x | (boxAt r π).Inner x} h h') :
    AdaptiveGradient O O' t S max r p P' := by
  intro eps ho
  obtain ⟨f1, T1, a1, -, b1⟩ := h1 S eps (List.Perm.refl _) ho
  obtain ⟨f2, T2, a2, -, b2⟩ := h2 S eps (List.Perm.refl _) ho
  obtain rfl : T1 = T2 := by
    have e := a1 (f1 + f2) (by omega) (fun _ l => l) fun _ l => List.Perm.refl l
    rw [a2 (f1 + f2) (by omega) (fun _ l => l) fun _ l => List.Perm.refl l] at e
    exact (Except.ok.inj e).symm
  refine ⟨f1 + f2, T1, fun fuel hf sch hs => a1 fuel (by omega) sch hs, fun π hm hl x hx hp grav => ?_⟩
  obtain ⟨hin, HR⟩ := hR π hm hl
  obtain ⟨φ, c1, c2⟩ := signed HR S hx grav
  exact ⟨φ, _, fun cur fuel hf => ⟨fun y hy => (b1 y (hin y hy) (hP _ _) grav cur fuel (by omega)).trans (congrArg _ (c1 y hy)),
    b2 x (hin x hx) hp grav cur fuel (by omega)⟩, c2⟩

theorem balanced_of {K : Kit d} {O : Obs K ℝ} {O' : Obs K (Vec d)} {t : K.T} {S : List (Source d)} {perCell : ℕ} {r : Box d} (hr : 0 < r.len) {n : ℕ}
    {P P' : Vec d → Prop} {h : Vec d → Vec d → ℝ} {h' : Vec d → Vec d → Vec d} (h1 : BalancedSuperposed O t S perCell r p P h)
    (h2 : BalancedSuperposed O' t S perCell r p P' h') (hP : ∀ x, P x)
    (hR : ∀ π, ValidPath d π → π.length = n → Region {x | (boxAt r π).Inner x} h h') :
    BalancedGradient O O' t S perCell r n p P' := by
  intro eps ho
  obtain ⟨f1, T1, a1, b1⟩ := h1 S eps (List.Perm.refl _) ho
  obtain ⟨f2, T2, a2, b2⟩ := h2 S eps (List.Perm.refl _) ho
  obtain rfl : T1 = T2 := by
    have e := a1 (f1 + f2) (by omega) (fun _ l => l) fun _ l => List.Perm.refl l
    rw [a2 (f1 + f2) (by omega) (fun _ l => l) fun _ l => List.Perm.refl l] at e
    exact (Except.ok.inj e).symm
  refine ⟨f1 + f2, T1, fun fuel hf sch hs => a1 fuel (by omega) sch hs, fun π hm hl x hx hp grav => ?_⟩
  obtain ⟨φ, c1, c2⟩ := signed (hR π hm hl) S hx grav
  exact ⟨φ, _, fun y hy => (b1 y (root_HO hr π (inner_HO hy)) (hP _) grav).trans (congrArg _ (c1 y hy)), b2 x (root_HO hr π (inner_HO hx)) hp grav, c2⟩

end Gr

open Gr

/-- The adaptive tree. -/
theorem adaptive_gradient {K : Kit (d + 1)} {O : Obs K ℝ} {O' : Obs K (Vec (d + 1))} {L : FmmLaws K O p} {L' : FmmLaws K O' p} {Q : LinLaws L}
    {Q' : LinLaws L'} (H : GradLaws Q Q') (hadm : ∀ a x, L.adm a x) {t : K.T} (ht : L.good t) (ht' : L'.good t)
    {S : List (Source (d + 1))} {max : ℕ} {r : Box (d + 1)} (hI : AdaptiveInput S max r) :
    AdaptiveGradient O O' t S max r p fun n x => ∀ π : Path, π.length ≤ n → L'.adm (boxAt r π).center x := by
  by_cases hN : max < S.length
  · have hr := hI.len_pos hN
    obtain ⟨hh, k, h1, h2, h3, h4, h5⟩ := adaptive_depths hI hN
    refine Gr.adaptive_of (adaptive_superposed Q ht hI hN h1 h2 h3 h4) (adaptive_superposed Q' ht' hI hN h1 h2 h3 h4) (fun _ _ _ _ => hadm _ _)
      fun π hm hl => ⟨fun x hx => containsHO_contains (root_HO hr π (inner_HO hx)), ?_⟩
    have hc : (boxAt r π).containsHO (boxAt r π).center := by
      intro j
      rw [Box.lower_apply, Box.upper_apply]
      have := boxAt_len_pos r hr π
      constructor <;> linarith
    have e := path_of_HO hr (π := π) (fun i hi => hm.1 i hi) hc
    have := region_tree H (Sc.adjOf_fmmTree r S max) hr rfl (fun π hπ => Nat.lt_succ_of_le (h5 π hπ)) h3 h4 (w := (boxAt r π).center) (l := π.length)
      (by rw [e]; exact hm) (by rw [e]; exact hl)
    rwa [e] at this
  · refine Gr.adaptive_of (adaptive_superposed_one Q ht hI (by omega)) (adaptive_superposed_one Q' ht' hI (by omega)) (fun _ _ _ _ => hadm _ _)
      fun π hm hl => ⟨fun x hx => ?_, region_one H _⟩
    have hroot : (fmmTree Source.pos r S max).leaf [] = true := by
      have : itemsAt Source.pos r S [] = S := by simp [itemsAt, route]
      simp only [fmmTree, this, decide_eq_true_eq]
      omega
    obtain rfl : [] = π := hm.eq_of_leaf_suffix hroot (List.nil_suffix)
    exact containsHO_contains (inner_HO hx)

/-- The balanced tree. -/
theorem balanced_gradient {K : Kit d} {O : Obs K ℝ} {O' : Obs K (Vec d)} {L : FmmLaws K O p} {L' : FmmLaws K O' p} {Q : LinLaws L}
    {Q' : LinLaws L'} (H : GradLaws Q Q') (hadm : ∀ a x, L.adm a x) {t : K.T} (ht : L.good t) (ht' : L'.good t)
    (hd : 2 ≤ d) (hd' : d ≤ 64) {S : List (Source d)} {perCell : ℕ} {r : Box d} {h : ℕ} (hI : BalancedInput S perCell r h) (hr : 0 < r.len)
    (hmor : h < 64 / d) : BalancedGradient O O' t S perCell r h p fun x => L'.adm (boxAt r (route r x h)).center x := by
  rcases Nat.eq_zero_or_pos h with rfl | hh
  · exact Gr.balanced_of hr (balanced_superposed_one Q ht hd hd' hI) (balanced_superposed_one Q' ht' hd hd' hI) (fun _ => hadm _ _)
      fun π _ _ => region_one H _
  · refine Gr.balanced_of hr (balanced_superposed Q ht hd hI hh hr hmor) (balanced_superposed Q' ht' hd hI hh hr hmor) (fun _ => hadm _ _)
      fun π hm hl => ?_
    have hc : (boxAt r π).containsHO (boxAt r π).center := by
      intro j
      rw [Box.lower_apply, Box.upper_apply]
      have := boxAt_len_pos r hr π
      constructor <;> linarith
    have e := path_of_HO hr hm hc
    have h3 : ∀ x, (fullTree r h).Mem (route r x h) := fun x => (fullTree_mem r h _).mpr ⟨route_valid r x h, (route_length r x h).le⟩
    have h4 : ∀ x, (fullTree r h).leaf (route r x h) = true := fun x => by simp [fullTree, route_length]
    have := region_tree H (Sc.adjOf_fullTree r h) hr rfl (n := h + 1) (fun π hπ => Nat.lt_succ_of_le ((fullTree_mem r h π).mp hπ).2) (k := fun _ => h) h3 h4
      (w := (boxAt r π).center) (l := h) (h3 _) (h4 _)
    rw [← hl, e] at this
    exact hl ▸ this

end FMM
