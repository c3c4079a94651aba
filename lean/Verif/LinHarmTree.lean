import Verif.LinHarm
import Verif.LinGradTree

/-!
# Potentials of trees and Laplace's equation
-/

namespace FMM
variable {d : ℕ} {p : ℕ}

open Classical in
/-- Laplace's equation for the potentials computed by an adaptive tree: in the interior of the box of a leaf the potential is `φ` and the force is `F`, up to
the parts due to sources at the point `x`. Near `x`, `F` is minus the gradient of `φ`, and the divergence of `F` at `x` is zero. -/
def AdaptiveHarmonic {K : Kit d} (O : Obs K ℝ) (O' : Obs K (Vec d)) (t : K.T) (S : List (Source d)) (max : ℕ) (r : Box d) (p : ℕ)
    (P : ℕ → Vec d → Prop) : Prop :=
  ∀ eps : ℝ, expansionOrder (totalStrength S) eps = .ok p →
    ∃ (fuel0 : ℕ) (T : AdaptiveFmm K), (∀ fuel ≥ fuel0, ∀ sch, Schedule sch → adaptiveFmm K fuel sch t S max eps = .ok T) ∧
      ∀ π, (fmmTree Source.pos r S max).Mem π → (fmmTree Source.pos r S max).leaf π = true → ∀ x, (boxAt r π).Inner x → ∀ grav : Bool,
        ∃ (φ : Vec d → ℝ) (F : Vec d → Vec d), (∀ cur, ∀ fuel ≥ fuel0, ∀ y, (boxAt r π).Inner y →
            adaptiveEval O fuel grav T cur y = .ok (φ y + directPotential grav (S.filter fun s => s.pos = x) y) ∧
            (P T.height y → adaptiveEval O' fuel grav T cur y = .ok (F y + directField grav (S.filter fun s => s.pos = x) y 0))) ∧
          (∀ᶠ y in nhds x, HasFDerivAt φ (minusGrad (F y)) y) ∧ SourceFree F x

open Classical in
/-- The same for a balanced tree of height `h`. -/
def BalancedHarmonic {K : Kit d} (O : Obs K ℝ) (O' : Obs K (Vec d)) (t : K.T) (S : List (Source d)) (perCell : ℕ) (r : Box d) (h p : ℕ)
    (P : Vec d → Prop) : Prop :=
  ∀ eps : ℝ, expansionOrder (totalStrength S) eps = .ok p →
    ∃ (fuel0 : ℕ) (T : BalancedFmm K), (∀ fuel ≥ fuel0, ∀ sch, Schedule sch → balancedFmm K fuel sch t S perCell eps = .ok T) ∧
      ∀ π, ValidPath d π → π.length = h → ∀ x, (boxAt r π).Inner x → ∀ grav : Bool,
        ∃ (φ : Vec d → ℝ) (F : Vec d → Vec d), (∀ y, (boxAt r π).Inner y →
            balancedEval O grav T y = .ok (φ y + directPotential grav (S.filter fun s => s.pos = x) y) ∧
            (P y → balancedEval O' grav T y = .ok (F y + directField grav (S.filter fun s => s.pos = x) y 0))) ∧
          (∀ᶠ y in nhds x, HasFDerivAt φ (minusGrad (F y)) y) ∧ SourceFree F x

namespace Hm
open Lin Sc Gr
variable {K : Kit d} {O : Obs K ℝ} {O' : Obs K (Vec d)} {L : FmmLaws K O p} {L' : FmmLaws K O' p} {Q : LinLaws L} {Q' : LinLaws L'}

open Classical in
theorem ite (r : Box d) (u : Vec d) (F : Path → Vec d → Vec d) (x : Vec d) (l : List Path)
    (h : ∀ ρ ∈ l, FMM.route r u ρ.length = ρ → SourceFree (F ρ) x) :
    SourceFree (fun y => (l.map fun ρ => if FMM.route r u ρ.length = ρ then F ρ y else 0).sum) x := by
  refine list (fun ρ y => if FMM.route r u ρ.length = ρ then F ρ y else 0) x l fun ρ hρ => ?_
  by_cases hu : FMM.route r u ρ.length = ρ
  · simp only [hu, if_true]; exact h ρ hρ hu
  · simp only [hu, if_false]; exact zero x

theorem farT_free (H : HarmLaws Q') (T : PTree) (r : Box d) (u x : Vec d) : ∀ π, SourceFree (farT Q' T r ⟨u, 1⟩ π) x
  | [] => zero x
  | i :: τ => by
    simp only [farT]
    refine add (add (farT_free H T r u x τ) ?_) ?_
    · exact ite r u (fun ρ => Q'.m2l (FMM.boxAt r ρ).center (FMM.boxAt r (i :: τ)).center ⟨u, 1⟩) x _ fun ρ _ _ => H.m2l _ _ _ _
    · exact ite r u (fun ρ => Q'.p2l (FMM.boxAt r (i :: τ)).center ⟨u, 1⟩) x _ fun ρ _ _ => H.p2l _ _ _

theorem term_free (H : HarmLaws Q') {T : PTree} {r : Box d} (hA : AdjOf T r) (hr : 0 < r.len) {n : ℕ} (hh : ∀ π, T.Mem π → π.length < n) {R : Path}
    {x : Vec d} (hx : (FMM.boxAt r R).contains x) {u : Vec d} (hu : u ≠ x) :
    SourceFree (term Q' T r ((T.nbhAfter (T.order n)).near R) ((T.nbhAfter (T.order n)).W R) R ⟨u, 1⟩) x := by
  have hL := hA.laws hr
  unfold term
  refine add (add (farT_free H T r u x R) ?_) ?_
  · refine ite r u (fun ρ => Q'.m2p (FMM.boxAt r ρ).center ⟨u, 1⟩) x _ fun ρ hρ _ => H.m2p _ _ _ ?_
    obtain ⟨w1, w2⟩ := (PTree.mem_W hh R ρ).mp hρ
    have w4 : R.length ≤ ρ.length ∧ T.adj ρ R = false := by
      cases ρ with
      | nil => simp [PTree.xl] at w2
      | cons i τ =>
        obtain ⟨-, -, c, -, e⟩ := (PTree.mem_xl hL w1 R).mp w2
        exact ⟨c.le, e⟩
    obtain ⟨j, hj⟩ := point_dist_of_not_adjacent r hr ρ R w4.1 (by have := hA ρ R; rw [w4.2] at this; simpa using this)
    exact ne_of_dist (boxAt_len_pos r hr ρ) (by norm_num) (hj x hx)
  · exact ite r u (fun ρ => Q'.p2p ⟨u, 1⟩) x _ fun ρ _ _ => H.p2p _ _ hu

/-- What is needed about the contributions of single sources in the region `U`. -/
structure HarmRegion (U : Set (Vec d)) (h : Vec d → Vec d → ℝ) (h' : Vec d → Vec d → Vec d) : Prop extends Region U h h' where
  free : ∀ x ∈ U, ∀ y, y ≠ x → SourceFree (fun z => h' z y) x
  ownF : ∀ x ∈ U, ∀ z ∈ U, h' z x = directFieldTerm true z 0 ⟨x, 1⟩

theorem region_tree (H : GradLaws Q Q') (H' : HarmLaws Q') {T : PTree} {r : Box d} (hA : AdjOf T r) (hr : 0 < r.len) (hcc : T.c = 2 ^ d) {n : ℕ}
    (hh : ∀ π, T.Mem π → π.length < n) {k : Vec d → ℕ} (hk1 : ∀ x, T.Mem (FMM.route r x (k x))) (hk2 : ∀ x, T.leaf (FMM.route r x (k x)) = true)
    {w : Vec d} {l : ℕ} (hm : T.Mem (FMM.route r w l)) (hl : T.leaf (FMM.route r w l) = true) :
    HarmRegion {x | (FMM.boxAt r (FMM.route r w l)).Inner x} (kern Q T r n k) (kern Q' T r n k) := by
  refine { Gr.region_tree H hA hr hcc hh hk1 hk2 hm hl with free := ?_, ownF := ?_ }
  all_goals
    set R := FMM.route r w l with hR
    have hlen : R.length = l := by rw [hR, route_length]
    have hroute : ∀ x, (FMM.boxAt r R).Inner x → FMM.route r x l = R := fun x hx => route_of_HO hr l (inner_HO hx)
    have hk : ∀ x, (FMM.boxAt r R).Inner x → FMM.route r x (k x) = R := by
      intro x hx
      have := leaf_route_unique T r x (hk1 x) (by rw [hroute x hx]; exact hm) (hk2 x) (by rw [hroute x hx]; exact hl)
      rw [this, hroute x hx]
  · intro x hx y hy
    refine congr (term_free H' hA hr hh (containsHO_contains (inner_HO hx)) hy) ?_
    filter_upwards [(inner_open (FMM.boxAt r R)).mem_nhds hx] with z hz
    unfold kern
    rw [hk z hz]
  · intro x hx z hz
    unfold kern
    rw [hk z hz, term_own Q' hA hr hcc hh hm hl (by rw [hlen]; exact hroute x hx), H'.direct]

theorem region_one (H : GradLaws Q Q') (H' : HarmLaws Q') (b : Box d) :
    HarmRegion {x | b.Inner x} (fun x y => Q.p2p ⟨y, 1⟩ x) (fun x y => Q'.p2p ⟨y, 1⟩ x) :=
  { Gr.region_one H b with free := fun x _ y hy => H'.p2p y x hy, ownF := fun x _ z _ => H'.direct x z }

open Classical in
/-- From single sources to the values. -/
theorem superpose_harm {U : Set (Vec d)} {h : Vec d → Vec d → ℝ} {h' : Vec d → Vec d → Vec d} (H : HarmRegion U h h') (S : List (Source d)) {x : Vec d}
    (hx : x ∈ U) : ∃ (φ : Vec d → ℝ) (F : Vec d → Vec d),
      (∀ z ∈ U, superpose h S z = φ z + directPotential true (S.filter fun s => s.pos = x) z ∧
        superpose h' S z = F z + directField true (S.filter fun s => s.pos = x) z 0) ∧
      (∀ᶠ z in nhds x, HasFDerivAt φ (minusGrad (F z)) z) ∧ SourceFree F x := by
  induction S with
  | nil =>
    refine ⟨fun _ => 0, fun _ => 0, fun z _ => by simp [superpose, directPotential, directField], ?_, zero x⟩
    refine Filter.Eventually.of_forall fun z => ?_
    rw [minusGrad_zero]
    exact hasFDerivAt_const _ _
  | cons s S ih =>
    obtain ⟨φ, F, h1, h2, h3⟩ := ih
    have ec : ∀ {V : Type} [AddCommGroup V] [Module ℝ V] (g : Vec d → Vec d → V) (z : Vec d),
        superpose g (s :: S) z = s.q • g z s.pos + superpose g S z := fun g z => by unfold superpose; rw [List.map_cons, List.sum_cons]
    by_cases hs : s.pos = x
    · refine ⟨φ, F, fun z hz => ?_, h2, h3⟩
      obtain ⟨e1, e2⟩ := h1 z hz
      rw [ec, ec, e1, e2, List.filter_cons_of_pos (by simp [hs])]
      unfold directPotential directField
      rw [List.map_cons, List.sum_cons, List.map_cons, List.sum_cons, directTerm_smul z s, directFieldTerm_smul z 0 s, hs, H.own x hx z hz, H.ownF x hx z hz]
      exact ⟨by ring, by abel⟩
    · refine ⟨fun z => s.q • h z s.pos + φ z, fun z => s.q • h' z s.pos + F z, fun z hz => ?_, ?_, add (smul s.q (H.free x hx s.pos hs)) h3⟩
      · obtain ⟨e1, e2⟩ := h1 z hz
        rw [ec, ec, e1, e2, List.filter_cons_of_neg (by simp [hs])]
        exact ⟨by ring, (add_assoc _ _ _).symm⟩
      · filter_upwards [h2, H.isOpen.mem_nhds hx, isOpen_ne.mem_nhds (Ne.symm hs)] with z hz hzU hzs
        rw [minusGrad_add, minusGrad_smul]
        exact ((H.deriv z hzU s.pos (fun e => hzs e.symm)).const_smul s.q).add hz

open Classical in
theorem signed {U : Set (Vec d)} {h : Vec d → Vec d → ℝ} {h' : Vec d → Vec d → Vec d} (H : HarmRegion U h h') (S : List (Source d)) {x : Vec d}
    (hx : x ∈ U) (grav : Bool) : ∃ (φ : Vec d → ℝ) (F : Vec d → Vec d),
      (∀ z ∈ U, (if grav then superpose h S z else -superpose h S z) = φ z + directPotential grav (S.filter fun s => s.pos = x) z ∧
        (if grav then superpose h' S z else -superpose h' S z) = F z + directField grav (S.filter fun s => s.pos = x) z 0) ∧
      (∀ᶠ z in nhds x, HasFDerivAt φ (minusGrad (F z)) z) ∧ SourceFree F x := by
  obtain ⟨φ, F, h1, h2, h3⟩ := superpose_harm H S hx
  cases grav
  · refine ⟨fun z => -φ z, fun z => -F z, fun z hz => ?_, ?_, ?_⟩
    · obtain ⟨e1, e2⟩ := h1 z hz
      simp only [Bool.false_eq_true, if_false]
      rw [e1, e2, directPotential_neg, directField_neg, neg_add, neg_add]
      exact ⟨rfl, rfl⟩
    · filter_upwards [h2] with z hz
      rw [minusGrad_neg]
      exact hz.neg
    · simpa using smul (-1) h3
  · exact ⟨φ, F, fun z hz => by simpa using h1 z hz, h2, h3⟩

theorem adaptive_of {K : Kit d} {O : Obs K ℝ} {O' : Obs K (Vec d)} {t : K.T} {S : List (Source d)} {max : ℕ} {r : Box d} {n n' : ℕ}
    {P P' : ℕ → Vec d → Prop} {h : Vec d → Vec d → ℝ} {h' : Vec d → Vec d → Vec d} (h1 : AdaptiveSuperposed O t S max r p n P h)
    (h2 : AdaptiveSuperposed O' t S max r p n' P' h') (hP : ∀ m x, P m x)
    (hR : ∀ π, (fmmTree Source.pos r S max).Mem π → (fmmTree Source.pos r S max).leaf π = true →
      (∀ x, (FMM.boxAt r π).Inner x → r.contains x) ∧ HarmRegion {x | (FMM.boxAt r π).Inner x} h h') :
    AdaptiveHarmonic O O' t S max r p P' := by
  intro eps ho
  obtain ⟨f1, T1, a1, -, b1⟩ := h1 S eps (List.Perm.refl _) ho
  obtain ⟨f2, T2, a2, -, b2⟩ := h2 S eps (List.Perm.refl _) ho
  obtain rfl : T1 = T2 := by
    have e := a1 (f1 + f2) (by omega) (fun _ l => l) fun _ l => List.Perm.refl l
    rw [a2 (f1 + f2) (by omega) (fun _ l => l) fun _ l => List.Perm.refl l] at e
    exact (Except.ok.inj e).symm
  refine ⟨f1 + f2, T1, fun fuel hf sch hs => a1 fuel (by omega) sch hs, fun π hm hl x hx grav => ?_⟩
  obtain ⟨hin, HR⟩ := hR π hm hl
  obtain ⟨φ, F, c1, c2, c3⟩ := signed HR S hx grav
  exact ⟨φ, F, fun cur fuel hf y hy => ⟨(b1 y (hin y hy) (hP _ _) grav cur fuel (by omega)).trans (congrArg _ (c1 y hy).1),
    fun hp => (b2 y (hin y hy) hp grav cur fuel (by omega)).trans (congrArg _ (c1 y hy).2)⟩, c2, c3⟩

theorem balanced_of {K : Kit d} {O : Obs K ℝ} {O' : Obs K (Vec d)} {t : K.T} {S : List (Source d)} {perCell : ℕ} {r : Box d} (hr : 0 < r.len) {n : ℕ}
    {P P' : Vec d → Prop} {h : Vec d → Vec d → ℝ} {h' : Vec d → Vec d → Vec d} (h1 : BalancedSuperposed O t S perCell r p P h)
    (h2 : BalancedSuperposed O' t S perCell r p P' h') (hP : ∀ x, P x)
    (hR : ∀ π, ValidPath d π → π.length = n → HarmRegion {x | (FMM.boxAt r π).Inner x} h h') :
    BalancedHarmonic O O' t S perCell r n p P' := by
  intro eps ho
  obtain ⟨f1, T1, a1, b1⟩ := h1 S eps (List.Perm.refl _) ho
  obtain ⟨f2, T2, a2, b2⟩ := h2 S eps (List.Perm.refl _) ho
  obtain rfl : T1 = T2 := by
    have e := a1 (f1 + f2) (by omega) (fun _ l => l) fun _ l => List.Perm.refl l
    rw [a2 (f1 + f2) (by omega) (fun _ l => l) fun _ l => List.Perm.refl l] at e
    exact (Except.ok.inj e).symm
  refine ⟨f1 + f2, T1, fun fuel hf sch hs => a1 fuel (by omega) sch hs, fun π hm hl x hx grav => ?_⟩
  obtain ⟨φ, F, c1, c2, c3⟩ := signed (hR π hm hl) S hx grav
  exact ⟨φ, F, fun y hy => ⟨(b1 y (root_HO hr π (inner_HO hy)) (hP _) grav).trans (congrArg _ (c1 y hy).1),
    fun hp => (b2 y (root_HO hr π (inner_HO hy)) hp grav).trans (congrArg _ (c1 y hy).2)⟩, c2, c3⟩

end Hm

open Gr

/-- The adaptive tree. -/
theorem adaptive_harmonic {K : Kit (d + 1)} {O : Obs K ℝ} {O' : Obs K (Vec (d + 1))} {L : FmmLaws K O p} {L' : FmmLaws K O' p} {Q : LinLaws L}
    {Q' : LinLaws L'} (H : GradLaws Q Q') (H' : HarmLaws Q') (hadm : ∀ a x, L.adm a x) {t : K.T} (ht : L.good t) (ht' : L'.good t)
    {S : List (Source (d + 1))} {max : ℕ} {r : Box (d + 1)} (hI : AdaptiveInput S max r) :
    AdaptiveHarmonic O O' t S max r p fun n x => ∀ π : Path, π.length ≤ n → L'.adm (boxAt r π).center x := by
  by_cases hN : max < S.length
  · have hr := hI.len_pos hN
    obtain ⟨hh, k, h1, h2, h3, h4, h5⟩ := adaptive_depths hI hN
    refine Hm.adaptive_of (adaptive_superposed Q ht hI hN h1 h2 h3 h4) (adaptive_superposed Q' ht' hI hN h1 h2 h3 h4) (fun _ _ _ _ => hadm _ _)
      fun π hm hl => ⟨fun x hx => containsHO_contains (root_HO hr π (inner_HO hx)), ?_⟩
    have hc : (boxAt r π).containsHO (boxAt r π).center := by
      intro j
      rw [Box.lower_apply, Box.upper_apply]
      have := boxAt_len_pos r hr π
      constructor <;> linarith
    have e := path_of_HO hr (π := π) (fun i hi => hm.1 i hi) hc
    have := Hm.region_tree H H' (Sc.adjOf_fmmTree r S max) hr rfl (fun π hπ => Nat.lt_succ_of_le (h5 π hπ)) h3 h4 (w := (boxAt r π).center) (l := π.length)
      (by rw [e]; exact hm) (by rw [e]; exact hl)
    rwa [e] at this
  · refine Hm.adaptive_of (adaptive_superposed_one Q ht hI (by omega)) (adaptive_superposed_one Q' ht' hI (by omega)) (fun _ _ _ _ => hadm _ _)
      fun π hm hl => ⟨fun x hx => ?_, Hm.region_one H H' _⟩
    have hroot : (fmmTree Source.pos r S max).leaf [] = true := by
      have : itemsAt Source.pos r S [] = S := by simp [itemsAt, route]
      simp only [fmmTree, this, decide_eq_true_eq]
      omega
    obtain rfl : [] = π := hm.eq_of_leaf_suffix hroot (List.nil_suffix)
    exact containsHO_contains (inner_HO hx)

/-- The balanced tree. -/
theorem balanced_harmonic {K : Kit d} {O : Obs K ℝ} {O' : Obs K (Vec d)} {L : FmmLaws K O p} {L' : FmmLaws K O' p} {Q : LinLaws L}
    {Q' : LinLaws L'} (H : GradLaws Q Q') (H' : HarmLaws Q') (hadm : ∀ a x, L.adm a x) {t : K.T} (ht : L.good t) (ht' : L'.good t)
    (hd : 2 ≤ d) (hd' : d ≤ 64) {S : List (Source d)} {perCell : ℕ} {r : Box d} {h : ℕ} (hI : BalancedInput S perCell r h) (hr : 0 < r.len)
    (hmor : h < 64 / d) : BalancedHarmonic O O' t S perCell r h p fun x => L'.adm (boxAt r (route r x h)).center x := by
  rcases Nat.eq_zero_or_pos h with rfl | hh
  · exact Hm.balanced_of hr (balanced_superposed_one Q ht hd hd' hI) (balanced_superposed_one Q' ht' hd hd' hI) (fun _ => hadm _ _)
      fun π _ _ => Hm.region_one H H' _
  · refine Hm.balanced_of hr (balanced_superposed Q ht hd hI hh hr hmor) (balanced_superposed Q' ht' hd hI hh hr hmor) (fun _ => hadm _ _)
      fun π hm hl => ?_
    have hc : (boxAt r π).containsHO (boxAt r π).center := by
      intro j
      rw [Box.lower_apply, Box.upper_apply]
      have := boxAt_len_pos r hr π
      constructor <;> linarith
    have e := path_of_HO hr hm hc
    have h3 : ∀ x, (fullTree r h).Mem (route r x h) := fun x => (fullTree_mem r h _).mpr ⟨route_valid r x h, (route_length r x h).le⟩
    have h4 : ∀ x, (fullTree r h).leaf (route r x h) = true := fun x => by simp [fullTree, route_length]
    have := Hm.region_tree H H' (Sc.adjOf_fullTree r h) hr rfl (n := h + 1) (fun π hπ => Nat.lt_succ_of_le ((fullTree_mem r h π).mp hπ).2) (k := fun _ => h)
      h3 h4 (w := (boxAt r π).center) (l := h) (h3 _) (h4 _)
    rw [← hl, e] at this
    exact hl ▸ this

end FMM
