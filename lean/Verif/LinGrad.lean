import Verif.LinScaleTree
import Verif.LinKits
import Verif.PropsForce3

/-!
# Forces computed by a tree and gradients of the potential computed by it
-/

namespace FMM
variable {d : ℕ} {p : ℕ}

/-- `x` is in the interior of the box. -/
def Box.Inner (b : Box d) (x : Vec d) : Prop := ∀ i, b.lower i < x i ∧ x i < b.upper i

/-- The derivative of a function with the gradient `-F`. -/
noncomputable def minusGrad (F : Vec d) : Vec d →L[ℝ] ℝ := ∑ j, (-F j) • (ContinuousLinearMap.proj j : Vec d →L[ℝ] ℝ)

namespace Gr

theorem inner_open (b : Box d) : IsOpen {x | b.Inner x} := by
  have : {x | b.Inner x} = ⋂ i, {x : Vec d | b.lower i < x i ∧ x i < b.upper i} := by ext x; simp [Box.Inner]
  rw [this]
  refine isOpen_iInter_of_finite fun i => ?_
  exact (isOpen_lt continuous_const (continuous_apply i)).inter (isOpen_lt (continuous_apply i) continuous_const)

theorem inner_HO {b : Box d} {x : Vec d} (h : b.Inner x) : b.containsHO x := fun i => ⟨(h i).1.le, (h i).2⟩

theorem minusGrad_zero : minusGrad (0 : Vec d) = 0 := by simp [minusGrad]

theorem minusGrad_add (F G : Vec d) : minusGrad (F + G) = minusGrad F + minusGrad G := by
  unfold minusGrad
  rw [← Finset.sum_add_distrib]
  exact Finset.sum_congr rfl fun j _ => by rw [← add_smul, Pi.add_apply, neg_add]

theorem minusGrad_smul (c : ℝ) (F : Vec d) : minusGrad (c • F) = c • minusGrad F := by
  unfold minusGrad
  rw [Finset.smul_sum]
  exact Finset.sum_congr rfl fun j _ => by rw [smul_smul, Pi.smul_apply, smul_eq_mul, mul_neg]

theorem minusGrad_neg (F : Vec d) : minusGrad (-F) = -minusGrad F := by
  refine eq_neg_of_add_eq_zero_left ?_
  rw [← minusGrad_add, neg_add_cancel, minusGrad_zero]

/-- Derivative of a sum over a list. -/
theorem hasFDerivAt_list {α : Type} (f : α → Vec d → ℝ) (F : α → Vec d) (x : Vec d) : ∀ l : List α,
    (∀ a ∈ l, HasFDerivAt (f a) (minusGrad (F a)) x) → HasFDerivAt (fun y => (l.map fun a => f a y).sum) (minusGrad (l.map F).sum) x
  | [], _ => by simpa [minusGrad_zero] using hasFDerivAt_const (0 : ℝ) x
  | a :: l, h => by
    simp only [List.map_cons, List.sum_cons, minusGrad_add]
    exact (h a (by simp)).add (hasFDerivAt_list f F x l fun b hb => h b (by simp [hb]))

/-- The part of a box that is followed by a point. -/
theorem child_HO {b : Box d} {x y : Vec d} (hb : 0 < b.len) (h : (b.child (getOrthant b.center x)).containsHO y) :
    b.containsHO y ∧ getOrthant b.center y = getOrthant b.center x := by
  have key : ∀ j, (b.lower j ≤ y j ∧ y j < b.upper j) ∧ (b.center j ≤ y j ↔ b.center j ≤ x j) := by
    intro j
    have := h j
    simp only [Box.lower_apply, Box.upper_apply, Box.child, Pi.add_apply, Pi.smul_apply, smul_eq_mul, childDir_getOrthant] at this
    rw [Box.lower_apply, Box.upper_apply]
    by_cases hx : b.center j ≤ x j
    · rw [if_pos hx] at this
      exact ⟨⟨by linarith [this.1], by linarith [this.2]⟩, fun _ => hx, fun _ => by linarith [this.1]⟩
    · rw [if_neg hx] at this
      exact ⟨⟨by linarith [this.1], by linarith [this.2]⟩, fun hy => by linarith [this.2], fun h => absurd h hx⟩
  refine ⟨fun j => (key j).1, ?_⟩
  rw [getOrthant_eq, getOrthant_eq]
  congr 1
  funext j
  exact decide_eq_decide.mpr (key j).2

theorem route_of_HO {r : Box d} (hr : 0 < r.len) {x y : Vec d} : ∀ k, (boxAt r (route r x k)).containsHO y → route r y k = route r x k
  | 0, _ => rfl
  | k + 1, h => by
    obtain ⟨h1, h2⟩ := child_HO (boxAt_len_pos r hr _) h
    have ih := route_of_HO hr k h1
    simp only [route]
    rw [ih, h2]

end Gr

/-- Force and potential of the operations. -/
structure GradLaws {K : Kit d} {O : Obs K ℝ} {O' : Obs K (Vec d)} {L : FmmLaws K O p} {L' : FmmLaws K O' p} (Q : LinLaws L) (Q' : LinLaws L') : Prop where
  m2l : ∀ a b u y : Vec d, HasFDerivAt (Q.m2l a b ⟨u, 1⟩) (minusGrad (Q'.m2l a b ⟨u, 1⟩ y)) y
  p2l : ∀ a u y : Vec d, HasFDerivAt (Q.p2l a ⟨u, 1⟩) (minusGrad (Q'.p2l a ⟨u, 1⟩ y)) y
  m2p : ∀ a u y : Vec d, y ≠ a → HasFDerivAt (Q.m2p a ⟨u, 1⟩) (minusGrad (Q'.m2p a ⟨u, 1⟩ y)) y
  p2p : ∀ u y : Vec d, u ≠ y → HasFDerivAt (Q.p2p ⟨u, 1⟩) (minusGrad (Q'.p2p ⟨u, 1⟩ y)) y
  direct : ∀ u y : Vec d, Q.p2p ⟨u, 1⟩ y = directTerm true y ⟨u, 1⟩
  self : ∀ u : Vec d, Q'.p2p ⟨u, 1⟩ u = 0

namespace Gr
open Lin Sc
variable {K : Kit d} {O : Obs K ℝ} {O' : Obs K (Vec d)} {L : FmmLaws K O p} {L' : FmmLaws K O' p} {Q : LinLaws L} {Q' : LinLaws L'}

open Classical in
theorem hasFDerivAt_ite (r : Box d) (u : Vec d) (f : Path → Vec d → ℝ) (F : Path → Vec d) (x : Vec d) (l : List Path)
    (h : ∀ ρ ∈ l, FMM.route r u ρ.length = ρ → HasFDerivAt (f ρ) (minusGrad (F ρ)) x) :
    HasFDerivAt (fun y => (l.map fun ρ => if FMM.route r u ρ.length = ρ then f ρ y else 0).sum)
      (minusGrad (l.map fun ρ => if FMM.route r u ρ.length = ρ then F ρ else 0).sum) x := by
  refine hasFDerivAt_list (fun ρ y => if FMM.route r u ρ.length = ρ then f ρ y else 0) _ x l fun ρ hρ => ?_
  by_cases hu : FMM.route r u ρ.length = ρ
  · simp only [hu, if_true]; exact h ρ hρ hu
  · simp only [hu, if_false]; rw [minusGrad_zero]; exact hasFDerivAt_const _ _

theorem farT_deriv (H : GradLaws Q Q') (T : PTree) (r : Box d) (u x : Vec d) : ∀ π,
    HasFDerivAt (farT Q T r ⟨u, 1⟩ π) (minusGrad (farT Q' T r ⟨u, 1⟩ π x)) x
  | [] => by simp only [farT, Pi.zero_apply, minusGrad_zero]; exact hasFDerivAt_const _ _
  | i :: τ => by
    simp only [farT]
    rw [minusGrad_add, minusGrad_add]
    refine ((farT_deriv H T r u x τ).add ?_).add ?_
    · exact hasFDerivAt_ite r u (fun ρ => Q.m2l (FMM.boxAt r ρ).center (FMM.boxAt r (i :: τ)).center ⟨u, 1⟩) _ x _ fun ρ _ _ => H.m2l _ _ _ _
    · exact hasFDerivAt_ite r u (fun ρ => Q.p2l (FMM.boxAt r (i :: τ)).center ⟨u, 1⟩) _ x _ fun ρ _ _ => H.p2l _ _ _

open Classical in
theorem sum_zero {V : Type} [AddCommGroup V] (r : Box d) (u : Vec d) (f : Path → V) (l : List Path) (h : cnt r u l = 0) :
    (l.map fun ρ => if FMM.route r u ρ.length = ρ then f ρ else 0).sum = 0 := by
  refine List.sum_eq_zero fun v hv => ?_
  obtain ⟨ρ, hρ, rfl⟩ := List.mem_map.mp hv
  by_cases hu : FMM.route r u ρ.length = ρ
  · exfalso
    have : (1 : ℕ) ≤ cnt r u l := by
      unfold cnt
      exact List.single_le_sum (fun _ _ => Nat.zero_le _) 1 (List.mem_map.mpr ⟨ρ, hρ, by rw [if_pos hu]⟩)
    omega
  · rw [if_neg hu]

open Classical in
theorem sum_const {V : Type} [AddCommGroup V] (r : Box d) (u : Vec d) (v : V) (l : List Path) :
    (l.map fun ρ => if FMM.route r u ρ.length = ρ then v else 0).sum = cnt r u l • v := by
  induction l with
  | nil => simp [cnt]
  | cons ρ l ih =>
    have e : cnt r u (ρ :: l) = (if FMM.route r u ρ.length = ρ then 1 else 0) + cnt r u l := rfl
    rw [List.map_cons, List.sum_cons, ih, e, add_smul]
    by_cases hu : FMM.route r u ρ.length = ρ
    · rw [if_pos hu, if_pos hu, one_smul]
    · rw [if_neg hu, if_neg hu, zero_smul]

theorem farT_zero {V : Type} [AddCommGroup V] [Module ℝ V] {O : Obs K V} {L : FmmLaws K O p} (Q : LinLaws L) (T : PTree) (r : Box d) (u x : Vec d) :
    ∀ π, cntFar T r u π = 0 → farT Q T r ⟨u, 1⟩ π x = 0
  | [], _ => rfl
  | i :: τ, h => by
    simp only [cntFar] at h
    simp only [farT]
    rw [farT_zero Q T r u x τ (by omega), sum_zero r u (fun ρ => Q.m2l (FMM.boxAt r ρ).center (FMM.boxAt r (i :: τ)).center ⟨u, 1⟩ x) _ (by omega),
      sum_zero r u (fun ρ => Q.p2l (FMM.boxAt r (i :: τ)).center ⟨u, 1⟩ x) _ (by omega), add_zero, add_zero]

/-- A source in the leaf itself contributes directly. -/
theorem term_own {V : Type} [AddCommGroup V] [Module ℝ V] {O : Obs K V} {L : FmmLaws K O p} (Q : LinLaws L) {T : PTree} {r : Box d} (hA : AdjOf T r)
    (hr : 0 < r.len) (hcc : T.c = 2 ^ d) {n : ℕ} (hh : ∀ π, T.Mem π → π.length < n) {R : Path} (hR : T.Mem R) (hRl : T.leaf R = true) {u : Vec d}
    (hu : FMM.route r u R.length = R) (x : Vec d) :
    term Q T r ((T.nbhAfter (T.order n)).near R) ((T.nbhAfter (T.order n)).W R) R ⟨u, 1⟩ x = Q.p2p ⟨u, 1⟩ x := by
  have hL := hA.laws hr
  have hone := slots_cnt hA hr hcc hh u hR hRl
  have hmem : R ∈ (T.nbhAfter (T.order n)).near R := (PTree.mem_near_leaf hL hh hR hRl R).mpr ⟨hR, hRl, hL.refl R⟩
  have hpos : 1 ≤ cnt r u ((T.nbhAfter (T.order n)).near R) := by
    unfold cnt
    refine List.single_le_sum (fun _ _ => Nat.zero_le _) 1 (List.mem_map.mpr ⟨R, hmem, ?_⟩)
    rw [if_pos hu]
  have e1 : cnt r u ((T.nbhAfter (T.order n)).near R) = 1 := by omega
  unfold term
  rw [farT_zero Q T r u x R (by omega), sum_zero r u (fun ρ => Q.m2p (FMM.boxAt r ρ).center ⟨u, 1⟩ x) _ (by omega),
    sum_const r u (Q.p2p ⟨u, 1⟩ x), e1, one_smul, add_zero, zero_add]

/-- Other sources. -/
theorem term_deriv (H : GradLaws Q Q') {T : PTree} {r : Box d} (hA : AdjOf T r) (hr : 0 < r.len) {n : ℕ} (hh : ∀ π, T.Mem π → π.length < n) {R : Path}
    {x : Vec d} (hx : (FMM.boxAt r R).contains x) {u : Vec d} (hu : u ≠ x) :
    HasFDerivAt (term Q T r ((T.nbhAfter (T.order n)).near R) ((T.nbhAfter (T.order n)).W R) R ⟨u, 1⟩)
      (minusGrad (term Q' T r ((T.nbhAfter (T.order n)).near R) ((T.nbhAfter (T.order n)).W R) R ⟨u, 1⟩ x)) x := by
  have hL := hA.laws hr
  unfold term
  rw [minusGrad_add, minusGrad_add]
  refine ((farT_deriv H T r u x R).add ?_).add ?_
  · refine hasFDerivAt_ite r u (fun ρ => Q.m2p (FMM.boxAt r ρ).center ⟨u, 1⟩) _ x _ fun ρ hρ _ => H.m2p _ _ _ ?_
    obtain ⟨w1, w2⟩ := (PTree.mem_W hh R ρ).mp hρ
    have w4 : R.length ≤ ρ.length ∧ T.adj ρ R = false := by
      cases ρ with
      | nil => simp [PTree.xl] at w2
      | cons i τ =>
        obtain ⟨-, -, c, -, e⟩ := (PTree.mem_xl hL w1 R).mp w2
        exact ⟨c.le, e⟩
    obtain ⟨j, hj⟩ := point_dist_of_not_adjacent r hr ρ R w4.1 (by have := hA ρ R; rw [w4.2] at this; simpa using this)
    exact ne_of_dist (boxAt_len_pos r hr ρ) (by norm_num) (hj x hx)
  · exact hasFDerivAt_ite r u (fun ρ => Q.p2p ⟨u, 1⟩) _ x _ fun ρ _ _ => H.p2p _ _ hu

/-- What is needed about the contributions of single sources in the region `U`. -/
structure Region (U : Set (Vec d)) (h : Vec d → Vec d → ℝ) (h' : Vec d → Vec d → Vec d) : Prop where
  isOpen : IsOpen U
  deriv : ∀ x ∈ U, ∀ y, y ≠ x → HasFDerivAt (fun z => h z y) (minusGrad (h' x y)) x
  own : ∀ x ∈ U, ∀ z ∈ U, h z x = directTerm true z ⟨x, 1⟩
  self : ∀ x ∈ U, h' x x = 0

theorem region_tree (H : GradLaws Q Q') {T : PTree} {r : Box d} (hA : AdjOf T r) (hr : 0 < r.len) (hcc : T.c = 2 ^ d) {n : ℕ}
    (hh : ∀ π, T.Mem π → π.length < n) {k : Vec d → ℕ} (hk1 : ∀ x, T.Mem (FMM.route r x (k x))) (hk2 : ∀ x, T.leaf (FMM.route r x (k x)) = true)
    {w : Vec d} {l : ℕ} (hm : T.Mem (FMM.route r w l)) (hl : T.leaf (FMM.route r w l) = true) :
    Region {x | (FMM.boxAt r (FMM.route r w l)).Inner x} (kern Q T r n k) (kern Q' T r n k) := by
  set R := FMM.route r w l with hR
  have hlen : R.length = l := by rw [hR, route_length]
  have hroute : ∀ x, (FMM.boxAt r R).Inner x → FMM.route r x l = R := fun x hx => route_of_HO hr l (inner_HO hx)
  have hk : ∀ x, (FMM.boxAt r R).Inner x → FMM.route r x (k x) = R := by
    intro x hx
    have := leaf_route_unique T r x (hk1 x) (by rw [hroute x hx]; exact hm) (hk2 x) (by rw [hroute x hx]; exact hl)
    rw [this, hroute x hx]
  refine ⟨inner_open _, fun x hx y hy => ?_, fun x hx z hz => ?_, fun x hx => ?_⟩
  · have e : (fun z => kern Q T r n k z y) =ᶠ[nhds x] term Q T r ((T.nbhAfter (T.order n)).near R) ((T.nbhAfter (T.order n)).W R) R ⟨y, 1⟩ := by
      filter_upwards [(inner_open (FMM.boxAt r R)).mem_nhds hx] with z hz
      unfold kern
      rw [hk z hz]
    refine HasFDerivAt.congr_of_eventuallyEq ?_ e
    unfold kern
    rw [hk x hx]
    exact term_deriv H hA hr hh (containsHO_contains (inner_HO hx)) hy
  · unfold kern
    rw [hk z hz, term_own Q hA hr hcc hh hm hl (by rw [hlen]; exact hroute x hx), H.direct]
  · unfold kern
    rw [hk x hx, term_own Q' hA hr hcc hh hm hl (by rw [hlen]; exact hroute x hx), H.self]

theorem region_one (H : GradLaws Q Q') (b : Box d) : Region {x | b.Inner x} (fun x y => Q.p2p ⟨y, 1⟩ x) (fun x y => Q'.p2p ⟨y, 1⟩ x) :=
  ⟨inner_open b, fun x _ y hy => H.p2p y x hy, fun x _ z _ => H.direct x z, fun x _ => H.self x⟩

open Classical in
/-- From single sources to the values. -/
theorem superpose_deriv {U : Set (Vec d)} {h : Vec d → Vec d → ℝ} {h' : Vec d → Vec d → Vec d} (H : Region U h h') (S : List (Source d)) {x : Vec d}
    (hx : x ∈ U) : ∃ φ : Vec d → ℝ, (∀ z ∈ U, superpose h S z = φ z + directPotential true (S.filter fun s => s.pos = x) z) ∧
      HasFDerivAt φ (minusGrad (superpose h' S x)) x := by
  induction S with
  | nil =>
    refine ⟨fun _ => 0, fun z _ => by simp [superpose, directPotential], ?_⟩
    simp only [superpose, List.map_nil, List.sum_nil, minusGrad_zero]
    exact hasFDerivAt_const _ _
  | cons s S ih =>
    obtain ⟨φ, h1, h2⟩ := ih
    have ec : ∀ {V : Type} [AddCommGroup V] [Module ℝ V] (g : Vec d → Vec d → V) (z : Vec d),
        superpose g (s :: S) z = s.q • g z s.pos + superpose g S z := fun g z => by unfold superpose; rw [List.map_cons, List.sum_cons]
    by_cases hs : s.pos = x
    · refine ⟨φ, fun z hz => ?_, ?_⟩
      · rw [ec, h1 z hz, List.filter_cons_of_pos (by simp [hs])]
        unfold directPotential
        rw [List.map_cons, List.sum_cons, directTerm_smul z s, hs, H.own x hx z hz]
        ring
      · rw [ec, hs, H.self x hx, smul_zero, zero_add]
        exact h2
    · refine ⟨fun z => s.q • h z s.pos + φ z, fun z hz => ?_, ?_⟩
      · rw [ec, h1 z hz, List.filter_cons_of_neg (by simp [hs])]
        ring
      · rw [ec, minusGrad_add, minusGrad_smul]
        exact ((H.deriv x hx s.pos hs).const_smul s.q).add h2

end Gr
end FMM
