import Verif.LinRecipKits
import Verif.LinRecipPlane
import Verif.PropsLinear
import Verif.PropsAccuracy

/-!
# Reciprocity (C119, C120)

A charge at `y` has the same potential at `x` as the same charge at `x` has at `y`.  In space the potentials computed by both trees keep this symmetry
exactly, whatever the expansion order (C119).  In the plane they do not, because the conversion of multipole to local expansions leaves out the highest
coefficient (C120).
-/

namespace FMM

/-! ## What reciprocity says -/

section
variable {d : ℕ} {K : Kit d}

/-- Two adaptive trees of the same order over the same positions, with charges `q` and `q'`: the work done on the charges `q'` by the computed
potential of the charges `q` is the work done on the charges `q` by the computed potential of the charges `q'`. -/
def AdaptiveReciprocal (O : Obs K ℝ) (t : K.T) (S0 : List (Source d)) (max p : ℕ) : Prop :=
  ∀ (X : List (TwoCharges d)) (e e' : ℝ), (X.map TwoCharges.pos).Perm (S0.map Source.pos) →
    expansionOrder (totalStrength (X.map fun x => ⟨x.pos, x.q⟩)) e = .ok p → expansionOrder (totalStrength (X.map fun x => ⟨x.pos, x.q'⟩)) e' = .ok p →
    ∃ (fuel0 : ℕ) (T T' : AdaptiveFmm K),
      (∀ fuel ≥ fuel0, ∀ sch, Schedule sch → adaptiveFmm K fuel sch t (X.map fun x => ⟨x.pos, x.q⟩) max e = .ok T ∧
        adaptiveFmm K fuel sch t (X.map fun x => ⟨x.pos, x.q'⟩) max e' = .ok T') ∧
      ∀ grav, ∃ v v' : Vec d → ℝ, (∀ x ∈ X, ∀ cur, ∀ fuel ≥ fuel0,
          adaptiveEval O fuel grav T cur x.pos = .ok (v x.pos) ∧ adaptiveEval O fuel grav T' cur x.pos = .ok (v' x.pos)) ∧
        (X.map fun x => x.q' * v x.pos).sum = (X.map fun x => x.q * v' x.pos).sum

/-- The same for the balanced tree. -/
def BalancedReciprocal (O : Obs K ℝ) (t : K.T) (S0 : List (Source d)) (perCell p : ℕ) : Prop :=
  ∀ (X : List (TwoCharges d)) (e e' : ℝ), (X.map TwoCharges.pos).Perm (S0.map Source.pos) →
    expansionOrder (totalStrength (X.map fun x => ⟨x.pos, x.q⟩)) e = .ok p → expansionOrder (totalStrength (X.map fun x => ⟨x.pos, x.q'⟩)) e' = .ok p →
    ∃ (fuel0 : ℕ) (T T' : BalancedFmm K),
      (∀ fuel ≥ fuel0, ∀ sch, Schedule sch → balancedFmm K fuel sch t (X.map fun x => ⟨x.pos, x.q⟩) perCell e = .ok T ∧
        balancedFmm K fuel sch t (X.map fun x => ⟨x.pos, x.q'⟩) perCell e' = .ok T') ∧
      ∀ grav, ∃ v v' : Vec d → ℝ, (∀ x ∈ X, balancedEval O grav T x.pos = .ok (v x.pos) ∧ balancedEval O grav T' x.pos = .ok (v' x.pos)) ∧
        (X.map fun x => x.q' * v x.pos).sum = (X.map fun x => x.q * v' x.pos).sum

theorem Rc.sum_neg {A : Type} (l : List A) (f : A → ℝ) : (l.map fun x => -f x).sum = -(l.map f).sum := by
  induction l with
  | nil => simp
  | cons a l ih => rw [List.map_cons, List.map_cons, List.sum_cons, List.sum_cons, ih]; ring

theorem Rc.work_sum (h : Vec d → Vec d → ℝ) (X : List (TwoCharges d)) (hs : ∀ x ∈ X, ∀ y ∈ X, h x.pos y.pos = h y.pos x.pos) :
    (X.map fun x => x.q' * superpose h (X.map fun y => ⟨y.pos, y.q⟩) x.pos).sum
      = (X.map fun x => x.q * superpose h (X.map fun y => ⟨y.pos, y.q'⟩) x.pos).sum := by
  have e : ∀ (f g : TwoCharges d → ℝ), (X.map fun x => f x * superpose h (X.map fun y => ⟨y.pos, g y⟩) x.pos).sum
      = (X.map fun x => (X.map fun y => f x * g y * h x.pos y.pos).sum).sum := by
    intro f g
    refine congrArg List.sum (List.map_congr_left fun x _ => ?_)
    unfold superpose
    rw [List.map_map, ← List.sum_map_mul_left]
    refine congrArg List.sum (List.map_congr_left fun y _ => ?_)
    simp only [Function.comp_apply, smul_eq_mul]
    ring
  rw [e, e, Lin.sum_comm]
  refine congrArg List.sum (List.map_congr_left fun x hx => congrArg List.sum (List.map_congr_left fun y hy => ?_))
  rw [hs x hx y hy]
  ring

theorem Rc.mem_pos {X : List (TwoCharges d)} {S0 : List (Source d)} (hX : (X.map TwoCharges.pos).Perm (S0.map Source.pos)) {P : Vec d → Prop}
    (h : ∀ s ∈ S0, P s.pos) : ∀ x ∈ X, P x.pos := by
  intro x hx
  obtain ⟨s, hs, e⟩ := List.mem_map.mp (hX.mem_iff.mp (List.mem_map_of_mem (f := TwoCharges.pos) hx))
  rw [← e]; exact h s hs

theorem Rc.adaptive_of {O : Obs K ℝ} {t : K.T} {S0 : List (Source d)} {max p H : ℕ} {r : Box d} {P : ℕ → Vec d → Prop} {h : Vec d → Vec d → ℝ}
    (hS : AdaptiveSuperposed O t S0 max r p H P h) (hin : ∀ s ∈ S0, r.contains s.pos) (hP : ∀ n x, P n x)
    (hs : ∀ x y, r.contains x → r.contains y → h x y = h y x) : AdaptiveReciprocal O t S0 max p := by
  intro X e e' hX h1 h2
  obtain ⟨f1, T1, a1, -, b1⟩ := hS _ e (by simpa [Function.comp_def] using hX) h1
  obtain ⟨f2, T2, a2, -, b2⟩ := hS _ e' (by simpa [Function.comp_def] using hX) h2
  have hm := Rc.mem_pos hX hin
  refine ⟨f1 + f2, T1, T2, fun fuel hf sch hsch => ⟨a1 fuel (by omega) sch hsch, a2 fuel (by omega) sch hsch⟩, fun grav =>
    ⟨fun y => if grav then superpose h (X.map fun x => ⟨x.pos, x.q⟩) y else -superpose h (X.map fun x => ⟨x.pos, x.q⟩) y,
      fun y => if grav then superpose h (X.map fun x => ⟨x.pos, x.q'⟩) y else -superpose h (X.map fun x => ⟨x.pos, x.q'⟩) y, fun x hx cur fuel hf => ⟨b1 x.pos (hm x hx) (hP _ _) grav cur fuel (by omega), b2 x.pos (hm x hx) (hP _ _) grav cur fuel (by omega)⟩, ?_⟩⟩
  have e := Rc.work_sum h X fun x hx y hy => hs _ _ (hm x hx) (hm y hy)
  cases grav
  · simp only [Bool.false_eq_true, if_false, mul_neg, Rc.sum_neg]
    rw [e]
  · exact e

theorem Rc.balanced_of {O : Obs K ℝ} {t : K.T} {S0 : List (Source d)} {perCell p : ℕ} {r : Box d} {P : Vec d → Prop} {h : Vec d → Vec d → ℝ}
    (hS : BalancedSuperposed O t S0 perCell r p P h) (hin : ∀ s ∈ S0, r.containsHO s.pos) (hP : ∀ x, P x)
    (hs : ∀ x y, r.contains x → r.contains y → h x y = h y x) : BalancedReciprocal O t S0 perCell p := by
  intro X e e' hX h1 h2
  obtain ⟨f1, T1, a1, b1⟩ := hS _ e (by simpa [Function.comp_def] using hX) h1
  obtain ⟨f2, T2, a2, b2⟩ := hS _ e' (by simpa [Function.comp_def] using hX) h2
  have hm := Rc.mem_pos hX hin
  refine ⟨f1 + f2, T1, T2, fun fuel hf sch hsch => ⟨a1 fuel (by omega) sch hsch, a2 fuel (by omega) sch hsch⟩, fun grav =>
    ⟨fun y => if grav then superpose h (X.map fun x => ⟨x.pos, x.q⟩) y else -superpose h (X.map fun x => ⟨x.pos, x.q⟩) y,
      fun y => if grav then superpose h (X.map fun x => ⟨x.pos, x.q'⟩) y else -superpose h (X.map fun x => ⟨x.pos, x.q'⟩) y, fun x hx => ⟨b1 x.pos (hm x hx) (hP _) grav, b2 x.pos (hm x hx) (hP _) grav⟩, ?_⟩⟩
  have e := Rc.work_sum h X fun x hx y hy => hs _ _ (containsHO_contains (hm x hx)) (containsHO_contains (hm y hy))
  cases grav
  · simp only [Bool.false_eq_true, if_false, mul_neg, Rc.sum_neg]
    rw [e]
  · exact e

end

/-! ## Trees whose conversions are symmetric -/

section
variable {d p : ℕ}

theorem Rc.adaptive {K : Kit (d + 1)} {O : Obs K ℝ} {L : FmmLaws K O p} {Q : LinLaws L} (H : RecipLaws Q)
    (hm : ∀ a b u y, a ≠ b → Q.m2l a b ⟨u, 1⟩ y = Q.m2l b a ⟨y, 1⟩ u) (hadm : ∀ c x, L.adm c x) {t : K.T} (ht : L.good t)
    {S0 : List (Source (d + 1))} {max : ℕ} {r : Box (d + 1)} (hI : AdaptiveInput S0 max r) : AdaptiveReciprocal O t S0 max p := by
  rcases Nat.lt_or_ge max S0.length with hN | hN
  · obtain ⟨hh, k, h1, h2, h3, h4, h5⟩ := adaptive_depths hI hN
    refine Rc.adaptive_of (adaptive_superposed Q ht hI hN h1 h2 h3 h4) hI.inside (fun _ _ _ _ => hadm _ _) fun x y hx hy => ?_
    have hA := Sc.adjOf_fmmTree r S0 max
    have e := Rc.kern_exchange H hA (hI.len_pos hN) (fun π hπ => Nat.lt_succ_of_le (h5 π hπ)) h3 h4 hx hy
    rw [Rc.conv_exchange hm hA (hI.len_pos hN) (h3 y) (h3 x), sub_self] at e
    exact sub_eq_zero.mp e
  · exact Rc.adaptive_of (adaptive_superposed_one Q ht hI hN) hI.inside (fun _ _ _ _ => hadm _ _) fun x y _ _ => H.p2p y x

theorem Rc.balanced {K : Kit d} {O : Obs K ℝ} {L : FmmLaws K O p} {Q : LinLaws L} (H : RecipLaws Q)
    (hm : ∀ a b u y, a ≠ b → Q.m2l a b ⟨u, 1⟩ y = Q.m2l b a ⟨y, 1⟩ u) (hadm : ∀ c x, L.adm c x) {t : K.T} (ht : L.good t) (hd : 2 ≤ d) (hd' : d ≤ 64)
    {S0 : List (Source d)} {perCell h : ℕ} {r : Box d} (hI : BalancedInput S0 perCell r h) (hr : 0 < r.len) (hmor : h < 64 / d) :
    BalancedReciprocal O t S0 perCell p := by
  rcases Nat.eq_zero_or_pos h with rfl | hh
  · exact Rc.balanced_of (balanced_superposed_one Q ht hd hd' hI) hI.inside (fun _ => hadm _ _) fun x y _ _ => H.p2p y x
  · refine Rc.balanced_of (balanced_superposed Q ht hd hI hh hr hmor) hI.inside (fun _ => hadm _ _) fun x y hx hy => ?_
    have hA := Sc.adjOf_fullTree r h
    have h3 : ∀ x : Vec d, (fullTree r h).Mem (route r x h) := fun x => (fullTree_mem r h _).mpr ⟨route_valid r x h, (route_length r x h).le⟩
    have h4 : ∀ x : Vec d, (fullTree r h).leaf (route r x h) = true := fun x => by simp [fullTree, route_length]
    have e := Rc.kern_exchange H hA hr (n := h + 1) (fun π hπ => Nat.lt_succ_of_le ((fullTree_mem r h π).mp hπ).2) (k := fun _ => h) h3 h4 hx hy
    rw [Rc.conv_exchange hm hA hr (h3 y) (h3 x), sub_self] at e
    exact sub_eq_zero.mp e

end

/-! ## C119: space -/

section
variable {t : Stat3} {S0 : List (Source 3)} {r : Box 3} {p : ℕ}

/-- **C119** Adaptive tree in space: reciprocity of the computed potentials, for every expansion order. -/
theorem C119_adaptive_3d (ht : Reachable3 t) {max : ℕ} (hI : AdaptiveInput S0 max r) (hp0 : 1 ≤ p) (hp : p ≤ 42) : AdaptiveReciprocal pot3 t S0 max p :=
  Rc.adaptive (Rc.recip3 p hp) (fun a b u y _ => Rc.m2l_swap3 p hp a b u y) (fun _ _ => trivial) ⟨ht.good.1, Or.inl hp0⟩ hI

/-- **C119** Balanced tree in space. -/
theorem C119_balanced_3d (ht : Reachable3 t) {perCell h : ℕ} (hI : BalancedInput S0 perCell r h) (hp0 : 1 ≤ p) (hp : p ≤ 42) :
    BalancedReciprocal pot3 t S0 perCell p := by
  have hs := hI.small
  exact Rc.balanced (Rc.recip3 p hp) (fun a b u y _ => Rc.m2l_swap3 p hp a b u y) (fun _ _ => trivial) ⟨ht.good.1, Or.inl hp0⟩ (by norm_num) (by norm_num)
    hI hI.len_pos (by omega)

end

/-! ## C120: the plane -/

section
variable {t : BinomialTable} {S0 : List (Source 2)} {r : Box 2}

/-- **C120** Plane, order 1: reciprocity holds, for the adaptive tree. -/
theorem C120_order_one_adaptive (ht : Reachable t) {max : ℕ} (hI : AdaptiveInput S0 max r) : AdaptiveReciprocal pot2 t S0 max 1 :=
  Rc.adaptive (Rc.recip2 1 one_pos (by norm_num) _) (Rc.m2l_swap_one _) (fun _ _ => trivial) ⟨ht.good, rfl⟩ hI

/-- **C120** Plane, order 1: the balanced tree. -/
theorem C120_order_one_balanced (ht : Reachable t) {perCell h : ℕ} (hI : BalancedInput S0 perCell r h) : BalancedReciprocal pot2 t S0 perCell 1 := by
  have hs := hI.small
  exact Rc.balanced (Rc.recip2 1 one_pos (by norm_num) _) (Rc.m2l_swap_one _) (fun _ _ => trivial) ⟨ht.good, rfl⟩ le_rfl (by norm_num) hI hI.len_pos
    (by omega)

end

/-- **C120** The highest coefficient of a multipole expansion enters only the constant term of the local expansion it is converted to: two expansions
of order `p` that differ only in their coefficient of order `p` are converted to local expansions that agree in all coefficients but the first. -/
theorem C120_highest_coefficient {t t1 t2 : BinomialTable} (ht : Reachable t) {p : ℕ} (hp0 : 1 ≤ p) (hp : p ≤ 1029) {e e' f f' : Exp2} {c : ℂ}
    (he : e.order = p ∧ e.center = c ∧ e.coeffs.size = p + 1) (he' : e'.order = p ∧ e'.center = c ∧ e'.coeffs.size = p + 1)
    (hk : ∀ k < p, e.coeffs.val k = e'.coeffs.val k) {center : Vec 2} (hc : c ≠ toC center)
    (h1 : Exp2.leOfMe t center e = .ok (t1, f)) (h2 : Exp2.leOfMe t center e' = .ok (t2, f')) :
    ∀ l, 1 ≤ l → l ≤ p → f.coeffs.val l = f'.coeffs.val l := by
  intro l hl1 hl2
  obtain ⟨u, g, a1, -, a3, -, a5⟩ := Exp2.leOfMe_ok t ht.good (a := e.coeffs.val) ⟨he.1, he.2.1, he.2.2, fun _ _ => rfl⟩ hp hp0 center hc
  obtain ⟨u', g', b1, -, b3, -, b5⟩ := Exp2.leOfMe_ok t ht.good (a := e'.coeffs.val) ⟨he'.1, he'.2.1, he'.2.2, fun _ _ => rfl⟩ hp hp0 center hc
  have e1 := Except.ok.inj (h1.symm.trans a1)
  have e2 := Except.ok.inj (h2.symm.trans b1)
  rw [Prod.mk.injEq] at e1 e2
  rw [e1.2, e2.2, a5.val l hl2, b5.val l hl2, a3, b3]
  unfold Exp2.m2lCoeff
  rw [if_neg (by omega), if_neg (by omega), hk 0 (by omega)]
  congr 2
  refine Finset.sum_congr rfl fun i hi => ?_
  rw [Finset.mem_range] at hi
  rw [hk (i + 1) (by omega)]

/-! ### Higher orders -/

/-- The positions of `S5`, a unit charge at `(-1, -1)`, and one at `(1/2, 1/2)`. -/
noncomputable def X120 : List (TwoCharges 2) :=
  [⟨![1, 1], 0, 0⟩, ⟨![-1, 1], 0, 0⟩, ⟨![1, -1], 0, 0⟩, ⟨![-1, -1], 1, 0⟩, ⟨![1 / 2, 1 / 2], 0, 1⟩]

namespace Rc

theorem exactTerm_zero (p : ℕ) (r : Box 2) (x : Vec 2) (s : Source 2) (hs : s.q = 0) : exactTerm p r x s = 0 := by
  unfold exactTerm
  split
  · unfold directTerm kernelSpec
    rw [hs]; simp
  · unfold m2lVal
    have : meCoeff (toC (boxAt r (route r s.pos 2)).center) [s] = fun _ => 0 := by
      funext k; simp [meCoeff, hs]
    rw [this]
    simp [leSum, Exp2.m2lCoeff]

theorem order120 (p : ℕ) (hp : p ≤ 1029) : expansionOrder 1 (1 / 2 ^ p) = .ok p := by
  have h0 : (0 : ℝ) < 2 ^ p := by positivity
  have h1 : (1 : ℝ) ≤ 2 ^ p := one_le_pow₀ (by norm_num)
  refine order_eq 1 _ p (by positivity) ?_ (by rw [mul_one_div, div_self h0.ne']) ?_ (by omega)
  · rw [div_div, div_lt_one (by positivity)]; linarith
  · intro q hq
    rw [mul_one_div, div_lt_one h0]
    exact pow_lt_pow_right₀ (by norm_num) hq

theorem tb31 : Nat.testBit 3 1 = true := by decide
theorem or21 : 2 ||| 1 = 3 := by decide

theorem route_x120 : route box5 ![1 / 2, 1 / 2] 2 = [0, 3] := by
  have h1 : route box5 ![1 / 2, 1 / 2] 1 = [3] := by
    simp only [route, boxAt]
    norm_num [getOrthant, List.finRange, box5, paddingFactor, sh11, or21]
  rw [route, h1]
  simp only [boxAt]
  norm_num [getOrthant, List.finRange, box5, paddingFactor, Box.child, childDir, tb21, tb11, tb31]

theorem route_y120 : route box5 ![-1, -1] 2 = [0, 0] := by
  have h1 : route box5 ![-1, -1] 1 = [0] := by
    simp only [route, boxAt]
    norm_num [getOrthant, List.finRange, box5, paddingFactor]
  rw [route, h1]
  simp only [boxAt]
  norm_num [getOrthant, List.finRange, box5, paddingFactor, Box.child, childDir, tb21, tb11]

theorem box_x120 : boxAt box5 [0, 3] = ⟨fun _ => (1 + paddingFactor) / 4, (1 + paddingFactor) / 2⟩ := by
  simp only [boxAt, Box.child, box5]
  congr 1
  · funext j; fin_cases j <;> norm_num [childDir, paddingFactor, tb31]
  · ring

theorem box_y120 : boxAt box5 [0, 0] = ⟨fun _ => -(3 * (1 + paddingFactor) / 4), (1 + paddingFactor) / 2⟩ := by
  simp only [boxAt, Box.child, box5]
  congr 1
  · funext j; fin_cases j <;> norm_num [childDir, paddingFactor]
  · ring

theorem not_adj120 : ¬ (boxAt box5 [0, 3]).adjacent (boxAt box5 [0, 0]) := by
  rw [box_x120, box_y120]
  intro h
  have := h 0
  simp only [Box.lower_apply, Box.upper_apply, Pi.sub_apply, Vec.fill] at this
  norm_num [paddingFactor] at this

theorem not_adj120' : ¬ (boxAt box5 [0, 0]).adjacent (boxAt box5 [0, 3]) := by
  rw [box_x120, box_y120]
  intro h
  have := h 0
  simp only [Box.lower_apply, Box.upper_apply, Pi.sub_apply, Vec.fill] at this
  norm_num [paddingFactor] at this

theorem diag_div {a b : ℝ} (hb : b ≠ 0) : (⟨a, a⟩ : ℂ) / ⟨b, b⟩ = ((a / b : ℝ) : ℂ) := by
  have h0 : (⟨b, b⟩ : ℂ) ≠ 0 := fun h => hb (congrArg Complex.re h)
  rw [div_eq_iff h0]
  apply Complex.ext <;> simp <;> field_simp

/-- The two potentials differ. -/
theorem gap120 {p : ℕ} (hp2 : 2 ≤ p) (hp : p ≤ 1029) :
    exactTerm p box5 ![1 / 2, 1 / 2] ⟨![-1, -1], 1⟩ ≠ exactTerm p box5 ![-1, -1] ⟨![1 / 2, 1 / 2], 1⟩ := by
  unfold exactTerm
  simp only
  rw [route_x120, route_y120, if_neg not_adj120, if_neg not_adj120', box_x120, box_y120]
  simp only
  set a : Vec 2 := fun _ => -(3 * (1 + paddingFactor) / 4) with ha
  set b : Vec 2 := fun _ => (1 + paddingFactor) / 4 with hb
  have hab : a ≠ b := by
    intro h
    have := congrFun h 0
    norm_num [ha, hb, paddingFactor] at this
  have e1 : ∀ (a b u y : Vec 2), m2lVal p b a ⟨u, 1⟩ y = (lin2Pot p (by omega) hp p).m2l a b ⟨u, 1⟩ y := by
    intro a b u y
    show _ = (1 : ℝ) • _
    rw [one_smul]; rfl
  rw [e1, e1]
  refine sub_ne_zero.mp ?_
  rw [m2l_swap_gap hp2 _ _ _ _ _ _ hab]
  have z : toC a - toC b = ⟨-(1 + paddingFactor), -(1 + paddingFactor)⟩ := by
    apply Complex.ext <;> simp [toC, ha, hb] <;> ring
  have u : -(toC ![-1, -1] - toC a) = ⟨1 / 4 - 3 / 4 * paddingFactor, 1 / 4 - 3 / 4 * paddingFactor⟩ := by
    apply Complex.ext <;> simp [toC, ha] <;> ring
  have y : toC ![1 / 2, 1 / 2] - toC b = ⟨1 / 4 - 1 / 4 * paddingFactor, 1 / 4 - 1 / 4 * paddingFactor⟩ := by
    apply Complex.ext <;> simp [toC, hb] <;> ring
  have hz : -(1 + paddingFactor) ≠ 0 := by norm_num [paddingFactor]
  rw [z, u, y, diag_div hz, diag_div hz, ← Complex.ofReal_pow, ← Complex.ofReal_pow, ← Complex.ofReal_mul, ← Complex.ofReal_mul, ← Complex.ofReal_sub,
    Complex.ofReal_re]
  obtain ⟨q, rfl⟩ : ∃ q, p = q + 1 := ⟨p - 1, by omega⟩
  set α := (1 / 4 - 3 / 4 * paddingFactor) / -(1 + paddingFactor) with hα
  set β := (1 / 4 - 1 / 4 * paddingFactor) / -(1 + paddingFactor) with hβ
  have h1 : 0 < -α := by rw [hα]; norm_num [paddingFactor]
  have h2 : -α < -β := by rw [hα, hβ]; norm_num [paddingFactor]
  have h3 : (-α) ^ q < (-β) ^ q := pow_lt_pow_left₀ h2 h1.le (by omega)
  have h4 : α ^ (q + 1) * β - β ^ (q + 1) * α = (-1) ^ q * (-α * -β * ((-α) ^ q - (-β) ^ q)) := by
    rw [neg_pow α, neg_pow β]
    have : ((-1 : ℝ) ^ q) * (-1) ^ q = 1 := by rw [← mul_pow]; norm_num
    linear_combination -(α ^ (q + 1) * β - β ^ (q + 1) * α) * this
  rw [h4]
  refine mul_ne_zero (pow_ne_zero _ (by norm_num)) (mul_ne_zero (mul_pos h1 (h1.trans h2)).ne' (sub_ne_zero.mpr h3.ne))

theorem one120 {X : List (Source 2)} {p : ℕ} (hp0 : 0 < p) (hp : p ≤ 1029) (hX : (X.map Source.pos).Perm (S5.map Source.pos))
    (hX1 : totalStrength X = 1) {T : BalancedFmm kit2} {f : ℕ}
    (hT : ∀ fuel ≥ f, ∀ sch, Schedule sch → balancedFmm kit2 fuel sch BinomialTable.init X 1 (1 / 2 ^ p) = .ok T) {x : Vec 2} (hx : box5.containsHO x) :
    balancedEval pot2 true T x = .ok (X.map (exactTerm p box5 x)).sum := by
  have hI : BalancedInput X 1 box5 2 := by
    refine ⟨by rw [Lin.rootBox_perm hX]; exact S5_box, Lin.inside_congr hX S5_insideHO, ?_, by norm_num⟩
    rw [Lin.length_congr hX]; exact height5
  obtain ⟨g, T', h1, h2⟩ := balanced_two_exact (t := BinomialTable.init) (p := p) ⟨reachable_init.good, Nat.zero_le _⟩ hp0 hp hI hI.len_pos
    (by rw [hX1]; exact order120 p hp)
  have e := (hT (f + g) (by omega) (fun _ l => l) fun _ l => List.Perm.refl l).symm.trans (h1 (f + g) (by omega) (fun _ l => l) fun _ l => List.Perm.refl l)
  rw [Except.ok.inj e]
  exact h2 x hx

end Rc


/-- **C120** Reciprocity fails in the plane for every order from 2 on: in a fresh program, a unit charge at `(-1, -1)` and one at `(1/2, 1/2)` do not have
the same computed potential at the position of the other. -/
theorem C120_asymmetric {p : ℕ} (hp2 : 2 ≤ p) (hp : p ≤ 1029) :
    BalancedInput S5 1 box5 2 ∧ ¬ BalancedReciprocal pot2 BinomialTable.init S5 1 p := by
  refine ⟨S5_balanced, fun H => ?_⟩
  have s1 : totalStrength (X120.map fun x => ⟨x.pos, x.q⟩) = 1 := by rw [totalStrength_eq]; simp [X120]
  have s2 : totalStrength (X120.map fun x => ⟨x.pos, x.q'⟩) = 1 := by rw [totalStrength_eq]; simp [X120]
  have hX : (X120.map TwoCharges.pos).Perm (S5.map Source.pos) := by simp [X120, S5]
  obtain ⟨f, T, T', h1, h2⟩ := H X120 (1 / 2 ^ p) (1 / 2 ^ p) hX (by rw [s1]; exact Rc.order120 p hp) (by rw [s2]; exact Rc.order120 p hp)
  obtain ⟨v, v', h3, h4⟩ := h2 true
  have hx : box5.containsHO ![1 / 2, 1 / 2] := S5_insideHO ⟨![1 / 2, 1 / 2], 1⟩ (by simp [S5])
  have hy : box5.containsHO ![-1, -1] := S5_insideHO ⟨![-1, -1], 1⟩ (by simp [S5])
  have hp0 : 0 < p := by omega
  have e1 := Rc.one120 (f := f) (T := T) hp0 hp (by simpa [Function.comp_def] using hX) s1 (fun fuel hf sch hs => (h1 fuel hf sch hs).1) hx
  have e2 := Rc.one120 (f := f) (T := T') hp0 hp (by simpa [Function.comp_def] using hX) s2 (fun fuel hf sch hs => (h1 fuel hf sch hs).2) hy
  have e3 := Except.ok.inj ((h3 ⟨![1 / 2, 1 / 2], 0, 1⟩ (by simp [X120])).1.symm.trans e1)
  have e4 := Except.ok.inj ((h3 ⟨![-1, -1], 1, 0⟩ (by simp [X120])).2.symm.trans e2)
  simp only [X120, List.map_cons, List.map_nil, List.sum_cons, List.sum_nil, zero_mul, one_mul, zero_add, add_zero] at h4 e3 e4
  rw [Rc.exactTerm_zero _ _ _ ⟨![1, 1], 0⟩ rfl, Rc.exactTerm_zero _ _ _ ⟨![-1, 1], 0⟩ rfl, Rc.exactTerm_zero _ _ _ ⟨![1, -1], 0⟩ rfl] at e3 e4
  rw [Rc.exactTerm_zero _ _ _ ⟨![1 / 2, 1 / 2], 0⟩ rfl] at e3
  rw [Rc.exactTerm_zero _ _ _ ⟨![-1, -1], 0⟩ rfl] at e4
  simp only [zero_add, add_zero] at e3 e4
  exact Rc.gap120 hp2 hp (e3.symm.trans (h4.trans e4))

/-! ## Non-vacuity -/

/-- `C120_highest_coefficient`: the expansions with coefficients `1, 0` and `1, 1` about the point 1. -/
example : ∃ t1 t2 f f', Exp2.leOfMe BinomialTable.init 0 ⟨1, 1, ⟨2, fun k => if k = 0 then 1 else 0⟩⟩ = .ok (t1, f) ∧
    Exp2.leOfMe BinomialTable.init 0 ⟨1, 1, ⟨2, fun _ => 1⟩⟩ = .ok (t2, f') ∧ f.coeffs.val 1 = f'.coeffs.val 1 ∧ f.coeffs.val 0 ≠ f'.coeffs.val 0 := by
  have h0 : toC (0 : Vec 2) = 0 := by apply Complex.ext <;> simp [toC]
  have hc : (1 : ℂ) ≠ toC 0 := by rw [h0]; exact one_ne_zero
  obtain ⟨u, g, a1, -, -, -, a5⟩ := Exp2.leOfMe_ok BinomialTable.init reachable_init.good (e := ⟨1, 1, ⟨2, fun k => if k = 0 then 1 else 0⟩⟩)
    (a := fun k => if k = 0 then 1 else 0) (c := 1) (p := 1) ⟨rfl, rfl, rfl, fun _ _ => rfl⟩ (by norm_num) (by norm_num) 0 hc
  obtain ⟨u', g', b1, -, -, -, b5⟩ := Exp2.leOfMe_ok BinomialTable.init reachable_init.good (e := ⟨1, 1, ⟨2, fun _ => 1⟩⟩)
    (a := fun _ => 1) (c := 1) (p := 1) ⟨rfl, rfl, rfl, fun _ _ => rfl⟩ (by norm_num) (by norm_num) 0 hc
  refine ⟨u, u', g, g', a1, b1, C120_highest_coefficient reachable_init le_rfl (by norm_num) (c := 1) ⟨rfl, rfl, rfl⟩ ⟨rfl, rfl, rfl⟩ ?_ hc a1 b1 1 le_rfl le_rfl, ?_⟩
  · intro k hk
    have : k = 0 := by omega
    simp [this]
  · rw [a5.val 0 (by norm_num), b5.val 0 (by norm_num)]
    simp [Exp2.m2lCoeff, h0]

/-- The positions of `S9`, a unit charge at one end of the diagonal, and one at the other. -/
noncomputable def X9 : List (TwoCharges 3) :=
  [⟨![-4, -4, -4], 1, 0⟩, ⟨![-3, -3, -3], 0, 0⟩, ⟨![-2, -2, -2], 0, 0⟩, ⟨![-1, -1, -1], 0, 0⟩, ⟨![0, 0, 0], 0, 0⟩, ⟨![1, 1, 1], 0, 0⟩,
    ⟨![2, 2, 2], 0, 0⟩, ⟨![3, 3, 3], 0, 0⟩, ⟨![4, 4, 4], 0, 1⟩]

/-- Order 4 in space: the two charges have the same computed potential at the position of the other. -/
example : ∃ fuel T T' v, adaptiveFmm kit3 fuel (fun _ l => l) (Stat3.init 0 0 0) (X9.map fun x => ⟨x.pos, x.q⟩) 1 (1 / 2 ^ 4) = .ok T ∧
    adaptiveFmm kit3 fuel (fun _ l => l.reverse) (Stat3.init 0 0 0) (X9.map fun x => ⟨x.pos, x.q'⟩) 1 (1 / 2 ^ 4) = .ok T' ∧
    adaptiveEval pot3 fuel true T [] ![4, 4, 4] = .ok v ∧ adaptiveEval pot3 fuel true T' [] ![-4, -4, -4] = .ok v := by
  have s1 : totalStrength (X9.map fun x => ⟨x.pos, x.q⟩) = 1 := by rw [totalStrength_eq]; simp [X9]
  have s2 : totalStrength (X9.map fun x => ⟨x.pos, x.q'⟩) = 1 := by rw [totalStrength_eq]; simp [X9]
  obtain ⟨f, T, T', h1, h2⟩ := C119_adaptive_3d (p := 4) reachable3_init S9_adaptive (by norm_num) (by norm_num) X9 (1 / 2 ^ 4) (1 / 2 ^ 4) (by simp [X9, S9])
    (by rw [s1]; exact Rc.order120 4 (by norm_num)) (by rw [s2]; exact Rc.order120 4 (by norm_num))
  obtain ⟨v, v', h3, h4⟩ := h2 true
  have e1 := (h3 ⟨![4, 4, 4], 0, 1⟩ (by simp [X9]) [] f le_rfl).1
  have e2 := (h3 ⟨![-4, -4, -4], 1, 0⟩ (by simp [X9]) [] f le_rfl).2
  have h5 : v ![4, 4, 4] = v' ![-4, -4, -4] := by simpa [X9] using h4
  refine ⟨f, T, T', v ![4, 4, 4], (h1 f le_rfl _ fun _ l => List.Perm.refl l).1, (h1 f le_rfl _ fun _ l => l.reverse_perm).2, e1, ?_⟩
  rw [h5]; exact e2

/-- The same input for the balanced tree. -/
example : BalancedReciprocal pot3 (Stat3.init 0 0 0) S9 1 4 := C119_balanced_3d reachable3_init S9_balanced (by norm_num) (by norm_num)

/-- Order 1 in the plane: the five sources and unit charges. -/
example : AdaptiveReciprocal pot2 BinomialTable.init S5 1 1 := C120_order_one_adaptive reachable_init S5_adaptive

end FMM
