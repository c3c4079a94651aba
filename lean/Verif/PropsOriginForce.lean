import Verif.PropsOrigin
import Verif.PropsFmm3DForce
import Mathlib.Analysis.InnerProductSpace.PiL2

/-!
# C125: the origin of coordinates and the force

If both origins admit the construction, the forces agree up to the sum of the two error bounds.
-/

namespace FMM
variable {d : ℕ} {w : Vec d}

theorem dist2_triangle' (x y z : Vec d) : dist2 x z ≤ dist2 x y + dist2 y z := by
  have h : ∀ a b : Vec d, dist2 a b = dist (WithLp.toLp 2 a) (WithLp.toLp 2 b) := fun a b => by
    rw [EuclideanSpace.dist_eq, dist2]
    congr 1
    refine Finset.sum_congr rfl fun i _ => ?_
    rw [Real.dist_eq, sq_abs]
  rw [h, h, h]
  exact dist_triangle _ _ _

theorem two_bounds_field {a b c : Vec d} {e f : ℝ} (h : dist2 a c ≤ e) (h' : dist2 b c ≤ f) : dist2 a b ≤ e + f :=
  (dist2_triangle' a c b).trans (add_le_add h (by rw [dist2_comm]; exact h'))

theorem Sh.directField (grav : Bool) (S : List (Source d)) (x : Vec d) (eps : ℝ) :
    FMM.directField grav (S.map (Source.shift w)) (x + w) eps = FMM.directField grav S x eps := by
  unfold FMM.directField
  rw [List.map_map]
  refine congrArg List.sum (List.map_congr_left fun s _ => ?_)
  have h2 : dist2 (s.shift w).pos (x + w) = dist2 s.pos x := by unfold dist2; simp [Source.shift]
  have h3 : (s.shift w).pos = x + w ↔ s.pos = x := add_left_inj w
  unfold directFieldTerm
  simp only [Function.comp_apply, h3]
  by_cases h : s.pos = x
  · rw [if_pos h, if_pos h]
  · rw [if_neg h, if_neg h]
    funext j
    unfold fieldSpec
    rw [h2]
    simp [Source.shift]

/-- **C125** If both origins admit the construction, the forces in the plane agree up to the sum of the error bounds. -/
theorem C125_force_adaptive_2d {S : List (Source 2)} {r r' : Box 2} {w : Vec 2} {t : BinomialTable} {max p : ℕ} {eps : ℝ}
    (ht : Reachable t) (hI : AdaptiveInput S max r) (hI' : AdaptiveInput (S.map (Source.shift w)) max r')
    (hord : expansionOrder (totalStrength S) eps = .ok p) (hp0 : 1 ≤ p) (hp : p ≤ 1029) :
    ∃ (fuel0 : ℕ) (T T' : AdaptiveFmm kit2), (∀ fuel ≥ fuel0, ∀ sch, Schedule sch → adaptiveFmm kit2 fuel sch t S max eps = .ok T ∧
        adaptiveFmm kit2 fuel sch t (S.map (Source.shift w)) max eps = .ok T') ∧
      ∀ x, r.contains x → r'.contains (x + w) → ∀ grav cur cur', ∃ v v',
        dist2 v v' ≤ (S.map fun s => |s.q|).sum * errForce p (r.len / 2 ^ T.height) +
          (S.map fun s => |s.q|).sum * errForce p (r'.len / 2 ^ T'.height) ∧
        ∀ fuel ≥ fuel0, adaptiveEval (force2 0) fuel grav T cur x = .ok v ∧ adaptiveEval (force2 0) fuel grav T' cur' (x + w) = .ok v' := by
  obtain ⟨f1, T1, a1, -, b1, -⟩ := C55_adaptive ht hI hord hp0 hp
  obtain ⟨f2, T2, a2, -, b2, -⟩ := C55_adaptive ht hI' (by rw [Sh.totalStrength]; exact hord) hp0 hp
  refine ⟨f1 + f2, T1, T2, fun fuel hf sch hs => ⟨a1 fuel (by omega) sch hs, a2 fuel (by omega) sch hs⟩, fun x hx hx' grav cur cur' => ?_⟩
  obtain ⟨v, c1, e1⟩ := b1 x hx grav cur
  obtain ⟨v', c2, e2⟩ := b2 _ hx' grav cur'
  rw [Sh.directField, Sh.absSum] at e2
  exact ⟨v, v', two_bounds_field e1 e2, fun fuel hf => ⟨c1 fuel (by omega), c2 fuel (by omega)⟩⟩

/-- **C125** The same for the balanced tree. -/
theorem C125_force_balanced_2d {S : List (Source 2)} {r r' : Box 2} {w : Vec 2} {t : BinomialTable} {perCell h p : ℕ} {eps : ℝ}
    (ht : Reachable t) (hI : BalancedInput S perCell r h) (hI' : BalancedInput (S.map (Source.shift w)) perCell r' h)
    (hord : expansionOrder (totalStrength S) eps = .ok p) (hp0 : 1 ≤ p) (hp : p ≤ 1029) :
    ∃ (fuel0 : ℕ) (T T' : BalancedFmm kit2), (∀ fuel ≥ fuel0, ∀ sch, Schedule sch → balancedFmm kit2 fuel sch t S perCell eps = .ok T ∧
        balancedFmm kit2 fuel sch t (S.map (Source.shift w)) perCell eps = .ok T') ∧
      ∀ x, r.containsHO x → r'.containsHO (x + w) → ∀ grav, ∃ v v',
        dist2 v v' ≤ 2 * ((S.map fun s => |s.q|).sum * errForce p (r.len / 2 ^ h)) ∧
        balancedEval (force2 0) grav T x = .ok v ∧ balancedEval (force2 0) grav T' (x + w) = .ok v' := by
  have hl : r'.len = r.len := by
    have := hI'.box
    rw [origin_box hI.box] at this
    rw [← Option.some.inj this]; rfl
  obtain ⟨f1, T1, a1, -, -, b1⟩ := C55_balanced ht hI hord hp0 hp
  obtain ⟨f2, T2, a2, -, -, b2⟩ := C55_balanced ht hI' (by rw [Sh.totalStrength]; exact hord) hp0 hp
  refine ⟨f1 + f2, T1, T2, fun fuel hf sch hs => ⟨a1 fuel (by omega) sch hs, a2 fuel (by omega) sch hs⟩, fun x hx hx' grav => ?_⟩
  obtain ⟨v, c1, e1⟩ := b1 x hx grav
  obtain ⟨v', c2, e2⟩ := b2 _ hx' grav
  rw [Sh.directField, Sh.absSum, hl] at e2
  exact ⟨v, v', by rw [two_mul]; exact two_bounds_field e1 e2, c1, c2⟩

/-- **C125** In space, at points that are vertically aligned with the centres of the boxes of neither tree. -/
theorem C125_force_adaptive_3d {S : List (Source 3)} {r r' : Box 3} {w : Vec 3} {t : kit3.T} {max p : ℕ} {eps : ℝ} (ht : Reachable3 t)
    (hI : AdaptiveInput S max r) (hI' : AdaptiveInput (S.map (Source.shift w)) max r')
    (hord : expansionOrder (totalStrength S) eps = .ok p) (hp0 : 1 ≤ p) (hp : p ≤ 42) :
    ∃ (fuel0 : ℕ) (T T' : AdaptiveFmm kit3), (∀ fuel ≥ fuel0, ∀ sch, Schedule sch → adaptiveFmm kit3 fuel sch t S max eps = .ok T ∧
        adaptiveFmm kit3 fuel sch t (S.map (Source.shift w)) max eps = .ok T') ∧
      ∀ x, r.contains x → r'.contains (x + w) → (∀ k ≤ T.height, ¬ Aligned r k x) → (∀ k ≤ T'.height, ¬ Aligned r' k (x + w)) →
        ∀ grav cur cur', ∃ v v',
          dist2 v v' ≤ (S.map fun s => |s.q|).sum * errForce3 p (r.len / 2 ^ T.height) +
            (S.map fun s => |s.q|).sum * errForce3 p (r'.len / 2 ^ T'.height) ∧
          ∀ fuel ≥ fuel0, adaptiveEval (force3 0) fuel grav T cur x = .ok v ∧ adaptiveEval (force3 0) fuel grav T' cur' (x + w) = .ok v' := by
  obtain ⟨f1, T1, a1, -, b1, -⟩ := C58_adaptive ht hI hord hp0 hp
  obtain ⟨f2, T2, a2, -, b2, -⟩ := C58_adaptive ht hI' (by rw [Sh.totalStrength]; exact hord) hp0 hp
  refine ⟨f1 + f2, T1, T2, fun fuel hf sch hs => ⟨a1 fuel (by omega) sch hs, a2 fuel (by omega) sch hs⟩, fun x hx hx' ha ha' grav cur cur' => ?_⟩
  obtain ⟨v, c1, e1⟩ := b1 x hx ha grav cur
  obtain ⟨v', c2, e2⟩ := b2 _ hx' ha' grav cur'
  rw [Sh.directField, Sh.absSum] at e2
  exact ⟨v, v', two_bounds_field e1 e2, fun fuel hf => ⟨c1 fuel (by omega), c2 fuel (by omega)⟩⟩

/-- **C125** The balanced tree in space. -/
theorem C125_force_balanced_3d {S : List (Source 3)} {r r' : Box 3} {w : Vec 3} {t : kit3.T} {perCell h p : ℕ} {eps : ℝ} (ht : Reachable3 t)
    (hI : BalancedInput S perCell r h) (hI' : BalancedInput (S.map (Source.shift w)) perCell r' h)
    (hord : expansionOrder (totalStrength S) eps = .ok p) (hp0 : 1 ≤ p) (hp : p ≤ 42) :
    ∃ (fuel0 : ℕ) (T T' : BalancedFmm kit3), (∀ fuel ≥ fuel0, ∀ sch, Schedule sch → balancedFmm kit3 fuel sch t S perCell eps = .ok T ∧
        balancedFmm kit3 fuel sch t (S.map (Source.shift w)) perCell eps = .ok T') ∧
      ∀ x, r.containsHO x → r'.containsHO (x + w) → ¬ Aligned r h x → ¬ Aligned r' h (x + w) → ∀ grav, ∃ v v',
        dist2 v v' ≤ 2 * ((S.map fun s => |s.q|).sum * errForce3 p (r.len / 2 ^ h)) ∧
        balancedEval (force3 0) grav T x = .ok v ∧ balancedEval (force3 0) grav T' (x + w) = .ok v' := by
  have hl : r'.len = r.len := by
    have := hI'.box
    rw [origin_box hI.box] at this
    rw [← Option.some.inj this]; rfl
  obtain ⟨f1, T1, a1, -, -, b1⟩ := C58_balanced ht hI hord hp0 hp
  obtain ⟨f2, T2, a2, -, -, b2⟩ := C58_balanced ht hI' (by rw [Sh.totalStrength]; exact hord) hp0 hp
  refine ⟨f1 + f2, T1, T2, fun fuel hf sch hs => ⟨a1 fuel (by omega) sch hs, a2 fuel (by omega) sch hs⟩, fun x hx hx' ha ha' grav => ?_⟩
  obtain ⟨v, c1, e1⟩ := b1 x hx ha grav
  obtain ⟨v', c2, e2⟩ := b2 _ hx' ha' grav
  rw [Sh.directField, Sh.absSum, hl] at e2
  exact ⟨v, v', by rw [two_mul]; exact two_bounds_field e1 e2, c1, c2⟩

/-- The five sources of the examples may be moved by `(1/10, 1/10)`: the forces at the point `(0, 0)` of the field agree up to the
bounds, for the adaptive tree and for the balanced one. -/
theorem S5_moved : (∃ r', AdaptiveInput (S5.map (Source.shift fun _ => 1 / 10)) 1 r' ∧ r'.contains (0 + fun _ => 1 / 10)) ∧
    ∃ r', BalancedInput (S5.map (Source.shift fun _ => 1 / 10)) 1 r' 2 ∧ r'.containsHO (0 + fun _ => 1 / 10) := by
  have h : ∀ s ∈ S5.map (Source.shift fun _ => 1 / 10), (box5.shift ((1 + paddingFactor) • fun _ => 1 / 10)).containsHO s.pos := by
    intro s hs
    simp only [S5, List.map_cons, List.map_nil, List.mem_cons, List.not_mem_nil, or_false] at hs
    rcases hs with rfl | rfl | rfl | rfl | rfl <;> intro i <;> rw [Box.lower_apply, Box.upper_apply] <;>
      simp only [Source.shift, Pi.add_apply] <;> fin_cases i <;> norm_num [box5, paddingFactor, Box.shift]
  have h0 : (box5.shift ((1 + paddingFactor) • fun _ => 1 / 10)).containsHO (0 + fun _ => 1 / 10) := by
    intro i
    rw [Box.lower_apply, Box.upper_apply]
    fin_cases i <;> norm_num [box5, paddingFactor, Box.shift]
  exact ⟨⟨_, ⟨origin_box S5_box, fun s hs => containsHO_contains (h s hs), Sh.mult S5_mult⟩, containsHO_contains h0⟩,
    ⟨_, ⟨origin_box S5_box, h, by rw [List.length_map]; exact height5, by norm_num⟩, h0⟩⟩

example : ∃ (T T' : AdaptiveFmm kit2) (r' : Box 2) (v v' : Vec 2) (fuel : ℕ),
    adaptiveFmm kit2 fuel (fun _ l => l) BinomialTable.init S5 1 1 = .ok T ∧
    adaptiveFmm kit2 fuel (fun _ l => l) BinomialTable.init (S5.map (Source.shift fun _ => 1 / 10)) 1 1 = .ok T' ∧
    adaptiveEval (force2 0) fuel false T [] 0 = .ok v ∧ adaptiveEval (force2 0) fuel false T' [] (0 + fun _ => 1 / 10) = .ok v' ∧
    dist2 v v' ≤ (S5.map fun s => |s.q|).sum * errForce 3 (box5.len / 2 ^ T.height) +
      (S5.map fun s => |s.q|).sum * errForce 3 (r'.len / 2 ^ T'.height) := by
  obtain ⟨r', hI', h0⟩ := S5_moved.1
  obtain ⟨f, T, T', h1, h2⟩ := C125_force_adaptive_2d reachable_init S5_adaptive hI' S5_order (by norm_num) (by norm_num)
  have hx : box5.contains 0 := by
    rw [Box.contains_iff]
    intro i
    fin_cases i <;> norm_num [box5, paddingFactor]
  obtain ⟨v, v', h3, h4⟩ := h2 0 hx h0 false [] []
  have h5 := h1 f le_rfl (fun _ l => l) fun _ l => List.Perm.refl l
  exact ⟨T, T', r', v, v', f, h5.1, h5.2, (h4 f le_rfl).1, (h4 f le_rfl).2, h3⟩

end FMM
