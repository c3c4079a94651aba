import Verif.LinScaleKits
import Verif.PropsLinear
import Verif.PropsFmm3D

/-!
# Units of length (C117)

Multiplying all coordinates by `c > 0` changes the results as it changes the fields themselves, although the results are only approximations: potentials
in the plane by `log c` per unit of charge, forces in the plane and potentials in space by the factor `1 / c`, forces in space by `1 / c²`.  There is no
preferred length in the code: the padding of the root box and the tolerance of the adjacency test are relative.  The smoothing parameter has the dimension
of an area in the plane and of a volume in space.  Real arithmetic.
-/

namespace FMM

section
variable {d : ℕ} {V : Type} [AddCommGroup V] [Module ℝ V] {K : Kit d} {O O' : Obs K V} {t : K.T} {S : List (Source d)} {r : Box d} {p : ℕ} {c lam : ℝ}
  {kap : V}

theorem AdaptiveUnits.mono {max : ℕ} {P Q : ℕ → Vec d → Prop} (H : AdaptiveUnits O O' t S max r p P c lam kap) (h : ∀ H x, Q H x → P H x) :
    AdaptiveUnits O O' t S max r p Q c lam kap := by
  intro eps ho
  obtain ⟨f, T, T', a, e, b⟩ := H eps ho
  exact ⟨f, T, T', a, e, fun x hx hq => b x hx (h _ _ hq)⟩

theorem BalancedUnits.mono {perCell : ℕ} {P Q : Vec d → Prop} (H : BalancedUnits O O' t S perCell r p P c lam kap) (h : ∀ x, Q x → P x) :
    BalancedUnits O O' t S perCell r p Q c lam kap := by
  intro eps ho
  obtain ⟨f, T, T', a, b⟩ := H eps ho
  exact ⟨f, T, T', a, fun x hx hq => b x hx (h _ hq)⟩

end

section
variable {t : BinomialTable} {S : List (Source 2)} {r : Box 2} {p : ℕ} {c : ℝ}

/-- **C117** Adaptive tree in the plane. -/
theorem C117_adaptive_2d (ht : Reachable t) {max : ℕ} (hI : AdaptiveInput S max r) (hp0 : 1 ≤ p) (hp : p ≤ 1029) (hc : 0 < c) :
    AdaptiveUnits pot2 pot2 t S max r p (fun _ _ => True) c 1 (Real.log c) ∧
    ∀ feps : ℝ, 0 ≤ feps → AdaptiveUnits (force2 feps) (force2 (c ^ 2 * feps)) t S max r p (fun _ _ => True) c c⁻¹ 0 :=
  ⟨(adaptive_units (Sc.scale2Pot hc p hp0 hp _) hc (fun _ _ _ => trivial) ⟨ht.good, rfl⟩ ⟨ht.good, rfl⟩ hI).mono fun _ _ _ _ _ => trivial,
   fun feps hf => (adaptive_units (Sc.scale2Force hc p hp0 hp _ hf) hc (fun _ _ _ => trivial) ⟨ht.good, rfl⟩ ⟨ht.good, rfl⟩ hI).mono
    fun _ _ _ _ _ => trivial⟩

/-- **C117** Balanced tree in the plane. -/
theorem C117_balanced_2d (ht : Reachable t) {perCell h : ℕ} (hI : BalancedInput S perCell r h) (hp0 : 1 ≤ p) (hp : p ≤ 1029) (hc : 0 < c) :
    BalancedUnits pot2 pot2 t S perCell r p (fun _ => True) c 1 (Real.log c) ∧
    ∀ feps : ℝ, 0 ≤ feps → BalancedUnits (force2 feps) (force2 (c ^ 2 * feps)) t S perCell r p (fun _ => True) c c⁻¹ 0 := by
  have hs := hI.small
  exact ⟨(balanced_units (Sc.scale2Pot hc p hp0 hp _) hc (fun _ _ _ => trivial) ⟨ht.good, rfl⟩ ⟨ht.good, rfl⟩ le_rfl (by norm_num) hI hI.len_pos
      (by omega)).mono fun _ _ => trivial,
   fun feps hf => (balanced_units (Sc.scale2Force hc p hp0 hp _ hf) hc (fun _ _ _ => trivial) ⟨ht.good, rfl⟩ ⟨ht.good, rfl⟩ le_rfl (by norm_num) hI
      hI.len_pos (by omega)).mono fun _ _ => trivial⟩

end

section
variable {t : Stat3} {S : List (Source 3)} {r : Box 3} {p : ℕ} {c : ℝ}

theorem onAxis_scale (hc : 0 < c) (a x : Vec 3) (h : ¬ OnAxis (x - a)) : ¬ OnAxis (c • x - c • a) := by
  rw [← smul_sub]
  rintro ⟨h0, h1⟩
  simp only [Pi.smul_apply, smul_eq_mul, mul_eq_zero, hc.ne', false_or] at h0 h1
  exact h ⟨h0, h1⟩

/-- **C117** Adaptive tree in space; the force only off the vertical lines through the centres of the boxes (C54). -/
theorem C117_adaptive_3d (ht : Reachable3 t) {max : ℕ} (hI : AdaptiveInput S max r) (hp0 : 1 ≤ p) (hp : p ≤ 42) (hc : 0 < c) :
    AdaptiveUnits pot3 pot3 t S max r p (fun _ _ => True) c c⁻¹ 0 ∧
    ∀ feps : ℝ, 0 ≤ feps → AdaptiveUnits (force3 feps) (force3 (c ^ 3 * feps)) t S max r p (fun H x => ∀ k ≤ H, ¬ Aligned r k x) c ((c⁻¹) ^ 2) 0 :=
  ⟨(adaptive_units (Sc.scale3Pot hc p hp) hc (fun _ _ _ => trivial) ⟨ht.good.1, Or.inl hp0⟩ ⟨ht.good.1, Or.inl hp0⟩ hI).mono fun _ _ _ _ _ => trivial,
   fun feps hf => (adaptive_units (Sc.scale3Force hc p hp0 hp hf) hc (onAxis_scale hc) ht.good.1 ht.good.1 hI).mono
    fun _ _ hA π hπ h => hA π.length hπ (aligned_of_onAxis h)⟩

/-- **C117** Balanced tree in space. -/
theorem C117_balanced_3d (ht : Reachable3 t) {perCell h : ℕ} (hI : BalancedInput S perCell r h) (hp0 : 1 ≤ p) (hp : p ≤ 42) (hc : 0 < c) :
    BalancedUnits pot3 pot3 t S perCell r p (fun _ => True) c c⁻¹ 0 ∧
    ∀ feps : ℝ, 0 ≤ feps → BalancedUnits (force3 feps) (force3 (c ^ 3 * feps)) t S perCell r p (fun x => ¬ Aligned r h x) c ((c⁻¹) ^ 2) 0 := by
  have hs := hI.small
  exact ⟨(balanced_units (Sc.scale3Pot hc p hp) hc (fun _ _ _ => trivial) ⟨ht.good.1, Or.inl hp0⟩ ⟨ht.good.1, Or.inl hp0⟩ (by norm_num) (by norm_num) hI
      hI.len_pos (by omega)).mono fun _ _ => trivial,
   fun feps hf => (balanced_units (Sc.scale3Force hc p hp0 hp hf) hc (onAxis_scale hc) ht.good.1 ht.good.1 (by norm_num) (by norm_num) hI
      hI.len_pos (by omega)).mono fun x hA h => hA (by have := aligned_of_onAxis h; rwa [route_length] at this)⟩

end

/-! ## Non-vacuity -/

/-- Five sources in the plane, in units that are smaller by a factor 1000; at the position of a source of charge 1, total charge 3. -/
example : ∃ fuel T T' v, adaptiveFmm kit2 fuel (fun _ l => l) BinomialTable.init S5 1 1 = .ok T ∧
    adaptiveFmm kit2 fuel (fun _ l => l.reverse) BinomialTable.init (S5.map (Source.scale 1000)) 1 1 = .ok T' ∧
    adaptiveEval pot2 fuel true T S5 ![1, 1] = .ok v ∧
    adaptiveEval pot2 fuel true T' (S5.map (Source.scale 1000)) ((1000 : ℝ) • ![1, 1]) = .ok (v + 2 * Real.log 1000) := by
  obtain ⟨f, T, T', h1, -, h2⟩ := (C117_adaptive_2d (p := 3) (c := 1000) reachable_init S5_adaptive (by norm_num) (by norm_num) (by norm_num)).1 1 S5_order
  obtain ⟨v, hv⟩ := h2 ![1, 1] (S5_inside ⟨![1, 1], 1⟩ (by simp [S5])) trivial true
  refine ⟨f, T, T', v, (h1 f le_rfl _ fun _ l => List.Perm.refl l).1, (h1 f le_rfl _ fun _ l => l.reverse_perm).2, (hv S5 f le_rfl).1, ?_⟩
  rw [(hv S5 f le_rfl).2]
  have : chargeOff S5 ![1, 1] = 2 := by
    have e1 : (![-1, 1] : Vec 2) ≠ ![1, 1] := by intro h; have := congrFun h 0; norm_num at this
    have e2 : (![1, -1] : Vec 2) ≠ ![1, 1] := by intro h; have := congrFun h 1; norm_num at this
    have e3 : (![-1, -1] : Vec 2) ≠ ![1, 1] := by intro h; have := congrFun h 0; norm_num at this
    have e4 : (![1 / 2, 1 / 2] : Vec 2) ≠ ![1, 1] := by intro h; have := congrFun h 0; norm_num at this
    unfold chargeOff S5
    rw [List.filter_cons_of_neg (by simp), List.filter_cons_of_pos (by simpa using e1), List.filter_cons_of_pos (by simpa using e2),
      List.filter_cons_of_pos (by simpa using e3), List.filter_cons_of_pos (by simpa using e4)]
    norm_num
  rw [this]
  simp

/-- Nine sources in space, in units that are larger by a factor 2: the potential is doubled. -/
example : ∃ fuel T T' v, balancedFmm kit3 fuel (fun _ l => l) (Stat3.init 0 0 0) S9 1 1 = .ok T ∧
    balancedFmm kit3 fuel (fun _ l => l) (Stat3.init 0 0 0) (S9.map (Source.scale (1 / 2))) 1 1 = .ok T' ∧
    balancedEval pot3 false T ![4, 4, 4] = .ok v ∧ balancedEval pot3 false T' ((1 / 2 : ℝ) • ![4, 4, 4]) = .ok (2 * v) := by
  obtain ⟨f, T, T', h1, h2⟩ := (C117_balanced_3d (p := 4) (c := 1 / 2) reachable3_init S9_balanced (by norm_num) (by norm_num) (by norm_num)).1 1 S9_order
  obtain ⟨v, hv, hw⟩ := h2 ![4, 4, 4] (S9_insideHO ⟨![4, 4, 4], 1⟩ (by simp [S9])) trivial false
  refine ⟨f, T, T', v, (h1 f le_rfl _ fun _ l => List.Perm.refl l).1, (h1 f le_rfl _ fun _ l => List.Perm.refl l).2, hv, ?_⟩
  rw [hw]
  simp

end FMM
