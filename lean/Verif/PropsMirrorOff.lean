import Verif.MiKits
import Verif.PropsAxes

/-!
# Reflections of axes (C127)

If no source and no evaluation point is on a face of a box of any level, reflecting any of the axes leaves the computed potential as it is and reflects
the computed force.  Without this condition the statement is false (`C126_reflection_false`): a point on the common face of two boxes belongs to the upper one,
and after the reflection it belongs to the other.  Real arithmetic.
-/

namespace FMM

section
variable {d : ℕ} {V : Type} [AddCommGroup V] [Module ℝ V] {K : Kit d} {O : Obs K V} {t : K.T} {S : List (Source d)} {r : Box d} {p : ℕ}
  {e : Fin d → ℝ} {φ : V →ₗ[ℝ] V}

theorem AdaptiveMirror.mono {max : ℕ} {P Q : ℕ → Vec d → Prop} (H : AdaptiveMirror O t S max r p P e φ) (h : ∀ H x, OffFaces r x → Q H x → P H x) :
    AdaptiveMirror O t S max r p Q e φ := by
  intro eps ho
  obtain ⟨f, T, T', a, e, b⟩ := H eps ho
  exact ⟨f, T, T', a, e, fun x hx hf hq => b x hx hf (h _ _ hf hq)⟩

theorem BalancedMirror.mono {perCell : ℕ} {P Q : Vec d → Prop} (H : BalancedMirror O t S perCell r p P e φ) (h : ∀ x, OffFaces r x → Q x → P x) :
    BalancedMirror O t S perCell r p Q e φ := by
  intro eps ho
  obtain ⟨f, T, T', a, b⟩ := H eps ho
  exact ⟨f, T, T', a, fun x hx hf hq => b x hx hf (h _ hf hq)⟩

end

section
variable {t : BinomialTable} {S : List (Source 2)} {r : Box 2} {p : ℕ} {e : Fin 2 → ℝ}

/-- **C127** Adaptive tree in the plane. -/
theorem C127_adaptive_2d (ht : Reachable t) {max : ℕ} (hI : AdaptiveInput S max r) (hp0 : 1 ≤ p) (hp : p ≤ 1029) (he : Signs e)
    (hS : ∀ s ∈ S, OffFaces r s.pos) :
    AdaptiveMirror pot2 t S max r p (fun _ _ => True) e LinearMap.id ∧
    ∀ feps : ℝ, 0 ≤ feps → AdaptiveMirror (force2 feps) t S max r p (fun _ _ => True) e (mL e) :=
  have : Fact (Signs e) := ⟨he⟩
  ⟨(adaptive_mirror (Mi.mi2Pot p hp0 hp _) he ⟨ht.good, rfl⟩ hI hS).mono fun _ _ _ _ _ _ => ⟨trivial, trivial⟩,
   fun _ hf => (adaptive_mirror (Mi.mi2Force p hp0 hp _ hf) he ⟨ht.good, rfl⟩ hI hS).mono fun _ _ _ _ _ _ => ⟨trivial, trivial⟩⟩

/-- **C127** Balanced tree in the plane. -/
theorem C127_balanced_2d (ht : Reachable t) {perCell h : ℕ} (hI : BalancedInput S perCell r h) (hp0 : 1 ≤ p) (hp : p ≤ 1029) (he : Signs e)
    (hS : ∀ s ∈ S, OffFaces r s.pos) :
    BalancedMirror pot2 t S perCell r p (fun _ => True) e LinearMap.id ∧
    ∀ feps : ℝ, 0 ≤ feps → BalancedMirror (force2 feps) t S perCell r p (fun _ => True) e (mL e) := by
  have hs := hI.small
  have : Fact (Signs e) := ⟨he⟩
  exact ⟨(balanced_mirror (Mi.mi2Pot p hp0 hp _) he ⟨ht.good, rfl⟩ le_rfl (by norm_num) hI hI.len_pos (by omega) hS).mono
      fun _ _ _ => ⟨trivial, trivial⟩,
   fun _ hf => (balanced_mirror (Mi.mi2Force p hp0 hp _ hf) he ⟨ht.good, rfl⟩ le_rfl (by norm_num) hI hI.len_pos (by omega) hS).mono
      fun _ _ _ => ⟨trivial, trivial⟩⟩

end

section
variable {t : Stat3} {S : List (Source 3)} {r : Box 3} {p : ℕ} {e : Fin 3 → ℝ}

theorem onAxis_mi (he : Signs e) {x c : Vec 3} (h : OnAxis (mV e x - mV e c)) : OnAxis (x - c) := by
  have hne : ∀ i, e i ≠ 0 := fun i => by rcases he i with h | h <;> rw [h] <;> norm_num
  rw [Mi.mV_sub] at h
  exact ⟨(mul_eq_zero.mp h.1).resolve_left (hne 0), (mul_eq_zero.mp h.2).resolve_left (hne 1)⟩

/-- The centres of the boxes are on faces of smaller boxes, so the lines where the force is undefined (C54) are excluded already. -/
theorem not_aligned_off {k : ℕ} {x : Vec 3} (h : OffFaces r x) : ¬ Aligned r k x := by
  rintro ⟨i, j, h1, -⟩
  refine h 0 (k + 1) (2 * i + 1) (h1.trans ?_)
  push_cast
  rw [pow_succ]
  field_simp

/-- **C127** Adaptive tree in space. -/
theorem C127_adaptive_3d (ht : Reachable3 t) {max : ℕ} (hI : AdaptiveInput S max r) (hp0 : 1 ≤ p) (hp : p ≤ 42) (he : Signs e)
    (hS : ∀ s ∈ S, OffFaces r s.pos) :
    AdaptiveMirror pot3 t S max r p (fun _ _ => True) e LinearMap.id ∧
    ∀ feps : ℝ, 0 ≤ feps → AdaptiveMirror (force3 feps) t S max r p (fun _ _ => True) e (mL e) :=
  ⟨(adaptive_mirror (Mi.mi3Pot he p hp) he ⟨ht.good.1, Or.inl hp0⟩ hI hS).mono fun _ _ _ _ _ _ => ⟨trivial, trivial⟩,
   fun _ hf => (adaptive_mirror (Mi.mi3Force he p hp0 hp hf) he ht.good.1 hI hS).mono
    fun _ _ ho _ π _ => ⟨fun h => not_aligned_off ho (aligned_of_onAxis h), fun h => not_aligned_off ho (aligned_of_onAxis (onAxis_mi he h))⟩⟩

/-- **C127** Balanced tree in space. -/
theorem C127_balanced_3d (ht : Reachable3 t) {perCell h : ℕ} (hI : BalancedInput S perCell r h) (hp0 : 1 ≤ p) (hp : p ≤ 42) (he : Signs e)
    (hS : ∀ s ∈ S, OffFaces r s.pos) :
    BalancedMirror pot3 t S perCell r p (fun _ => True) e LinearMap.id ∧
    ∀ feps : ℝ, 0 ≤ feps → BalancedMirror (force3 feps) t S perCell r p (fun _ => True) e (mL e) := by
  have hs := hI.small
  exact ⟨(balanced_mirror (Mi.mi3Pot he p hp) he ⟨ht.good.1, Or.inl hp0⟩ (by norm_num) (by norm_num) hI hI.len_pos (by omega) hS).mono
      fun _ _ _ => ⟨trivial, trivial⟩,
   fun _ hf => (balanced_mirror (Mi.mi3Force he p hp0 hp hf) he ht.good.1 (by norm_num) (by norm_num) hI hI.len_pos (by omega) hS).mono
      fun x ho _ => ⟨fun h => not_aligned_off ho (aligned_of_onAxis h), fun h => not_aligned_off ho (aligned_of_onAxis (onAxis_mi he h))⟩⟩

end

/-! ## Non-vacuity -/

/-- The faces of the padded boxes of side `2 n` around the origin have coordinates whose numerators are multiples of `11`. -/
theorem off_of_eleven {d : ℕ} {r : Box d} {n : ℕ} (hc : ∀ i, r.center i = 0) (hl : r.len = (1 + paddingFactor) * (2 * n)) {x : Vec d}
    (hx : ∀ i, ∃ a : ℤ, x i * 100000 = a ∧ ¬ (11 : ℤ) ∣ a) : OffFaces r x := by
  intro i k m h
  obtain ⟨a, ha, h11⟩ := hx i
  rw [Box.lower_apply, hc, hl] at h
  unfold paddingFactor at h
  have h2 : (2 : ℝ) ^ k ≠ 0 := by positivity
  have h3 : (a : ℝ) * 2 ^ k = 11 * (9091 * (2 * n * m - n * 2 ^ k)) := by
    have h5 : (m : ℝ) * ((1 + 1 / 100000) * (2 * n) / 2 ^ k) * 2 ^ k = m * ((1 + 1 / 100000) * (2 * n)) := by field_simp
    linear_combination -(2 : ℝ) ^ k * ha + 100000 * 2 ^ k * h + 100000 * h5
  have h4 : a * 2 ^ k = 11 * (9091 * (2 * n * m - n * 2 ^ k)) := by exact_mod_cast h3
  have p11 : Prime (11 : ℤ) := by
    have := Nat.prime_iff_prime_int.mp (show Nat.Prime 11 by decide)
    exact_mod_cast this
  rcases p11.dvd_or_dvd (Dvd.intro _ h4.symm) with h5 | h5
  · exact h11 h5
  · have := p11.dvd_of_dvd_pow h5
    norm_num at this

theorem S5_off : ∀ s ∈ S5, OffFaces box5 s.pos := by
  intro s hs
  refine off_of_eleven (n := 1) (fun i => by simp [box5]) (by simp [box5]) fun i => ?_
  simp [S5] at hs
  rcases hs with rfl | rfl | rfl | rfl | rfl <;> fin_cases i <;>
    first
    | (refine ⟨100000, ?_, ?_⟩ <;> norm_num; done)
    | (refine ⟨-100000, ?_, ?_⟩ <;> norm_num; done)
    | (refine ⟨50000, ?_, ?_⟩ <;> norm_num; done)

/-- Five sources in the plane; the horizontal axis is reflected; force at a corner of the square. -/
example : ∃ fuel T T' v, adaptiveFmm kit2 fuel (fun _ l => l) BinomialTable.init S5 1 1 = .ok T ∧
    adaptiveFmm kit2 fuel (fun _ l => l.reverse) BinomialTable.init (S5.map (Source.mi ![-1, 1])) 1 1 = .ok T' ∧
    adaptiveEval (force2 0) fuel true T S5 ![-1, 1] = .ok v ∧
    adaptiveEval (force2 0) fuel true T' (S5.map (Source.mi ![-1, 1])) ![1, 1] = .ok ![-v 0, v 1] := by
  have he : Signs (![-1, 1] : Fin 2 → ℝ) := fun i => by fin_cases i <;> simp
  obtain ⟨f, T, T', h1, -, h2⟩ := (C127_adaptive_2d (p := 3) reachable_init S5_adaptive (by norm_num) (by norm_num) he S5_off).2 0 le_rfl 1 S5_order
  obtain ⟨v, hv⟩ := h2 ![-1, 1] (S5_inside ⟨![-1, 1], -1⟩ (by simp [S5])) (S5_off ⟨![-1, 1], -1⟩ (by simp [S5])) trivial true
  refine ⟨f, T, T', v, (h1 f le_rfl _ fun _ l => List.Perm.refl l).1, (h1 f le_rfl _ fun _ l => l.reverse_perm).2, (hv S5 f le_rfl).1, ?_⟩
  have e1 : (![1, 1] : Vec 2) = mV ![-1, 1] ![-1, 1] := by funext j; fin_cases j <;> simp [mV]
  have e2 : (![-v 0, v 1] : Vec 2) = mL ![-1, 1] v := by
    funext j
    show _ = (![-1, 1] : Fin 2 → ℝ) j * v j
    fin_cases j <;> simp
  rw [e1, e2]
  exact (hv S5 f le_rfl).2

/-- Nine sources on a line in space, none on a face. -/
noncomputable def S9o : List (Source 3) :=
  [⟨![-4, -4, -4], 1⟩, ⟨![-3, -3, -3], -1⟩, ⟨![-2, -2, -2], 1⟩, ⟨![-1, -1, -1], -1⟩, ⟨![1 / 2, 1 / 2, 1 / 2], 1⟩, ⟨![1, 1, 1], -1⟩,
    ⟨![2, 2, 2], 1⟩, ⟨![3, 3, 3], -1⟩, ⟨![4, 4, 4], 1⟩]

theorem S9o_box : rootBox (S9o.map Source.pos) = some box9 := by
  refine rootBox_eq _ (fun _ => -4) (fun _ => 4) 8 ?_ ?_ ?_ ?_
  · intro i
    constructor
    · exact ⟨![-4, -4, -4], by simp [S9o], by fin_cases i <;> rfl⟩
    · intro p hp
      simp [S9o] at hp
      rcases hp with rfl | rfl | rfl | rfl | rfl | rfl | rfl | rfl | rfl <;> fin_cases i <;> norm_num
  · intro i
    constructor
    · exact ⟨![4, 4, 4], by simp [S9o], by fin_cases i <;> rfl⟩
    · intro p hp
      simp [S9o] at hp
      rcases hp with rfl | rfl | rfl | rfl | rfl | rfl | rfl | rfl | rfl <;> fin_cases i <;> norm_num
  · intro i; norm_num
  · exact ⟨0, by norm_num⟩

theorem S9o_insideHO : ∀ s ∈ S9o, box9.containsHO s.pos := by
  intro s hs
  simp [S9o] at hs
  rcases hs with rfl | rfl | rfl | rfl | rfl | rfl | rfl | rfl | rfl <;> intro i <;>
    rw [Box.lower_apply, Box.upper_apply] <;> fin_cases i <;> norm_num [box9, paddingFactor]

theorem S9o_balanced : BalancedInput S9o 1 box9 2 := ⟨S9o_box, S9o_insideHO, height9, by norm_num⟩

theorem S9o_order : expansionOrder (totalStrength S9o) 1 = .ok 4 := by
  have : totalStrength S9o = totalStrength S9 := by simp [totalStrength, S9o, S9]
  rw [this]
  exact S9_order

theorem S9o_off : ∀ s ∈ S9o, OffFaces box9 s.pos := by
  intro s hs
  refine off_of_eleven (n := 4) (fun i => by simp [box9]) (by simp [box9]; norm_num) fun i => ?_
  simp [S9o] at hs
  rcases hs with rfl | rfl | rfl | rfl | rfl | rfl | rfl | rfl | rfl <;> fin_cases i <;>
    first
    | (refine ⟨100000, ?_, ?_⟩ <;> norm_num; done)
    | (refine ⟨200000, ?_, ?_⟩ <;> norm_num; done)
    | (refine ⟨300000, ?_, ?_⟩ <;> norm_num; done)
    | (refine ⟨400000, ?_, ?_⟩ <;> norm_num; done)
    | (refine ⟨50000, ?_, ?_⟩ <;> norm_num; done)
    | (refine ⟨-100000, ?_, ?_⟩ <;> norm_num; done)
    | (refine ⟨-200000, ?_, ?_⟩ <;> norm_num; done)
    | (refine ⟨-300000, ?_, ?_⟩ <;> norm_num; done)
    | (refine ⟨-400000, ?_, ?_⟩ <;> norm_num; done)

/-- Reflection of the vertical axis in space. -/
example : ∃ fuel T T' v, balancedFmm kit3 fuel (fun _ l => l) (Stat3.init 0 0 0) S9o 1 1 = .ok T ∧
    balancedFmm kit3 fuel (fun _ l => l) (Stat3.init 0 0 0) (S9o.map (Source.mi ![1, 1, -1])) 1 1 = .ok T' ∧
    balancedEval pot3 false T ![4, 4, 4] = .ok v ∧ balancedEval pot3 false T' (mV ![1, 1, -1] ![4, 4, 4]) = .ok v := by
  have he : Signs (![1, 1, -1] : Fin 3 → ℝ) := fun i => by fin_cases i <;> simp
  obtain ⟨f, T, T', h1, h2⟩ := (C127_balanced_3d (p := 4) reachable3_init S9o_balanced (by norm_num) (by norm_num) he S9o_off).1 1 S9o_order
  obtain ⟨v, hv, hw⟩ := h2 ![4, 4, 4] (S9o_insideHO ⟨![4, 4, 4], 1⟩ (by simp [S9o])) (S9o_off ⟨![4, 4, 4], 1⟩ (by simp [S9o])) trivial false
  exact ⟨f, T, T', v, (h1 f le_rfl _ fun _ l => List.Perm.refl l).1, (h1 f le_rfl _ fun _ l => List.Perm.refl l).2, hv, hw⟩

/-- The force at the same point, all three axes reflected. -/
example : ∃ fuel T T' v, balancedFmm kit3 fuel (fun _ l => l) (Stat3.init 0 0 0) S9o 1 1 = .ok T ∧
    balancedFmm kit3 fuel (fun _ l => l) (Stat3.init 0 0 0) (S9o.map (Source.mi fun _ => -1)) 1 1 = .ok T' ∧
    balancedEval (force3 0) true T ![4, 4, 4] = .ok v ∧ balancedEval (force3 0) true T' (mV (fun _ => -1) ![4, 4, 4]) = .ok (-v) := by
  obtain ⟨f, T, T', h1, h2⟩ := (C127_balanced_3d (p := 4) (e := fun _ => -1) reachable3_init S9o_balanced (by norm_num) (by norm_num)
    (fun _ => Or.inr rfl) S9o_off).2 0 le_rfl 1 S9o_order
  obtain ⟨v, hv, hw⟩ := h2 ![4, 4, 4] (S9o_insideHO ⟨![4, 4, 4], 1⟩ (by simp [S9o])) (S9o_off ⟨![4, 4, 4], 1⟩ (by simp [S9o])) trivial true
  refine ⟨f, T, T', v, (h1 f le_rfl _ fun _ l => List.Perm.refl l).1, (h1 f le_rfl _ fun _ l => List.Perm.refl l).2, hv, hw.trans (congrArg _ ?_)⟩
  funext j
  show -1 * v j = -v j
  ring

end FMM
