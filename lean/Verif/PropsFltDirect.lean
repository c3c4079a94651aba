import Verif.FltPairs
import Verif.FltIeee

/-!
# C73, C74: the direct sums in floating-point arithmetic
-/

namespace FMM

/-- **C73** The computed potential of a list of sources differs from the exact sum by at most `(1 + u)^(N + 6) - 1` times
the sum of `|q| (|log r| + 1)`; coincident sources contribute exactly zero. -/
theorem C73_potential {F : Flt} {u : ℝ} (hF : F.Ok u) (grav : Bool) (S : List (Source 2)) (x : Vec 2) :
    ∃ v, Fl.potentialSum F grav true S x = .ok v ∧
      |v - directPotential grav S x| ≤ ((1 + u) ^ (S.length + 6) - 1) * absPotential S x := by
  obtain ⟨v, h1, h2⟩ := Fl.potentialSum_safe hF grav S x
  exact ⟨v, h1, h2.1⟩

/-- **C73** Without the coincidence check, away from the sources. -/
theorem C73_potential_unguarded {F : Flt} {u : ℝ} (hF : F.Ok u) (grav : Bool) (S : List (Source 2)) (x : Vec 2)
    (hS : ∀ s ∈ S, s.pos ≠ x) :
    ∃ v, Fl.potentialSum F grav false S x = .ok v ∧
      |v - directPotential grav S x| ≤ ((1 + u) ^ (S.length + 6) - 1) * absPotential S x := by
  obtain ⟨v, h1, h2⟩ := Fl.potentialSum_unsafe hF grav S x hS
  exact ⟨v, h1, h2.1⟩

theorem dist2_toC (v w : Vec 2) : dist2 v w = ‖toC v - toC w‖ := (norm_toC_sub v w).symm

/-- **C73** The same for the force with smoothing `eps ≥ 0`: the error is at most `(1 + u)^(N + 13) - 1` times the sum of
the norms of the forces. -/
theorem C73_force {F : Flt} {u : ℝ} (hF : F.Ok u) (grav : Bool) (S : List (Source 2)) (x : Vec 2) (eps : ℝ)
    (he : 0 ≤ eps) :
    ∃ v, Fl.forcefieldSum F grav true S x eps = .ok v ∧
      dist2 v (directField grav S x eps) ≤ ((1 + u) ^ (S.length + 13) - 1) * absField S x eps := by
  obtain ⟨v, h1, h2⟩ := Fl.forcefieldSum_safe hF grav S x eps he
  exact ⟨v, h1, by rw [dist2_toC]; exact h2.1⟩

/-- **C73** Without the coincidence check, away from the sources. -/
theorem C73_force_unguarded {F : Flt} {u : ℝ} (hF : F.Ok u) (grav : Bool) (S : List (Source 2)) (x : Vec 2) (eps : ℝ)
    (he : 0 ≤ eps) (hS : ∀ s ∈ S, s.pos ≠ x) :
    ∃ v, Fl.forcefieldSum F grav false S x eps = .ok v ∧
      dist2 v (directField grav S x eps) ≤ ((1 + u) ^ (S.length + 13) - 1) * absField S x eps := by
  obtain ⟨v, h1, h2⟩ := Fl.forcefieldSum_unsafe hF grav S x eps he hS
  exact ⟨v, h1, by rw [dist2_toC]; exact h2.1⟩

/-- **C73** A single particle feels exactly no potential and no force at its own position, also after rounding. -/
theorem C73_self {F : Flt} {u : ℝ} (hF : F.Ok u) (grav : Bool) (s : Source 2) (eps : ℝ) (he : 0 ≤ eps) :
    Fl.potential F grav true s s.pos = .ok 0 ∧ Fl.forcefield F grav true s s.pos eps = .ok 0 := by
  obtain ⟨v, h1, h2⟩ := Fl.potential_safe hF grav s s.pos
  obtain ⟨w, h3, h4⟩ := Fl.forcefield_safe hF grav s s.pos eps he
  unfold absTerm directTerm at h2
  unfold absFieldTerm directFieldTerm at h4
  rw [if_pos rfl, if_pos rfl] at h2 h4
  have e1 : v = 0 := by simpa using h2.1
  have e2 : toC w = toC 0 := by
    have := h4.1
    rw [mul_zero] at this
    exact sub_eq_zero.mp (norm_le_zero_iff.mp this)
  exact ⟨by rw [h1, e1], by rw [h3, toC_injective e2]⟩

/-- **C73** For `double`s (round to nearest even, no overflow or underflow) and at most a billion sources the relative
error is below `10^-5` of the sum of `|q| (|log r| + 1)`. -/
theorem C73_double (grav : Bool) (S : List (Source 2)) (x : Vec 2) (hS : S.length ≤ 10 ^ 9) :
    ∃ v, Fl.potentialSum Flt.ieee grav true S x = .ok v ∧
      |v - directPotential grav S x| ≤ 1 / 10 ^ 5 * absPotential S x := by
  obtain ⟨v, h1, h2⟩ := C73_potential Flt.ieee_ok grav S x
  refine ⟨v, h1, h2.trans ?_⟩
  refine mul_le_mul_of_nonneg_right ?_ (List.sum_nonneg (by
    intro t ht
    obtain ⟨s, -, rfl⟩ := List.mem_map.mp ht
    exact absTerm_nonneg x s))
  -- (1 + v)^n ≤ exp (n v) ≤ 1 + 2 n v
  have hn : ((S.length + 6 : ℕ) : ℝ) * (1 / 2 ^ 49) ≤ 1 / (2 * 10 ^ 5) := by
    have : ((S.length + 6 : ℕ) : ℝ) ≤ 10 ^ 9 + 6 := by
      have : S.length + 6 ≤ 10 ^ 9 + 6 := by omega
      exact_mod_cast this
    calc ((S.length + 6 : ℕ) : ℝ) * (1 / 2 ^ 49) ≤ (10 ^ 9 + 6) * (1 / 2 ^ 49) :=
          mul_le_mul_of_nonneg_right this (by positivity)
      _ ≤ _ := by norm_num
  have key : ∀ (v : ℝ) (_ : 0 ≤ v) (n : ℕ), n * v ≤ 1 / 2 → (1 + v) ^ n ≤ 1 + 2 * (n * v) := by
    intro v hv n
    induction n with
    | zero => intro _; simp
    | succ n ih =>
      intro h
      push_cast at h ⊢
      have h0 : 0 ≤ (n : ℝ) * v := by positivity
      have := ih (by nlinarith)
      rw [pow_succ]
      have h2 : (1 + v) ^ n * (1 + v) ≤ (1 + 2 * (n * v)) * (1 + v) := mul_le_mul_of_nonneg_right this (by linarith)
      nlinarith
  have := key (1 / 2 ^ 49) (by positivity) (S.length + 6) (hn.trans (by norm_num))
  linarith

/-- **C74** The parallel all-pairs loop for the energies: for distinct positions there is a result, and whatever the
assignment of iterations to threads and the interleaving of the atomic updates, the error of every entry is at most
`(1 + u)^(N + 7) - 1` times the sum of `|q_i q_j| (|log r_ij| + 1)`. -/
theorem C74_energies {F : Flt} {u : ℝ} (hF : F.Ok u) (grav : Bool) (S : List (Source 2)) (hS : Distinct S) :
    (∃ res, Fl.EnergyResult F grav S res) ∧
    ∀ res, Fl.EnergyResult F grav S res → ∀ i : Fin S.length,
      |res i - ∑ j ∈ Finset.univ.erase i, (S.get i).q * kernelSpec 2 grav (S.get j).q (dist2 (S.get j).pos (S.get i).pos)|
        ≤ ((1 + u) ^ (S.length + 7) - 1) *
          ∑ j ∈ Finset.univ.erase i, |(S.get i).q| * (|(S.get j).q| * (|Real.log (dist2 (S.get j).pos (S.get i).pos)| + 1)) :=
  ⟨(Fl.energies hF grav S hS).1, fun res h i => ((Fl.energies hF grav S hS).2 res h i).1⟩

/-- **C74** Two executions of the parallel loop agree up to twice that bound. -/
theorem C74_schedules {F : Flt} {u : ℝ} (hF : F.Ok u) (grav : Bool) (S : List (Source 2)) (hS : Distinct S)
    (res res' : ℕ → ℝ) (h : Fl.EnergyResult F grav S res) (h' : Fl.EnergyResult F grav S res') (i : Fin S.length) :
    |res i - res' i| ≤ 2 * (((1 + u) ^ (S.length + 7) - 1) *
      ∑ j ∈ Finset.univ.erase i, |(S.get i).q| * (|(S.get j).q| * (|Real.log (dist2 (S.get j).pos (S.get i).pos)| + 1))) := by
  have h1 := (C74_energies hF grav S hS).2 res h i
  have h2 := (C74_energies hF grav S hS).2 res' h' i
  rw [abs_sub_comm] at h2
  refine (abs_sub_le _ _ _).trans ((add_le_add h1 h2).trans ?_)
  rw [two_mul]

/-- **C74** The same for the forces, component by component. -/
theorem C74_forces {F : Flt} {u : ℝ} (hF : F.Ok u) (grav : Bool) (S : List (Source 2)) (hS : Distinct S) (eps : ℝ)
    (he : 0 ≤ eps) :
    (∃ res, Fl.ForceResult F grav S eps res) ∧
    ∀ res, Fl.ForceResult F grav S eps res → ∀ (i : Fin S.length) (k : Fin 2),
      |res (i, k) - ∑ j ∈ Finset.univ.erase i, (S.get i).q * fieldSpec grav (S.get i).pos eps (S.get j) k|
        ≤ ((1 + u) ^ (S.length + 14) - 1) * ∑ j ∈ Finset.univ.erase i,
          |(S.get i).q| * (|(S.get j).q| / (dist2 (S.get j).pos (S.get i).pos ^ 2 + eps) * dist2 (S.get j).pos (S.get i).pos) :=
  ⟨(Fl.forces hF grav S hS eps he).1, fun res h i k => ((Fl.forces hF grav S hS eps he).2 res h i k).1⟩

/-- Non-vacuity: three particles, `double`s. -/
example : ∃ res, Fl.EnergyResult Flt.ieee true [(⟨![0, 0], 1⟩ : Source 2), ⟨![1, 0], 2⟩, ⟨![0, 1], 3⟩] res := by
  have hS : Distinct [(⟨![0, 0], 1⟩ : Source 2), ⟨![1, 0], 2⟩, ⟨![0, 1], 3⟩] := by
    intro i j h hpos
    have h0 := congrFun hpos 0
    have h1 := congrFun hpos 1
    fin_cases i <;> fin_cases j <;> simp at h h0 h1
  exact (C74_energies Flt.ieee_ok true _ hS).1

/-- Non-vacuity: rounding really happens. -/
example : Flt.ieee.rnd (1 + 1 / 2 ^ 60) = 1 := by
  have h : Rounded.rndNE ((1 : ℝ) + 1 / 2 ^ 60) = 1 := by
    have hl : Rounded.ulpExp ((1 : ℝ) + 1 / 2 ^ 60) = -52 := by
      apply Rounded.ulpExp_eq
      · rw [abs_of_pos (by positivity)]; norm_num
      · rw [abs_of_pos (by positivity)]; norm_num
    unfold Rounded.rndNE
    rw [hl, Rounded.roundEven_eq (n := 2 ^ 52)]
    · norm_num
    · rw [abs_lt]; constructor <;> norm_num
  exact h

end FMM
