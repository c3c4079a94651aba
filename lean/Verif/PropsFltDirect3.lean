import Verif.FltPairs3
import Verif.FltIeee3
import Verif.PropsFltOps3

/-!
# C81, C82: the direct sums in space in floating-point arithmetic
-/

namespace FMM
variable {F : Flt3} {u g : ℝ}

/-- **C81** The computed potential of a list of sources differs from the exact sum by at most `(1 + u)^(N + 5) - 1` times
the sum of `|q| / r`; coincident sources contribute exactly zero. -/
theorem C81_potential (hF : F.Ok u g) (grav : Bool) (S : List (Source 3)) (x : Vec 3) :
    ∃ v, Fl3.potentialSum F grav true S x = .ok v ∧
      |v - directPotential grav S x| ≤ ((1 + u) ^ (S.length + 5) - 1) * absPotential3 S x := by
  obtain ⟨v, h1, h2⟩ := Fl3.potentialSum_safe hF grav S x
  exact ⟨v, h1, h2.1⟩

/-- **C81** Without the coincidence check, away from the sources. -/
theorem C81_potential_unguarded (hF : F.Ok u g) (grav : Bool) (S : List (Source 3)) (x : Vec 3) (hS : ∀ s ∈ S, s.pos ≠ x) :
    ∃ v, Fl3.potentialSum F grav false S x = .ok v ∧
      |v - directPotential grav S x| ≤ ((1 + u) ^ (S.length + 5) - 1) * absPotential3 S x := by
  obtain ⟨v, h1, h2⟩ := Fl3.potentialSum_unsafe hF grav S x hS
  exact ⟨v, h1, h2.1⟩

/-- **C81** Without the coincidence check a coincident source makes the result infinite or undefined, however the operations
are rounded. -/
theorem C81_coincident (hF : F.Ok u g) (grav : Bool) (S : List (Source 3)) (x : Vec 3) (hS : ∃ s ∈ S, s.pos = x) :
    Fl3.potentialSum F grav false S x = .error .nonFinite := by
  have key : ∀ (S : List (Source 3)) (a : ℝ), (∃ s ∈ S, s.pos = x) → S.foldlM (fun pot src => do
      let p ← Fl3.potential F grav false src x
      .ok (F.rnd (pot + p))) a = .error .nonFinite := by
    intro S
    induction S with
    | nil => intro a h; obtain ⟨s, hs, -⟩ := h; simp at hs
    | cons s S ih =>
      intro a h
      rw [List.foldlM_cons]
      by_cases hx : s.pos = x
      · have : Fl3.potential F grav false s x = .error .nonFinite := by
          unfold Fl3.potential
          rw [hx, Fl3.dist_zero hF]
          simp
        rw [this, err_bind, err_bind]
      · obtain ⟨v, h1, -⟩ := Fl3.potential_ne hF grav false s x hx
        rw [h1, ok_bind, ok_bind]
        refine ih _ ?_
        obtain ⟨t, ht, htx⟩ := h
        rcases List.mem_cons.mp ht with rfl | ht
        · exact absurd htx hx
        · exact ⟨t, ht, htx⟩
  exact key S 0 hS

/-- **C81** Every component of the force with smoothing `eps ≥ 0`: the error is at most `(1 + u)^(N + 21) - 1` times the sum
of the absolute values of this component over the sources. -/
theorem C81_force (hF : F.Ok u g) (hu : u ≤ 1 / 32) (grav : Bool) (S : List (Source 3)) (x : Vec 3) (eps : ℝ) (he : 0 ≤ eps) :
    ∃ v, Fl3.forcefieldSum F grav true S x eps = .ok v ∧
      ∀ j, |v j - directField grav S x eps j| ≤ ((1 + u) ^ (S.length + 21) - 1) * absField3 S x eps j := by
  obtain ⟨v, h1, h2⟩ := Fl3.forcefieldSum_safe hF hu grav S x eps he
  exact ⟨v, h1, fun j => (h2 j).1⟩

/-- **C81** Without the coincidence check, away from the sources. -/
theorem C81_force_unguarded (hF : F.Ok u g) (hu : u ≤ 1 / 32) (grav : Bool) (S : List (Source 3)) (x : Vec 3) (eps : ℝ)
    (he : 0 ≤ eps) (hS : ∀ s ∈ S, s.pos ≠ x) :
    ∃ v, Fl3.forcefieldSum F grav false S x eps = .ok v ∧
      ∀ j, |v j - directField grav S x eps j| ≤ ((1 + u) ^ (S.length + 21) - 1) * absField3 S x eps j := by
  obtain ⟨v, h1, h2⟩ := Fl3.forcefieldSum_unsafe hF hu grav S x eps he hS
  exact ⟨v, h1, fun j => (h2 j).1⟩

/-- **C81** A single particle feels exactly no potential and no force at its own position, also after rounding. -/
theorem C81_self (hF : F.Ok u g) (grav : Bool) (s : Source 3) (eps : ℝ) :
    Fl3.potential F grav true s s.pos = .ok 0 ∧ Fl3.forcefield F grav true s s.pos eps = .ok (Vec.fill 0) := by
  have h := Fl3.dist_zero hF s.pos
  constructor
  · unfold Fl3.potential; simp [h]
  · unfold Fl3.forcefield; simp [h]

/-- **C81** For `double`s (round to nearest even, no overflow or underflow) and at most a billion sources the relative error
is below `10^-5` of the sum of `|q| / r`. -/
theorem C81_double (grav : Bool) (S : List (Source 3)) (x : Vec 3) (hS : S.length ≤ 10 ^ 9) :
    ∃ v, Fl3.potentialSum Flt3.ieee grav true S x = .ok v ∧
      |v - directPotential grav S x| ≤ 1 / 10 ^ 5 * absPotential3 S x := by
  obtain ⟨v, h1, h2⟩ := C81_potential Flt3.ieee_ok grav S x
  refine ⟨v, h1, h2.trans ?_⟩
  refine mul_le_mul_of_nonneg_right ?_ (List.sum_nonneg (by
    intro t ht
    obtain ⟨s, -, rfl⟩ := List.mem_map.mp ht
    exact absTerm3_nonneg x s))
  have hn : ((S.length + 5 : ℕ) : ℝ) * (1 / 2 ^ 49) ≤ 1 / (2 * 10 ^ 5) := by
    have : ((S.length + 5 : ℕ) : ℝ) ≤ 10 ^ 9 + 5 := by
      have : S.length + 5 ≤ 10 ^ 9 + 5 := by omega
      exact_mod_cast this
    calc ((S.length + 5 : ℕ) : ℝ) * (1 / 2 ^ 49) ≤ (10 ^ 9 + 5) * (1 / 2 ^ 49) :=
          mul_le_mul_of_nonneg_right this (by positivity)
      _ ≤ _ := by norm_num
  have := pow_le_one_add (v := 1 / 2 ^ 49) (by positivity) (S.length + 5) (hn.trans (by norm_num))
  linarith

/-! ## The all-pairs loops -/

/-- **C82** The parallel all-pairs loop for the energies: for distinct positions there is a result, and whatever the
assignment of iterations to threads and the interleaving of the atomic updates, the error of every entry is at most
`(1 + u)^(N + 6) - 1` times the sum of `|q_i q_j| / r_ij`. -/
theorem C82_energies (hF : F.Ok u g) (grav : Bool) (S : List (Source 3)) (hS : Distinct S) :
    (∃ res, Fl3.EnergyResult F grav S res) ∧
    ∀ res, Fl3.EnergyResult F grav S res → ∀ i : Fin S.length,
      |res i - ∑ j ∈ Finset.univ.erase i, (S.get i).q * kernelSpec 3 grav (S.get j).q (dist2 (S.get j).pos (S.get i).pos)|
        ≤ ((1 + u) ^ (S.length + 6) - 1) *
          ∑ j ∈ Finset.univ.erase i, |(S.get i).q| * (|(S.get j).q| / dist2 (S.get j).pos (S.get i).pos) :=
  ⟨(Fl3.energies hF grav S hS).1, fun res h i => ((Fl3.energies hF grav S hS).2 res h i).1⟩

/-- **C82** Two executions of the parallel loop agree up to twice that bound. -/
theorem C82_schedules (hF : F.Ok u g) (grav : Bool) (S : List (Source 3)) (hS : Distinct S)
    (res res' : ℕ → ℝ) (h : Fl3.EnergyResult F grav S res) (h' : Fl3.EnergyResult F grav S res') (i : Fin S.length) :
    |res i - res' i| ≤ 2 * (((1 + u) ^ (S.length + 6) - 1) *
      ∑ j ∈ Finset.univ.erase i, |(S.get i).q| * (|(S.get j).q| / dist2 (S.get j).pos (S.get i).pos)) := by
  have h1 := (C82_energies hF grav S hS).2 res h i
  have h2 := (C82_energies hF grav S hS).2 res' h' i
  rw [abs_sub_comm] at h2
  refine (abs_sub_le _ _ _).trans ((add_le_add h1 h2).trans ?_)
  rw [two_mul]

/-- **C82** The same for the forces, component by component. -/
theorem C82_forces (hF : F.Ok u g) (hu : u ≤ 1 / 32) (grav : Bool) (S : List (Source 3)) (hS : Distinct S) (eps : ℝ) (he : 0 ≤ eps) :
    (∃ res, Fl3.ForceResult F grav S eps res) ∧
    ∀ res, Fl3.ForceResult F grav S eps res → ∀ (i : Fin S.length) (k : Fin 3),
      |res (i, k) - ∑ j ∈ Finset.univ.erase i, (S.get i).q * fieldSpec grav (S.get i).pos eps (S.get j) k|
        ≤ ((1 + u) ^ (S.length + 22) - 1) * ∑ j ∈ Finset.univ.erase i,
          |(S.get i).q| * (|(S.get j).q| / (dist2 (S.get j).pos (S.get i).pos ^ 3 + eps)
            * |(S.get j).pos k - (S.get i).pos k|) :=
  ⟨(Fl3.forces hF hu grav S hS eps he).1, fun res h i k => ((Fl3.forces hF hu grav S hS eps he).2 res h i k).1⟩

/-- Non-vacuity: three particles, `double`s. -/
example : (∃ res, Fl3.EnergyResult Flt3.ieee true [(⟨![0, 0, 0], 1⟩ : Source 3), ⟨![1, 0, 0], 2⟩, ⟨![0, 1, 1], 3⟩] res) ∧
    ∃ res, Fl3.ForceResult Flt3.ieee true [(⟨![0, 0, 0], 1⟩ : Source 3), ⟨![1, 0, 0], 2⟩, ⟨![0, 1, 1], 3⟩] 0 res := by
  have hS : Distinct [(⟨![0, 0, 0], 1⟩ : Source 3), ⟨![1, 0, 0], 2⟩, ⟨![0, 1, 1], 3⟩] := by
    intro i j h hpos
    have h0 := congrFun hpos 0
    have h1 := congrFun hpos 1
    fin_cases i <;> fin_cases j <;> simp at h h0 h1
  exact ⟨(C82_energies Flt3.ieee_ok true _ hS).1, (C82_forces Flt3.ieee_ok (by norm_num) true _ hS 0 le_rfl).1⟩

/-- Non-vacuity: the guarded force of two particles at the position of one of them. -/
example : ∃ v, Fl3.forcefieldSum Flt3.ieee false true [(⟨![0, 0, 0], 1⟩ : Source 3), ⟨![1, 0, 0], 2⟩] ![1, 0, 0] 0 = .ok v ∧
    |v 0 - directField false [(⟨![0, 0, 0], 1⟩ : Source 3), ⟨![1, 0, 0], 2⟩] ![1, 0, 0] 0 0|
      ≤ ((1 + 1 / 2 ^ 49) ^ 23 - 1) * absField3 [(⟨![0, 0, 0], 1⟩ : Source 3), ⟨![1, 0, 0], 2⟩] ![1, 0, 0] 0 0 := by
  obtain ⟨v, h1, h2⟩ := C81_force Flt3.ieee_ok (by norm_num) false [(⟨![0, 0, 0], 1⟩ : Source 3), ⟨![1, 0, 0], 2⟩] ![1, 0, 0] 0 le_rfl
  exact ⟨v, h1, h2 0⟩

end FMM
