import Verif.ReproKits
import Verif.PropsFltTree
import Verif.PropsDoubleTree3

/-!
# C123: the trees do not depend on the number and the timing of the threads

No assumption is made about the arithmetic, the sources, the accuracy or the tables: whatever the rounded operations are, the loops of a
constructor that succeeds in one order of their iterations succeed in every order and leave the same tree, with the same coefficients to the last bit.
-/

namespace FMM

/-- Specification: a construction that succeeds under one schedule of its parallel loops succeeds under every schedule, with the same result. -/
def Reproducible {A T : Type} (build : (ℕ → List A → List A) → Outcome T) : Prop :=
  ∀ sch sch' : ℕ → List A → List A, (∀ k l, (sch k l).Perm l) → (∀ k l, (sch' k l).Perm l) → ∀ T, build sch = .ok T → build sch' = .ok T

section
variable (rnd rlog : ℝ → ℝ) {fuel : ℕ} {max perCell : ℕ} {eps : ℝ}

/-- **C123** Adaptive trees in the plane, for any arithmetic. -/
theorem C123_adaptive2 (nrm : Vec 2 → ℝ) (F : Flt) (t : BinomialTable) (S : List (Source 2)) :
    Reproducible fun sch => Rounded.adaptiveFmm rnd rlog nrm (Fl.kit F) fuel sch t S max eps :=
  fun _ _ h1 h2 _ e => Repro.adaptiveFmm_repro (Repro.settles2 F) h1 h2 e

/-- **C123** Adaptive trees in space, for any arithmetic. -/
theorem C123_adaptive3 (nrm : Vec 3 → ℝ) (F : Flt3) (t : Stat3) (S : List (Source 3)) :
    Reproducible fun sch => Rounded.adaptiveFmm rnd rlog nrm (Fl3.kit F) fuel sch t S max eps :=
  fun _ _ h1 h2 _ e => Repro.adaptiveFmm_repro (Repro.settles3 F) h1 h2 e

/-- **C123** Balanced trees in the plane, for any arithmetic. -/
theorem C123_balanced2 (nrm : Vec 2 → ℝ) (F : Flt) (t : BinomialTable) (S : List (Source 2)) :
    Reproducible fun sch => Rounded.balancedFmm rnd rlog nrm (Fl.kit F) fuel sch t S perCell eps :=
  fun _ _ h1 h2 _ e => Repro.balancedFmm_repro le_rfl (Repro.settles2 F) h1 h2 e

/-- **C123** Balanced trees in space, for any arithmetic. -/
theorem C123_balanced3 (nrm : Vec 3 → ℝ) (F : Flt3) (t : Stat3) (S : List (Source 3)) :
    Reproducible fun sch => Rounded.balancedFmm rnd rlog nrm (Fl3.kit F) fuel sch t S perCell eps :=
  fun _ _ h1 h2 _ e => Repro.balancedFmm_repro (by norm_num) (Repro.settles3 F) h1 h2 e

/-- **C123** Trees in the plane with expansions in binary64, including infinities and NaN. -/
theorem C123_double2 (nrm : Vec 2 → ℝ) (log : D64.DC → D64.DC) (t : BinomialTable) (S : List (Source 2)) :
    (Reproducible fun sch => Rounded.adaptiveFmm rnd rlog nrm (D2.kit log) fuel sch t S max eps) ∧
    Reproducible fun sch => Rounded.balancedFmm rnd rlog nrm (D2.kit log) fuel sch t S perCell eps :=
  ⟨fun _ _ h1 h2 _ e => Repro.adaptiveFmm_repro (Repro.settlesD log) h1 h2 e,
    fun _ _ h1 h2 _ e => Repro.balancedFmm_repro le_rfl (Repro.settlesD log) h1 h2 e⟩

/-- **C123** Trees in space with expansions in binary64, including infinities and NaN. -/
theorem C123_double3 (nrm : Vec 3 → ℝ) (L : D64.Lib) (S : List (Source 3)) :
    (Reproducible fun sch => Rounded.adaptiveFmm rnd rlog nrm (D64.kit64 L) fuel sch () S max eps) ∧
    Reproducible fun sch => Rounded.balancedFmm rnd rlog nrm (D64.kit64 L) fuel sch () S perCell eps :=
  ⟨fun _ _ h1 h2 _ e => Repro.adaptiveFmm_repro (Repro.settles64 L) h1 h2 e,
    fun _ _ h1 h2 _ e => Repro.balancedFmm_repro (by norm_num) (Repro.settles64 L) h1 h2 e⟩

end

section
variable {fuel : ℕ} {max perCell : ℕ} {eps : ℝ}

theorem exact_adaptive {d : ℕ} {K : Kit d} (Z : ∀ p, Repro.Settles K p) (t : K.T) (S : List (Source d)) :
    Reproducible fun sch => adaptiveFmm K fuel sch t S max eps := by
  intro sch sch' h1 h2 T e
  dsimp only at e ⊢
  rw [← Rounded.adaptiveFmm_id] at e ⊢
  exact Repro.adaptiveFmm_repro Z h1 h2 e

/-- **C123** Adaptive trees in exact arithmetic, without any assumption about the sources. -/
theorem C123_exact_adaptive (t2 : BinomialTable) (S2 : List (Source 2)) (t3 : Stat3) (S3 : List (Source 3)) :
    (Reproducible fun sch => adaptiveFmm kit2 fuel sch t2 S2 max eps) ∧ Reproducible fun sch => adaptiveFmm kit3 fuel sch t3 S3 max eps :=
  ⟨exact_adaptive (fun p => Fl.kit_exact ▸ Repro.settles2 Flt.exact p) t2 S2, exact_adaptive Repro.settlesE t3 S3⟩

/-- A balanced tree of height 32 or more is not built. -/
theorem balancedFmm_height {d : ℕ} (hd : 2 ≤ d) {K : Kit d} {sch : ℕ → List BAddr → List BAddr} {t : K.T} {S : List (Source d)} {T : BalancedFmm K}
    (e : balancedFmm K fuel sch t S perCell eps = .ok T) : ∀ h, balancedHeight d S.length perCell = .ok h → h < 32 := by
  intro h hh
  by_contra c
  unfold balancedFmm at e
  obtain ⟨T0, h0, -⟩ := Rounded.Inv.bok e
  unfold balancedInit at h0
  obtain ⟨order, -, h0⟩ := Rounded.Inv.bok h0
  rw [hh, ok_bind] at h0
  cases hb : rootBox (S.map Source.pos) with
  | none => rw [hb] at h0; cases h0
  | some r =>
    rw [hb] at h0
    dsimp only at h0
    obtain ⟨q, k1, -⟩ := Rounded.Inv.bok h0
    unfold balancedLists balancedNodes balancedLeaves at k1
    have hc : ¬ (2 ^ d) ^ h < 2 ^ 64 := by
      rw [← pow_mul]
      refine not_lt.mpr (Nat.pow_le_pow_right (by norm_num) ?_)
      have := Nat.mul_le_mul hd (not_lt.mp c)
      omega
    rw [if_neg hc, err_bind, err_bind] at k1
    cases k1

theorem exact_balanced {d : ℕ} (hd : 2 ≤ d) {K : Kit d} (Z : ∀ p, Repro.Settles K p) (t : K.T) (S : List (Source d)) :
    Reproducible fun sch => balancedFmm K fuel sch t S perCell eps := by
  intro sch sch' h1 h2 T e
  dsimp only at e ⊢
  have hh := balancedFmm_height hd e
  rw [← Rounded.balancedFmm_id _ _ _ _ _ _ _ hh] at e ⊢
  exact Repro.balancedFmm_repro hd Z h1 h2 e

/-- **C123** Balanced trees in exact arithmetic. -/
theorem C123_exact_balanced (t2 : BinomialTable) (S2 : List (Source 2)) (t3 : Stat3) (S3 : List (Source 3)) :
    (Reproducible fun sch => balancedFmm kit2 fuel sch t2 S2 perCell eps) ∧ Reproducible fun sch => balancedFmm kit3 fuel sch t3 S3 perCell eps :=
  ⟨exact_balanced (K := kit2) (le_refl 2) (fun p => Fl.kit_exact ▸ Repro.settles2 Flt.exact p) t2 S2,
    exact_balanced (K := kit3) (Nat.le_succ 2) Repro.settlesE t3 S3⟩

end

/-- **C123** The loops of `evaluateParticlePotentialEnergies` and `evaluateParticleForces`, with any evaluation function: the same results in every order. -/
theorem C123_particles {d : ℕ} {V W : Type} [Zero W] (smul : ℝ → V → W) (eval : Vec d → Outcome V) (S : List (Source d)) {o o' : List ℕ} (hp : o.Perm o')
    {res : Arr W} (e : particleLoop smul eval S o = .ok res) : particleLoop smul eval S o' = .ok res := by
  unfold particleLoop at e ⊢
  revert e
  generalize (⟨S.length, fun _ => 0⟩ : Arr W) = a
  intro e
  induction hp generalizing a with
  | nil => exact e
  | cons x _ ih =>
    rw [List.foldlM_cons] at e ⊢
    obtain ⟨b, h1, e⟩ := Rounded.Inv.bok e
    rw [h1, ok_bind]
    exact ih b e
  | @swap x y l =>
    rw [List.foldlM_cons] at e
    obtain ⟨b, h1, e⟩ := Rounded.Inv.bok e
    rw [List.foldlM_cons] at e
    obtain ⟨c, h2, e⟩ := Rounded.Inv.bok e
    obtain ⟨s, h3, h1⟩ := Rounded.Inv.bok h1
    obtain ⟨v, h4, h1⟩ := Rounded.Inv.bok h1
    obtain ⟨s', h5, h2⟩ := Rounded.Inv.bok h2
    obtain ⟨v', h6, h2⟩ := Rounded.Inv.bok h2
    by_cases c1 : y < a.size
    · rw [if_pos c1] at h1
      obtain rfl := (Except.ok.inj h1).symm
      by_cases c2 : x < a.size
      · rw [if_pos c2] at h2
        obtain rfl := (Except.ok.inj h2).symm
        rw [List.foldlM_cons, h5, ok_bind, h6, ok_bind, if_pos c2, ok_bind, List.foldlM_cons, h3, ok_bind, h4, ok_bind, if_pos c1, ok_bind]
        by_cases hxy : x = y
        · subst hxy
          rw [h5] at h3
          obtain rfl := Except.ok.inj h3
          rw [h6] at h4
          obtain rfl := Except.ok.inj h4
          exact e
        · rw [Function.update_comm hxy]
          exact e
      · rw [if_neg c2] at h2; cases h2
    · rw [if_neg c1] at h1; cases h1
  | trans _ _ ih ih' => exact ih' a (ih a e)

/-- Non-vacuity: the tree of four charges in the plane, built forwards and backwards. -/
example : ∃ fuel T, T.order = 1 ∧
    Rounded.adaptiveFmm Flt.ieee.rnd Flt.ieee.rlog Flt.ieee.nrm (Fl.kit Flt.ieee) fuel (fun _ l => l) BinomialTable.init S4 1 2 = .ok T ∧
    Rounded.adaptiveFmm Flt.ieee.rnd Flt.ieee.rlog Flt.ieee.nrm (Fl.kit Flt.ieee) fuel (fun _ (l : List Path) => l.reverse) BinomialTable.init S4 1 2 = .ok T := by
  obtain ⟨r, h, fuel, T, h0, -, -, -, h1, h2, h3, -⟩ := C77_well_placed (max := 1) Flt.ieee_ok S4_placed le_rfl reachable_init
    S4_order one_pos (by norm_num)
  have hid : Schedule (fun _ (l : List Path) => l) := fun _ l => List.Perm.refl l
  have := h2 (fuel + h + 1) (by omega) _ hid
  exact ⟨_, T, h3, this, C123_adaptive2 _ _ _ _ _ _ _ _ hid (fun _ l => l.reverse_perm) T this⟩

end FMM

namespace FMM.D64
open Rounded

/-- Non-vacuity: nine charges in a balanced tree with 64 leaves, 16 per thread: backwards, and with the leaves rotated by 16. -/
example (L : Lib) : ∃ fuel T, T.height = 2 ∧
    Rounded.balancedFmm Flt3.ieee.rnd Flt3.ieee.rlog Flt3.ieee.nrm3 (kit64 L) fuel (fun _ (l : List BAddr) => l.reverse) () S9 1 (1 / 2 ^ 20) = .ok T ∧
    Rounded.balancedFmm Flt3.ieee.rnd Flt3.ieee.rlog Flt3.ieee.nrm3 (kit64 L) fuel (fun _ (l : List BAddr) => l.rotate 16) () S9 1 (1 / 2 ^ 20) = .ok T := by
  obtain ⟨p, p1, p2, p3⟩ := S9_order
  obtain ⟨r, T, h1, ⟨fuel, h2⟩, h3, h4, h5⟩ := C97_placed (k := 2) L Flt3.ieee_ok S9_placed p3 (by omega) S9_height le_rfl le_rfl (by norm_num)
    (Or.inr ⟨25, by norm_num, by unfold nm; norm_num, by omega⟩)
  have hr : Schedule (fun _ (l : List BAddr) => l.reverse) := fun _ l => l.reverse_perm
  have := h2 fuel le_rfl _ hr
  exact ⟨fuel, T, h4, this, (C123_double3 (max := 1) _ _ _ L _).2 _ _ hr (fun _ l => l.rotate_perm 16) T this⟩

end FMM.D64
