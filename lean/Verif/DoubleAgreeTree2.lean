import Verif.DoubleAgree2
import Verif.KitSimTree
import Verif.DoubleLib3

/-!
# Direct sums and trees in two dimensions, in binary64 and without upper limit of the exponent
-/

namespace FMM.D2
open FMM D64 Rounded
variable {F : Flt} {log : DC → DC}

/-! ## Direct sums -/

theorem vsub_fin (hF : Is64 F) {x y : Vec 2} (hx : Mod x) (hy : Mod y) : vsub x y = (fun j => .fin (F.vsub x y j)) ∧ ∀ j, |F.vsub x y j| ≤ 2 ^ (255 : ℤ) := by
  have key : ∀ j, rnd64 (x j - y j) = .fin (F.vsub x y j) ∧ |F.vsub x y j| ≤ 2 ^ (255 : ℤ) := fun j => by
    have := rnd64_fin (diff_le (hx j) (hy j)) (by norm_num) (by norm_num)
    rw [← hF.rnd] at this
    exact this
  exact ⟨funext fun j => (key j).1, fun j => (key j).2⟩

theorem norm2_fin (hF : Is64 F) {v : Vec 2} (hv : ∀ j, |v j| ≤ 2 ^ (255 : ℤ)) : norm2 (fun j => .fin (v j)) = .fin (F.nrm v) := by
  have e : (![v 0, v 1] : Vec 2) = v := by funext j; fin_cases j <;> rfl
  have b : |Vec.norm v| ≤ 2 ^ (256 : ℤ) := by
    have h0 : 0 ≤ Vec.norm v := Real.sqrt_nonneg _
    rw [abs_of_nonneg h0]
    refine Real.sqrt_le_iff.mpr ⟨(two_pow_pos _).le, ?_⟩
    have sq : ∀ j, v j * v j ≤ 2 ^ (510 : ℤ) := fun j => by
      rw [← abs_mul_abs_self, show (510 : ℤ) = 255 + 255 by norm_num, zpow_add₀ (by norm_num)]
      exact mul_le_mul (hv j) (hv j) (abs_nonneg _) (two_pow_pos _).le
    have e1 : ((2 : ℝ) ^ (256 : ℤ)) ^ 2 = 2 * (2 * 2 ^ (510 : ℤ)) := by
      rw [two_mul_pow, two_mul_pow, pow_two, ← zpow_add₀ (by norm_num)]; norm_num only
    rw [e1]
    rw [pow_two, pow_two]
    have s0 := sq 0
    have s1 := sq 1
    have s2 := two_pow_pos 510
    generalize (2 : ℝ) ^ (510 : ℤ) = Q at s0 s1 s2 ⊢
    linarith
  show rnd64 (Vec.norm ![v 0, v 1]) = _
  rw [e, hF.nrm]
  exact (rnd64_fin b (by norm_num) (by norm_num)).1

theorem potential_agr (hF : Is64 F) (grav safe : Bool) {s : Source 2} (hs : Mod s.pos) {x : Vec 2} (hx : Mod x) :
    Sim Agr (Fl.potential F grav safe s x) (.ok (potential2 grav safe s x)) := by
  obtain ⟨d1, d2⟩ := vsub_fin hF hs hx
  unfold Fl.potential potential2
  dsimp only
  rw [d1, norm2_fin hF d2]
  have hr0 : 0 ≤ F.nrm (F.vsub s.pos x) := by rw [hF.nrm]; exact rndU_nonneg (Real.sqrt_nonneg _)
  set r := F.nrm (F.vsub s.pos x) with hr
  by_cases h1 : safe = true ∧ r = 0
  · rw [if_pos h1, if_pos (by rw [h1.1, h1.2]; simp [isZero])]
    exact Sim.ok (agr_fin 0)
  · rw [if_neg h1]
    refine Sim.ite_err fun h2 => ?_
    have hz : ¬ (safe && isZero (.fin r)) = true := by simp [isZero, h2]
    rw [if_neg hz]
    have hpos : 0 < r := lt_of_le_of_ne hr0 (Ne.symm h2)
    have hl : Agr (D64.log (.fin r)) (F.rlog r) := by
      unfold D64.log
      dsimp only
      rw [if_neg h2, if_neg (not_lt.mpr hr0), hF.rlog _ hpos]
      exact agr_rnd _
    have := (agr_fin s.q).mul hl
    rw [← hF.rnd] at this
    cases grav
    · exact Sim.ok this.neg
    · exact Sim.ok this

theorem foldl_ok {α β : Type} (f : β → α → β) : ∀ (l : List α) (b : β), l.foldlM (fun b a => (.ok (f b a) : Outcome β)) b = .ok (l.foldl f b)
  | [], _ => rfl
  | a :: l, b => by rw [List.foldlM_cons, ok_bind, List.foldl_cons]; exact foldl_ok f l _

theorem potentialSum_agr (hF : Is64 F) (grav safe : Bool) {S : List (Source 2)} (hS : ∀ s ∈ S, Mod s.pos) {x : Vec 2} (hx : Mod x) :
    Sim Agr (Fl.potentialSum F grav safe S x) (.ok (potentialSum2 grav safe S x)) := by
  unfold Fl.potentialSum potentialSum2
  rw [← foldl_ok]
  refine Sim.fold (forall_self hS) (fun s s' a b hs hab => ?_) (agr_fin 0)
  rw [hs.1]
  intro v hv
  obtain ⟨w, w1, w2⟩ := bind_ok hv
  obtain ⟨u, u1, u2⟩ := potential_agr hF grav safe hs.2 hx w w1
  injection u1 with u1
  injection w2 with w2
  refine ⟨_, rfl, ?_⟩
  rw [← w2, u1, hF.rnd]
  exact hab.add u2

theorem forcefield_agr (hF : Is64 F) (grav safe : Bool) {s : Source 2} (hs : Mod s.pos) {x : Vec 2} (hx : Mod x) {eps : ℝ} (heps : |eps| ≤ 2 ^ (1000 : ℤ)) :
    Sim VAgr (Fl.forcefield F grav safe s x eps) (.ok (forcefield2 grav safe s x eps)) := by
  obtain ⟨d1, d2⟩ := vsub_fin hF hs hx
  unfold Fl.forcefield forcefield2
  dsimp only
  rw [d1]
  set v := F.vsub s.pos x with hv
  have sq : ∀ j, |v j * v j| ≤ 2 ^ (510 : ℤ) := fun j => by
    rw [abs_mul, show (510 : ℤ) = 255 + 255 by norm_num, zpow_add₀ (by norm_num)]
    exact mul_le_mul (d2 j) (d2 j) (abs_nonneg _) (two_pow_pos _).le
  obtain ⟨a1, a2⟩ := rnd64_fin (sq 0) (by norm_num) (by norm_num)
  obtain ⟨b1, b2⟩ := rnd64_fin (sq 1) (by norm_num) (by norm_num)
  obtain ⟨c1, c2⟩ := rnd64_fin (sum_le a2 b2) (by norm_num) (by norm_num)
  have hn : D64.normSq (fun j => .fin (v j)) = .fin (F.normSq v) := by
    show add (rnd64 (v 0 * v 0)) (rnd64 (v 1 * v 1)) = _
    rw [a1, b1]
    unfold Flt.normSq
    rw [hF.rnd, hF.rnd, hF.rnd]
    exact c1
  have hr : |F.normSq v| ≤ 2 ^ (1000 : ℤ) := by
    unfold Flt.normSq
    rw [hF.rnd, hF.rnd, hF.rnd]
    exact c2.trans (two_pow_mono (by norm_num))
  have ha : add (.fin (F.normSq v)) (.fin eps) = .fin (F.rnd (F.normSq v + eps)) := by
    rw [hF.rnd]
    exact (rnd64_fin (sum_le hr heps) (by norm_num) (by norm_num)).1
  rw [hn, ha]
  set r := F.normSq v with hr'
  by_cases h1 : safe = true ∧ r = 0
  · rw [if_pos h1, if_pos (by rw [h1.1, h1.2]; simp [isZero])]
    exact Sim.ok fun j => agr_fin 0
  · rw [if_neg h1]
    refine Sim.ite_err fun h2 => ?_
    have hz : ¬ (safe && isZero (.fin r)) = true := by
      simp only [Bool.and_eq_true, not_and]; intro h; simp only [isZero, decide_eq_true_eq]; exact fun h0 => h1 ⟨h, h0⟩
    rw [if_neg hz]
    set den := F.rnd (r + eps) with hd
    have key : VAgr (D64.vscale (fun j => .fin (v j)) (div (.fin s.q) (.fin den))) (F.vscale v (F.rnd (s.q / den))) := fun j => by
      have := (agr_fin (v j)).mul ((agr_fin s.q).div den)
      show Agr _ (F.rnd (v j * F.rnd (s.q / den)))
      rw [hF.rnd, hF.rnd]
      exact this
    cases grav
    · rw [if_neg (by decide), if_neg (by decide)]
      refine Sim.ok fun j => ?_
      have := (key j).neg
      rw [show (F.vscale v (F.rnd (s.q / den))).neg j = -(F.vscale v (F.rnd (s.q / den)) j) from mul_neg_one _]
      exact this
    · exact Sim.ok key

theorem forcefieldSum_agr (hF : Is64 F) (grav safe : Bool) {S : List (Source 2)} (hS : ∀ s ∈ S, Mod s.pos) {x : Vec 2} (hx : Mod x) {eps : ℝ}
    (heps : |eps| ≤ 2 ^ (1000 : ℤ)) : Sim VAgr (Fl.forcefieldSum F grav safe S x eps) (.ok (forcefieldSum2 grav safe S x eps)) := by
  unfold Fl.forcefieldSum forcefieldSum2
  rw [← foldl_ok]
  refine Sim.fold (forall_self hS) (fun s s' a b hs hab => ?_) (fun j => agr_fin 0)
  rw [hs.1]
  intro v hv
  obtain ⟨w, w1, w2⟩ := bind_ok hv
  obtain ⟨u, u1, u2⟩ := forcefield_agr hF grav safe hs.2 hx heps w w1
  injection u1 with u1
  injection w2 with w2
  refine ⟨_, rfl, fun j => ?_⟩
  rw [← w2, u1]
  show Agr _ (F.rnd (a j + w j))
  rw [hF.rnd]
  exact (hab j).add (u2 j)

/-! ## Trees -/

theorem Sim.pair {x : Outcome (BinomialTable × Exp2)} {x' : Outcome (BinomialTable × ExpD)} (h : Sim TAgr x x') {t : BinomialTable} {f : Exp2}
    (e : x = .ok (t, f)) : ∃ t' g, x' = .ok (t', g) ∧ t = t' ∧ EAgr g f := by
  obtain ⟨⟨t', g⟩, h1, h2, h3⟩ := h _ e
  exact ⟨t', g, h1, h2.symm, h3⟩

theorem forall_flip {fs : List Exp2} {es : List ExpD} (h : List.Forall₂ (fun f e => EAgr e f) fs es) : List.Forall₂ EAgr es fs := h.flip

/-- The expansion classes in binary64 follow those without upper limit of the exponent. -/
noncomputable def sim64 (hF : Is64 F) (hL : LogOf log F) (p : ℕ) : KitSim (Fl.kit F) (kit log) p Mod (fun s => Mod s.pos) where
  RT := fun (t t' : BinomialTable) => t = t'
  RM := fun f e => EAgr e f
  RL := fun f e => EAgr e f
  empty := ⟨rfl, rfl, ⟨rfl, fun _ => agrC_zero⟩, by
    have : |(0 : ℝ)| ≤ 2 ^ (254 : ℤ) := by rw [abs_zero]; exact (two_pow_pos _).le
    exact ⟨this, this⟩⟩
  size := fun {f e} h => h.coeffs.1.symm
  leNew := by
    rintro t _ c t1 e rfl hc h
    exact ((new_sim hc p).mono fun _ _ h => h.1).pair h
  meSrc := by
    rintro t _ c src t1 e rfl hc hs h
    exact (meOfSources_sim hF hc p hs).pair h
  leSrc := by
    rintro t _ c src t1 e rfl hc hs h
    exact (leOfSources_sim hF hL hc p hs).pair h
  meMes := by
    rintro t _ c fs es t1 e rfl hc hs h
    exact (meOfMes_sim hF hc (forall_flip hs)).pair h
  leMes := by
    rintro t _ c fs es t1 e rfl hc hs h
    exact (leOfMes_sim hF hL hc (forall_flip hs)).pair h
  leLe := by
    rintro t _ c f e t1 g rfl hc hs h
    exact (leOfLe_sim hF hc hs).pair h
  addEq := by
    intro f e f' e' g h h' hg
    exact addEq_sim hF h h' g hg

/-- Potentials. -/
noncomputable def simPot (hF : Is64 F) (hL : LogOf log F) (p : ℕ) : ObsSim (sim64 hF hL p) (Fl.pot F) (pot log) Mod where
  RV := fun v d => Agr d v
  le := fun {f e x v} h hx hv => lePot_sim hF h hx v hv
  me := fun {f e x v} h hx hv => mePot_sim hF hL h hx v hv
  sum := fun {grav safe src x v} hs hx hv => potentialSum_agr hF grav safe hs hx v hv

/-- Forces. -/
noncomputable def simForce (hF : Is64 F) (hL : LogOf log F) (p : ℕ) {eps : ℝ} (heps : |eps| ≤ 2 ^ (1000 : ℤ)) :
    ObsSim (sim64 hF hL p) (Fl.force F eps) (force log eps) Mod where
  RV := fun v d => VAgr d v
  le := fun {f e x v} h hx hv => leForce_sim hF h hx v hv
  me := fun {f e x v} h hx hv => meForce_sim hF h hx v hv
  sum := fun {grav safe src x v} hs hx hv => forcefieldSum_agr hF grav safe hs hx heps v hv

end FMM.D2
