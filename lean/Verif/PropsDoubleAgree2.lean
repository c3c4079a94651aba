import Verif.DoubleAgreeTree2
import Verif.FltIeee
import Verif.PropsDoubleAgree3

/-!
# C100: overflow in the two-dimensional solver is never silent

As C98, for two dimensions and every order: if the program run with the arithmetic of `double` without a largest number (`Is64 F`) returns a number, the program
run with `double`s returns the same number, or an infinity, or NaN.  Coordinates of the sources up to `2^251`, of the point up to `2^254`.
-/

namespace FMM.D2
open FMM D64 Rounded
variable {F : Flt} {log : DC → DC} {rlog : ℝ → ℝ} {nrm : Vec 2 → ℝ} {fuel n : ℕ} {bt : BinomialTable} {S : List (Source 2)} {eps : ℝ}

/-! ## Centres and sources of the nodes -/

theorem pow251 : (2 : ℝ) ^ (251 : ℤ) ≤ 2 ^ (254 : ℤ) := two_pow_mono (by norm_num)

theorem adaptive_sh {K : Kit 2} {rnd : ℝ → ℝ} (hr : ∀ x, rnd x = rndU x) (hS : ∀ s ∈ S, ∀ j, |s.pos j| ≤ 2 ^ (251 : ℤ)) {t : K.T} {sch : ℕ → List Path → List Path}
    {T : AdaptiveFmm K} (h : Rounded.adaptiveFmm rnd rlog nrm K fuel sch t S n eps = .ok T) : KitSim.Sh Mod (fun s => Mod s.pos) T.shape := by
  have I := Inv.adaptiveFmm_inv (P := BoxMod 254) (Q := fun s : Source 2 => Mod s.pos) (fun b i hb => hb.child (by norm_num) (by norm_num) hr i)
    (fun r h => sourceBox_mod (B := 254) (by norm_num) (by norm_num) hr hS h) (fun s hs j => (hS s hs j).trans pow251) h
  intro a m hm
  obtain ⟨nd, h1, h2⟩ := bind_ok hm
  injection h2 with h2
  subst h2
  obtain ⟨i1, i2⟩ := I.get h1
  refine ⟨fun j => i1.center j, fun src hsrc => ?_⟩
  dsimp only at hsrc
  by_cases c : nd.isLeaf = true
  · rw [if_pos c] at hsrc
    injection hsrc with hsrc
    subst hsrc
    exact i2
  · rw [if_neg c] at hsrc; cases hsrc

theorem balanced_sh {K : Kit 2} {rnd : ℝ → ℝ} (hr : ∀ x, rnd x = rndU x) (hS : ∀ s ∈ S, ∀ j, |s.pos j| ≤ 2 ^ (251 : ℤ)) {t : K.T} {sch : ℕ → List BAddr → List BAddr}
    {T : BalancedFmm K} (h : Rounded.balancedFmm rnd rlog nrm K fuel sch t S n eps = .ok T) : KitSim.Sh Mod (fun s => Mod s.pos) T.shape := by
  obtain ⟨I, I'⟩ := Inv.balancedFmm_inv (P := BoxMod 254) (Q := fun s : Source 2 => Mod s.pos) (fun b i hb => hb.child (by norm_num) (by norm_num) hr i)
    (fun r h => sourceBox_mod (B := 254) (by norm_num) (by norm_num) hr hS h) (fun s hs j => (hS s hs j).trans pow251) h
  intro a m hm
  obtain ⟨nd, h1, h2⟩ := bind_ok hm
  injection h2 with h2
  subst h2
  refine ⟨fun j => (I.get h1).center j, fun src hsrc => ?_⟩
  dsimp only at hsrc
  cases a with
  | node i => cases hsrc
  | leaf k =>
    have hsrc : T.src.get k = .ok src := hsrc
    unfold BSrc.get at hsrc
    cases e : T.src.ptr k with
    | none => rw [e] at hsrc; cases hsrc
    | some f => rw [e] at hsrc; injection hsrc with hsrc; subst hsrc; exact I' f

/-! ## The solver -/

/-- The components of a computed vector: the given number, or infinite, or NaN. -/
def VSameOrBad (P : Outcome (DVec 2)) (v : Vec 2) : Prop := ∃ w, P = .ok w ∧ ∀ j, w j = .fin (v j) ∨ NF (w j)

/-- The same centre, order and number of coefficients; every coefficient is the same, or not finite. -/
def SameExp (e : ExpD) (f : Exp2) : Prop :=
  e.center = f.center ∧ e.order = f.order ∧ e.coeffs.size = f.coeffs.size ∧ ∀ l < f.coeffs.size,
    ((e.coeffs.val l).re = .fin (f.coeffs.val l).re ∨ NF (e.coeffs.val l).re) ∧ ((e.coeffs.val l).im = .fin (f.coeffs.val l).im ∨ NF (e.coeffs.val l).im)

theorem EAgr.same {f : Exp2} {e : ExpD} (h : EAgr e f) : SameExp e f :=
  ⟨h.center, h.order, h.coeffs.1, fun l _ => ⟨(h.coeffs.2 l).1.sob, (h.coeffs.2 l).2.sob⟩⟩

theorem neg_agr (v : Vec 2) (d : DVec 2) (h : VAgr d v) : VAgr (vneg d) (Vec.neg v) := fun j => by
  have := (h j).neg
  show Agr (D64.neg (d j)) (v j * (-1))
  rw [mul_neg_one]
  exact this

/-- **C100** Adaptive tree. -/
theorem C100_adaptive (hF : Is64 F) (hL : LogOf log F) (hS : ∀ s ∈ S, ∀ j, |s.pos j| ≤ 2 ^ (251 : ℤ)) {sch : ℕ → List Path → List Path}
    {T : AdaptiveFmm (Fl.kit F)} (h : Rounded.adaptiveFmm F.rnd rlog nrm (Fl.kit F) fuel sch bt S n eps = .ok T) :
    ∃ T', Rounded.adaptiveFmm F.rnd rlog nrm (kit log) fuel sch bt S n eps = .ok T' ∧
      T'.order = T.order ∧ T'.height = T.height ∧ T'.heap = T.heap ∧ T'.nb = T.nb ∧
      (∀ π f, T.exps.le π = some f → ∃ e, T'.exps.le π = some e ∧ SameExp e f) ∧
      (∀ π f, T.exps.me π = some f → ∃ e, T'.exps.me π = some e ∧ SameExp e f) ∧
      ∀ x : Vec 2, (∀ j, |x j| ≤ 2 ^ (254 : ℤ)) → ∀ grav,
        (∀ v, Rounded.adaptiveEval F.rnd (fun a b => F.rnd (a + b)) (fun a => -a) (Fl.pot F) fuel grav T S x = .ok v →
          SameOrBad (Rounded.adaptiveEval F.rnd add neg (pot log) fuel grav T' S x) v) ∧
        ∀ feps, |feps| ≤ 2 ^ (1000 : ℤ) → ∀ v, Rounded.adaptiveEval F.rnd F.vadd Vec.neg (Fl.force F feps) fuel grav T S x = .ok v →
          VSameOrBad (Rounded.adaptiveEval F.rnd vadd vneg (force log feps) fuel grav T' S x) v := by
  have hsh := adaptive_sh hF.rnd hS h
  obtain ⟨T', t1, t2⟩ := KitSim.adaptiveFmm (M := sim64 hF hL T.order) sch (t' := bt) rfl h rfl hsh
  have hQ : ∀ s ∈ S, Mod s.pos := fun s hs j => (hS s hs j).trans pow251
  refine ⟨T', t1, t2.order, t2.height, t2.heap, t2.nb, fun π f hf => ?_, fun π f hf => ?_, fun x hx grav => ⟨fun v hv => ?_, fun feps hf v hv => ?_⟩⟩
  · obtain ⟨e, e1, e2⟩ := t2.exps.le π f hf
    exact ⟨e, e1, EAgr.same e2⟩
  · obtain ⟨e, e1, e2⟩ := t2.exps.me π f hf
    exact ⟨e, e1, EAgr.same e2⟩
  · obtain ⟨w, w1, w2⟩ := KitSim.adaptiveEval (simPot hF hL T.order) (add' := add) (neg' := neg)
      (fun {a a' b b'} ha hb => by have := Agr.add ha hb; rw [← hF.rnd] at this; exact this) (fun {a a'} ha => Agr.neg ha) hQ grav t2 hsh hx hv
    exact ⟨w, w1, Agr.sob w2⟩
  · obtain ⟨w, w1, w2⟩ := KitSim.adaptiveEval (simForce hF hL T.order hf) (add' := vadd) (neg' := vneg)
      (fun {a a' b b'} ha hb j => by have := Agr.add (ha j) (hb j); rw [← hF.rnd] at this; exact this) (fun {a a'} ha => neg_agr a a' ha) hQ grav t2 hsh hx hv
    exact ⟨w, w1, fun j => Agr.sob (w2 j)⟩

/-- **C100** Balanced tree. -/
theorem C100_balanced (hF : Is64 F) (hL : LogOf log F) (hS : ∀ s ∈ S, ∀ j, |s.pos j| ≤ 2 ^ (251 : ℤ)) {sch : ℕ → List BAddr → List BAddr}
    {T : BalancedFmm (Fl.kit F)} (h : Rounded.balancedFmm F.rnd rlog nrm (Fl.kit F) fuel sch bt S n eps = .ok T) :
    ∃ T', Rounded.balancedFmm F.rnd rlog nrm (kit log) fuel sch bt S n eps = .ok T' ∧
      T'.order = T.order ∧ T'.height = T.height ∧ T'.mem = T.mem ∧ T'.src = T.src ∧ T'.nb = T.nb ∧
      (∀ π f, T.exps.le π = some f → ∃ e, T'.exps.le π = some e ∧ SameExp e f) ∧
      (∀ π f, T.exps.me π = some f → ∃ e, T'.exps.me π = some e ∧ SameExp e f) ∧
      ∀ x : Vec 2, (∀ j, |x j| ≤ 2 ^ (254 : ℤ)) → ∀ grav,
        (∀ v, Rounded.balancedEval F.rnd (fun a b => F.rnd (a + b)) (fun a => -a) (Fl.pot F) grav T x = .ok v →
          SameOrBad (Rounded.balancedEval F.rnd add neg (pot log) grav T' x) v) ∧
        ∀ feps, |feps| ≤ 2 ^ (1000 : ℤ) → ∀ v, Rounded.balancedEval F.rnd F.vadd Vec.neg (Fl.force F feps) grav T x = .ok v →
          VSameOrBad (Rounded.balancedEval F.rnd vadd vneg (force log feps) grav T' x) v := by
  have hsh := balanced_sh hF.rnd hS h
  obtain ⟨T', t1, t2⟩ := KitSim.balancedFmm (M := sim64 hF hL T.order) sch (t' := bt) rfl h rfl hsh
  refine ⟨T', t1, t2.order, t2.height, t2.mem, t2.src, t2.nb, fun π f hf => ?_, fun π f hf => ?_, fun x hx grav => ⟨fun v hv => ?_, fun feps hf v hv => ?_⟩⟩
  · obtain ⟨e, e1, e2⟩ := t2.exps.le π f hf
    exact ⟨e, e1, EAgr.same e2⟩
  · obtain ⟨e, e1, e2⟩ := t2.exps.me π f hf
    exact ⟨e, e1, EAgr.same e2⟩
  · obtain ⟨w, w1, w2⟩ := KitSim.balancedEval (simPot hF hL T.order) (add' := add) (neg' := neg)
      (fun {a a' b b'} ha hb => by have := Agr.add ha hb; rw [← hF.rnd] at this; exact this) (fun {a a'} ha => Agr.neg ha) grav t2 hsh hx hv
    exact ⟨w, w1, Agr.sob w2⟩
  · obtain ⟨w, w1, w2⟩ := KitSim.balancedEval (simForce hF hL T.order hf) (add' := vadd) (neg' := vneg)
      (fun {a a' b b'} ha hb j => by have := Agr.add (ha j) (hb j); rw [← hF.rnd] at this; exact this) (fun {a a'} ha => neg_agr a a' ha) grav t2 hsh hx hv
    exact ⟨w, w1, fun j => Agr.sob (w2 j)⟩

/-! ## An instance -/

/-- `double` without a largest number, library functions rounded. -/
noncomputable def flt64 : Flt := Flt.ofRnd rndU

theorem flt64_is : Is64 flt64 := ⟨fun _ => rfl, fun _ _ => rfl, fun _ _ => rfl, fun _ _ => rfl, fun _ => rfl⟩

/-- The logarithm of `F` on finite numbers. -/
noncomputable def logOf (F : Flt) (z : DC) : DC :=
  match z.re, z.im with
  | .fin a, .fin b => cfin (F.log ⟨a, b⟩)
  | _, _ => ⟨.nan, .nan⟩

theorem logOf_of (F : Flt) : LogOf (logOf F) F := fun z _ => agr_cfin (F.log z)

theorem pow_mul (a b : ℤ) : (2 : ℝ) ^ a * 2 ^ b = 2 ^ (a + b) := (zpow_add₀ (by norm_num) a b).symm

theorem fin_pow {k : ℤ} (h1 : -1022 ≤ k) (h2 : k ≤ 1023) : rnd64 (2 ^ k) = .fin (2 ^ k) := by
  rw [(rnd64_fin (b := k) (abs_of_pos (two_pow_pos k)).le h1 h2).1, rndU_pow h1]

/-! ## Points too far away -/

theorem mul_axis {a b : ℤ} (h1 : -1022 ≤ a + b) : flt64.mul ⟨2 ^ a, 0⟩ ⟨2 ^ b, 0⟩ = ⟨2 ^ (a + b), 0⟩ := by
  show (⟨rndU (rndU (2 ^ a * 2 ^ b) - rndU (0 * 0)), rndU (rndU (2 ^ a * 0) + rndU (0 * 2 ^ b))⟩ : ℂ) = _
  rw [pow_mul, mul_zero, mul_zero, zero_mul, rndU_zero, rndU_pow h1, sub_zero, rndU_pow h1, add_zero, rndU_zero]

theorem div_axis {a b : ℤ} (h1 : -1022 ≤ a + b) (h2 : -1022 ≤ a - b) (h3 : -500 ≤ b) : flt64.div ⟨2 ^ a, 0⟩ ⟨2 ^ b, 0⟩ = ⟨2 ^ (a - b), 0⟩ := by
  show (⟨rndU (rndU (rndU (2 ^ a * 2 ^ b) + rndU (0 * 0)) / rndU (rndU (2 ^ b * 2 ^ b) + rndU (0 * 0))),
    rndU (rndU (rndU (0 * 2 ^ b) - rndU (2 ^ a * 0)) / rndU (rndU (2 ^ b * 2 ^ b) + rndU (0 * 0)))⟩ : ℂ) = _
  rw [pow_mul, pow_mul, mul_zero, mul_zero, zero_mul, rndU_zero, rndU_pow h1, add_zero, add_zero, rndU_pow h1, rndU_pow (by omega), rndU_pow (by omega),
    sub_zero, rndU_zero, zero_div, rndU_zero, ← zpow_sub₀ (by norm_num), show a + b - (b + b) = a - b by ring, rndU_pow h2]

theorem div_zero_axis (z : ℂ) : flt64.div 0 z = 0 := by
  show (⟨rndU (rndU (rndU (0 * z.re) + rndU (0 * z.im)) / _), rndU (rndU (rndU (0 * z.re) - rndU (0 * z.im)) / _)⟩ : ℂ) = _
  rw [zero_mul, zero_mul, rndU_zero, add_zero, rndU_zero, sub_zero, rndU_zero, zero_div, rndU_zero]
  rfl

theorem rndU_neg_pow {k : ℤ} (hk : -1022 ≤ k) : rndU (-2 ^ k) = -2 ^ k := by
  have hp := two_pow_pos k
  have e : |-(2 : ℝ) ^ k| = 2 ^ k := by rw [abs_neg, abs_of_pos hp]
  have hb : Bnd k k (-(2 : ℝ) ^ k) := ⟨e.ge, e.le⟩
  have h := rndU_bnd hk hb
  have e1 : rndU (-2 ^ k) = rndNE (-2 ^ k) := if_neg (by rw [e]; exact not_lt.mpr (two_pow_mono hk))
  have h2 := rndNE_rel (-(2 : ℝ) ^ k)
  rw [← e1, e] at h2
  rcases abs_choice (rndU (-2 ^ k)) with h3 | h3
  · have h4 : rndU (-2 ^ k) = 2 ^ k := by rw [← h3]; exact le_antisymm h.2 h.1
    rw [h4] at h2
    have := (abs_le.mp h2).2
    generalize (2 : ℝ) ^ k = Q at hp this
    have h5 : (1 : ℝ) / 2 ^ 53 ≤ 1 := by norm_num
    nlinarith
  · have h4 : -rndU (-2 ^ k) = 2 ^ k := by rw [← h3]; exact le_antisymm h.2 h.1
    exact neg_eq_iff_eq_neg.mp h4

theorem one_axis : (1 : ℂ) = ⟨2 ^ (0 : ℤ), 0⟩ := by apply Complex.ext <;> simp

/-- The coefficients `0`, `a` of an expansion of first order. -/
def two {α : Type} (z a : α) : Arr α := ⟨2, fun i => if i = 1 then a else z⟩

/-- **C100** Without the bound on the coordinates an overflow can be silent.  The multipole expansion about the origin with the coefficients `0`, `2^700` and a
point at distance `2^300`: the force is `2^100`; the square of the square of the distance overflows and the computed force is zero. -/
theorem C100_silent : ∃ x v : Vec 2, Fl.meForce flt64 ⟨1, 0, two 0 ⟨2 ^ (700 : ℤ), 0⟩⟩ x = .ok v ∧ v 0 = 2 ^ (100 : ℤ) ∧
    meForce ⟨1, 0, two czero ⟨.fin (2 ^ (700 : ℤ)), .fin 0⟩⟩ x = .ok ![.fin 0, .fin 0] := by
  have hR0 : flt64.rnd 0 = 0 := rndU_zero
  have hR : ∀ k : ℤ, -1022 ≤ k → flt64.rnd (2 ^ k) = 2 ^ k := fun k hk => rndU_pow hk
  have z1 : flt64.csub (toC ![2 ^ (300 : ℤ), 0]) 0 = ⟨2 ^ (300 : ℤ), 0⟩ := by
    show (⟨flt64.rnd (2 ^ (300 : ℤ) - 0), flt64.rnd (0 - 0)⟩ : ℂ) = _
    rw [sub_zero, sub_zero, hR _ (by norm_num), hR0]
  have z0 : (⟨2 ^ (300 : ℤ), 0⟩ : ℂ) ≠ 0 := fun h => (two_pow_pos 300).ne' (congrArg Complex.re h)
  have s1 : flt64.rsc (((0 + 1 : ℕ)) : ℝ) ⟨2 ^ (700 : ℤ), 0⟩ = ⟨2 ^ (700 : ℤ), 0⟩ := by
    show (⟨flt64.rnd (((0 + 1 : ℕ) : ℝ) * 2 ^ (700 : ℤ)), flt64.rnd (((0 + 1 : ℕ) : ℝ) * 0)⟩ : ℂ) = _
    rw [zero_add, Nat.cast_one, one_mul, mul_zero, hR _ (by norm_num), hR0]
  have s2 : flt64.mul ⟨2 ^ (700 : ℤ), 0⟩ (flt64.div 1 (flt64.mul ⟨2 ^ (300 : ℤ), 0⟩ ⟨2 ^ (300 : ℤ), 0⟩)) = ⟨2 ^ (700 + (0 - (300 + 300)) : ℤ), 0⟩ := by
    rw [mul_axis (by norm_num), one_axis, div_axis (by norm_num) (by norm_num) (by norm_num), mul_axis (by norm_num)]
  refine ⟨![2 ^ (300 : ℤ), 0], ![2 ^ (100 : ℤ), 0], ?_, rfl, ?_⟩
  · unfold Fl.meForce
    rw [z1]
    dsimp only
    show (if (⟨2 ^ (300 : ℤ), 0⟩ : ℂ) = 0 then _ else (.ok ![-(flt64.csub (flt64.div ((0 : ℝ) : ℂ) ⟨2 ^ (300 : ℤ), 0⟩)
      (flt64.mul (flt64.rsc (((0 + 1 : ℕ)) : ℝ) ⟨2 ^ (700 : ℤ), 0⟩) (flt64.div 1 (flt64.mul ⟨2 ^ (300 : ℤ), 0⟩ ⟨2 ^ (300 : ℤ), 0⟩)))).re,
      (flt64.csub (flt64.div ((0 : ℝ) : ℂ) ⟨2 ^ (300 : ℤ), 0⟩)
      (flt64.mul (flt64.rsc (((0 + 1 : ℕ)) : ℝ) ⟨2 ^ (700 : ℤ), 0⟩) (flt64.div 1 (flt64.mul ⟨2 ^ (300 : ℤ), 0⟩ ⟨2 ^ (300 : ℤ), 0⟩)))).im] : Outcome (Vec 2))) = _
    rw [if_neg z0, s1, s2, Complex.ofReal_zero, div_zero_axis]
    show (Except.ok ![-rndU (0 - 2 ^ (700 + (0 - (300 + 300)) : ℤ)), rndU (0 - 0)] : Outcome (Vec 2)) = _
    rw [zero_sub, rndU_neg_pow (by norm_num), sub_zero, rndU_zero, neg_neg]
    norm_num only
  · have d1 : zdiff (toC ![2 ^ (300 : ℤ), 0]) 0 = ⟨.fin (2 ^ (300 : ℤ)), .fin 0⟩ := by
      show (⟨rnd64 (2 ^ (300 : ℤ) + -0), rnd64 (0 + -0)⟩ : DC) = _
      rw [neg_zero, add_zero, add_zero, fin_pow (by norm_num) (by norm_num), rnd64_zero]
    have d2 : cmul ⟨.fin (2 ^ (300 : ℤ)), .fin 0⟩ ⟨.fin (2 ^ (300 : ℤ)), .fin 0⟩ = ⟨.fin (2 ^ (600 : ℤ)), .fin 0⟩ := by
      show (⟨add (rnd64 (2 ^ (300 : ℤ) * 2 ^ (300 : ℤ))) (neg (rnd64 (0 * 0))), add (rnd64 (2 ^ (300 : ℤ) * 0)) (rnd64 (0 * 2 ^ (300 : ℤ)))⟩ : DC) = _
      rw [pow_mul, mul_zero, mul_zero, zero_mul, fin_pow (by norm_num) (by norm_num), rnd64_zero]
      show (⟨rnd64 (2 ^ (300 + 300 : ℤ) + -0), rnd64 (0 + 0)⟩ : DC) = _
      rw [neg_zero, add_zero, add_zero, fin_pow (by norm_num) (by norm_num), rnd64_zero]
      norm_num only
    have d3 : cdiv (cfin 1) ⟨.fin (2 ^ (600 : ℤ)), .fin 0⟩ = czero := by
      have t : add (mul (.fin (2 ^ (600 : ℤ))) (.fin (2 ^ (600 : ℤ)))) (mul (.fin 0) (.fin 0)) = .inf (decide ((2 : ℝ) ^ (600 + 600 : ℤ) < 0)) := by
        show add (rnd64 (2 ^ (600 : ℤ) * 2 ^ (600 : ℤ))) (rnd64 (0 * 0)) = _
        rw [pow_mul, mul_zero, rnd64_zero, rnd64_huge ((two_pow_mono (by norm_num)).trans (le_abs_self _))]
        rfl
      unfold cdiv
      dsimp only
      rw [t]
      show (⟨div (add (rnd64 (1 * 2 ^ (600 : ℤ))) (rnd64 (0 * 0))) _, div (add (rnd64 (0 * 2 ^ (600 : ℤ))) (neg (rnd64 (1 * 0)))) _⟩ : DC) = _
      rw [one_mul, zero_mul, zero_mul, mul_zero, fin_pow (by norm_num) (by norm_num), rnd64_zero]
      show (⟨div (rnd64 (2 ^ (600 : ℤ) + 0)) _, div (rnd64 (0 + -0)) _⟩ : DC) = _
      rw [neg_zero, add_zero, add_zero, fin_pow (by norm_num) (by norm_num), rnd64_zero]
      rfl
    have d4 : cdiv (ofD (.fin 0)) ⟨.fin (2 ^ (300 : ℤ)), .fin 0⟩ = czero := by
      unfold cdiv
      show (⟨div (add (rnd64 (0 * 2 ^ (300 : ℤ))) (rnd64 (0 * 0))) (add (rnd64 (2 ^ (300 : ℤ) * 2 ^ (300 : ℤ))) (rnd64 (0 * 0))),
        div (add (rnd64 (0 * 2 ^ (300 : ℤ))) (neg (rnd64 (0 * 0)))) (add (rnd64 (2 ^ (300 : ℤ) * 2 ^ (300 : ℤ))) (rnd64 (0 * 0)))⟩ : DC) = _
      rw [pow_mul, zero_mul, zero_mul, rnd64_zero, fin_pow (by norm_num) (by norm_num)]
      show (⟨div (rnd64 (0 + 0)) (rnd64 (2 ^ (300 + 300 : ℤ) + 0)), div (rnd64 (0 + -0)) (rnd64 (2 ^ (300 + 300 : ℤ) + 0))⟩ : DC) = _
      rw [neg_zero, add_zero, add_zero, rnd64_zero, fin_pow (by norm_num) (by norm_num)]
      have : div (.fin 0) (.fin (2 ^ (300 + 300 : ℤ))) = .fin 0 := by
        unfold div
        dsimp only
        rw [if_neg (two_pow_pos _).ne', zero_div, rnd64_zero]
      rw [this]
      rfl
    have d5 : cmul (rsc (.fin (((0 + 1 : ℕ)) : ℝ)) ⟨.fin (2 ^ (700 : ℤ)), .fin 0⟩) czero = czero := by
      have : rsc (.fin (((0 + 1 : ℕ)) : ℝ)) ⟨.fin (2 ^ (700 : ℤ)), .fin 0⟩ = ⟨.fin (2 ^ (700 : ℤ)), .fin 0⟩ := by
        show (⟨rnd64 (((0 + 1 : ℕ) : ℝ) * 2 ^ (700 : ℤ)), rnd64 (((0 + 1 : ℕ) : ℝ) * 0)⟩ : DC) = _
        rw [zero_add, Nat.cast_one, one_mul, mul_zero, fin_pow (by norm_num) (by norm_num), rnd64_zero]
      rw [this]
      show (⟨add (rnd64 (2 ^ (700 : ℤ) * 0)) (neg (rnd64 (0 * 0))), add (rnd64 (2 ^ (700 : ℤ) * 0)) (rnd64 (0 * 0))⟩ : DC) = _
      rw [mul_zero, mul_zero, rnd64_zero]
      show (⟨rnd64 (0 + -0), rnd64 (0 + 0)⟩ : DC) = _
      rw [neg_zero, add_zero, rnd64_zero]
      rfl
    unfold meForce
    rw [d1]
    dsimp only
    show (.ok ![neg (csub (cdiv (ofD (.fin 0)) ⟨.fin (2 ^ (300 : ℤ)), .fin 0⟩) (cmul (rsc (.fin (((0 + 1 : ℕ)) : ℝ)) ⟨.fin (2 ^ (700 : ℤ)), .fin 0⟩)
      (cdiv (cfin 1) (cmul ⟨.fin (2 ^ (300 : ℤ)), .fin 0⟩ ⟨.fin (2 ^ (300 : ℤ)), .fin 0⟩)))).re,
      (csub (cdiv (ofD (.fin 0)) ⟨.fin (2 ^ (300 : ℤ)), .fin 0⟩) (cmul (rsc (.fin (((0 + 1 : ℕ)) : ℝ)) ⟨.fin (2 ^ (700 : ℤ)), .fin 0⟩)
      (cdiv (cfin 1) (cmul ⟨.fin (2 ^ (300 : ℤ)), .fin 0⟩ ⟨.fin (2 ^ (300 : ℤ)), .fin 0⟩)))).im] : Outcome (DVec 2)) = _
    rw [d2, d3, d4, d5]
    show (.ok ![neg (rnd64 (0 + -0)), rnd64 (0 + -0)] : Outcome (DVec 2)) = _
    rw [neg_zero, add_zero, rnd64_zero]
    show (.ok ![.fin (-0), .fin 0] : Outcome (DVec 2)) = _
    rw [neg_zero]

/-! ## One source at the origin -/

theorem origin_box : sourceBox flt64.rnd [(⟨0, -1⟩ : Source 2)] = some ⟨0, 0⟩ := by
  have h0 : flt64.rnd 0 = 0 := rndU_zero
  unfold sourceBox Rounded.rootBox dataRange
  rw [if_neg (by simp)]
  have e1 : ∀ p : ℝ, Rounded.vadd flt64.rnd (0 : Vec 2) (Rounded.vscale flt64.rnd 0 p) = 0 := fun p => by
    funext j
    show flt64.rnd (0 + flt64.rnd (0 * p)) = 0
    rw [zero_mul, h0, add_zero, h0]
  have e2 : (fun i => (extremum (fun a b => decide (a < b)) (([(⟨0, -1⟩ : Source 2)].map Source.pos).map (· i))).getD 0) = (0 : Vec 2) := rfl
  have e3 : (fun i => (extremum (fun a b => decide (a > b)) (([(⟨0, -1⟩ : Source 2)].map Source.pos).map (· i))).getD 0) = (0 : Vec 2) := rfl
  dsimp only
  rw [e2, e3, e1]
  have e4 : Rounded.vsub flt64.rnd (0 : Vec 2) 0 = 0 := by
    funext j
    show flt64.rnd (0 + flt64.rnd (0 * (-1))) = 0
    rw [zero_mul, h0, add_zero, h0]
  have e5 : Rounded.vscale flt64.rnd (Rounded.vadd flt64.rnd (0 : Vec 2) 0) (1 / 2) = 0 := by
    funext j
    show flt64.rnd (flt64.rnd (0 + 0) * (1 / 2)) = 0
    rw [add_zero, h0, zero_mul, h0]
  rw [e4, e5]
  simp [extremum, List.ofFn_succ]

/-- Non-vacuity: the tree of one source at the origin, and its force at distance 2. -/
example : ∃ T T', Rounded.adaptiveFmm flt64.rnd Real.log flt64.nrm (Fl.kit flt64) 5 (fun _ l => l.reverse) BinomialTable.init [⟨0, -1⟩] 1 (1 / 4) = .ok T ∧
    Rounded.adaptiveFmm flt64.rnd Real.log flt64.nrm (kit (logOf flt64)) 5 (fun _ l => l.reverse) BinomialTable.init [⟨0, -1⟩] 1 (1 / 4) = .ok T' ∧ T'.order = 2 ∧
    VSameOrBad (Rounded.adaptiveEval flt64.rnd vadd vneg (force (logOf flt64) 0) 5 true T' [⟨0, -1⟩] ![-2, 0]) ![-1 / 2, 0] := by
  have h0 : flt64.rnd 0 = 0 := rndU_zero
  have hR : ∀ (k : ℤ) (x : ℝ), -1022 ≤ k → x = 2 ^ k → flt64.rnd x = x := fun k x hk e => by rw [e]; exact rndU_pow hk
  have hN : ∀ (k : ℤ) (x : ℝ), -1022 ≤ k → x = -2 ^ k → flt64.rnd x = x := fun k x hk e => by rw [e]; exact rndU_neg_pow hk
  have hord : Rounded.expansionOrder flt64.rnd Real.log (Rounded.totalStrength flt64.rnd [(⟨0, -1⟩ : Source 2)]) (1 / 4) = .ok 2 := by
    have e1 : Rounded.totalStrength flt64.rnd [(⟨0, -1⟩ : Source 2)] = 1 := by
      show flt64.rnd (0 + |-1|) = 1
      rw [zero_add, abs_neg, abs_one, hR 0 1 (by norm_num) (by norm_num)]
    unfold Rounded.expansionOrder
    have e2 : flt64.rnd (1 / (1 / 4)) = 4 := by rw [hR 2 _ (by norm_num) (by norm_num)]; norm_num
    have e3 : Real.log 4 / Real.log 2 = 2 := by
      rw [show (4 : ℝ) = 2 ^ 2 by norm_num, Real.log_pow]
      have := Real.log_pos (show (1 : ℝ) < 2 by norm_num)
      field_simp
      norm_num
    rw [e1, e2, if_neg (by norm_num), e3, hR 1 2 (by norm_num) (by norm_num)]
    have : ⌈(2 : ℝ)⌉ = 2 := by exact_mod_cast Int.ceil_natCast (R := ℝ) 2
    rw [this]
    rfl
  obtain ⟨bt', hbt⟩ : ∃ bt', BinomialTable.init.refresh 2 = .ok bt' :=
    let ⟨t', h, _⟩ := BinomialTable.init.refresh_good BinomialTable.good_init 2 (by norm_num)
    ⟨t', h⟩
  obtain ⟨e, n1⟩ : ∃ e, Exp2.new BinomialTable.init 0 2 = .ok (bt', e) := by
    unfold Exp2.new
    dsimp only
    rw [if_pos (by decide), hbt]
    exact ⟨_, rfl⟩
  have hT : ∃ T, Rounded.adaptiveFmm flt64.rnd Real.log flt64.nrm (Fl.kit flt64) 5 (fun _ l => l.reverse) BinomialTable.init [⟨0, -1⟩] 1 (1 / 4) = .ok T ∧
      T.order = 2 ∧ T.heap = rootHeap ⟨0, 0⟩ true [⟨0, -1⟩] := by
    unfold Rounded.adaptiveFmm Rounded.adaptiveInit
    rw [hord, ok_bind, origin_box]
    dsimp only
    have hl : Rounded.adaptiveLists flt64.rnd flt64.nrm 5 Source.pos ⟨0, 0⟩ [(⟨0, -1⟩ : Source 2)] 1 =
        .ok (⟨rootHeap ⟨0, 0⟩ true [⟨0, -1⟩], [], [[[]]], []⟩, 0, { Nbh.empty with near := pushAt Nbh.empty.near [] [] }) := rfl
    rw [hl, ok_bind]
    dsimp only
    have hi : ∀ nb, forEach (initNode (Fl.kit flt64) (adaptiveShape (rootHeap (⟨0, 0⟩ : Box 2) true [(⟨0, -1⟩ : Source 2)]) nb) 2)
        (([] : List (List Path)).flatten ++ [[[]]].flatten) ⟨BinomialTable.init, fun _ => none, fun _ => none⟩ =
        .ok (({ (⟨BinomialTable.init, fun _ => none, fun _ => none⟩ : Exps (Fl.kit flt64) Path) with t := bt' }.setMe [] Exp2.empty).setLe [] e) := by
      intro nb
      have k1 : initNode (Fl.kit flt64) (adaptiveShape (rootHeap (⟨0, 0⟩ : Box 2) true [(⟨0, -1⟩ : Source 2)]) nb) 2 []
          ⟨BinomialTable.init, fun _ => none, fun _ => none⟩ =
          .ok (({ (⟨BinomialTable.init, fun _ => none, fun _ => none⟩ : Exps (Fl.kit flt64) Path) with t := bt' }.setMe [] Exp2.empty).setLe [] e) := by
        unfold initNode
        have k2 : adaptiveShape (rootHeap (⟨0, 0⟩ : Box 2) true [(⟨0, -1⟩ : Source 2)]) nb [] = .ok
          ⟨0, none, (List.range (2 ^ 2)).map fun _ => none, nb.near [], nb.inter [], nb.X [], nb.W [], .ok [⟨0, -1⟩]⟩ := rfl
        rw [k2, ok_bind]
        have k3 : (Fl.kit flt64).leNew BinomialTable.init (0 : Vec 2) 2 = .ok (bt', e) := n1
        rw [k3]
        rfl
      show (initNode (Fl.kit flt64) _ 2 [] _ >>= fun s => .ok s) = _
      rw [k1]
      rfl
    rw [hi, ok_bind]
    exact ⟨_, rfl, rfl, rfl⟩
  obtain ⟨T, t1, t2, t3⟩ := hT
  obtain ⟨T', u1, u2, -, -, -, -, -, u8⟩ := C100_adaptive flt64_is (logOf_of flt64) (by
    intro s hs j
    rw [List.mem_singleton] at hs
    subst hs
    show |(0 : ℝ)| ≤ _
    rw [abs_zero]; exact (two_pow_pos _).le) t1
  refine ⟨T, T', t1, u1, u2.trans t2, (u8 _ (fun j => ?_) true).2 0 (by rw [abs_zero]; exact (two_pow_pos _).le) _ ?_⟩
  · have : |(![-2, 0] : Vec 2) j| ≤ 2 ^ (1 : ℤ) := by fin_cases j <;> norm_num
    exact this.trans (two_pow_mono (by norm_num))
  · unfold Rounded.adaptiveEval Rounded.getContainingLeaf
    rw [t3]
    have hc : (toR (⟨0, 0⟩ : Box 2)).contains flt64.rnd ![-2, 0] = false := by
      unfold RBox.contains
      refine decide_eq_false fun h => h 0 (.inl ?_)
      show (-2 : ℝ) < flt64.rnd (0 + flt64.rnd (flt64.rnd (1 * flt64.rnd (0 / 2)) * (-1)))
      rw [zero_div, h0, one_mul, h0, zero_mul, h0, zero_add, h0]
      norm_num
    have : (descend (rootHeap (⟨0, 0⟩ : Box 2) true [(⟨0, -1⟩ : Source 2)]) ![-2, 0] 5 [] >>= fun cur => do
        let node ← (rootHeap (⟨0, 0⟩ : Box 2) true [(⟨0, -1⟩ : Source 2)]).get cur
        if (toR node.box).contains flt64.rnd ![-2, 0] then .ok (some cur) else .ok none) = (.ok none : Outcome (Option Path)) := by
      show (if (toR (⟨0, 0⟩ : Box 2)).contains flt64.rnd ![-2, 0] then .ok (some []) else .ok none : Outcome (Option Path)) = _
      rw [hc]
      rfl
    rw [this, ok_bind]
    dsimp only
    have hd : flt64.vsub (0 : Vec 2) ![-2, 0] = ![2, 0] := by
      funext j
      show flt64.rnd (0 - _) = _
      fin_cases j
      · show flt64.rnd (0 - -2) = 2
        rw [zero_sub, neg_neg, hR 1 2 (by norm_num) (by norm_num)]
      · show flt64.rnd (0 - 0) = 0
        rw [sub_zero, h0]
    have hn : flt64.normSq ![2, 0] = 4 := by
      show flt64.rnd (flt64.rnd (2 * 2) + flt64.rnd (0 * 0)) = 4
      rw [zero_mul, h0, show (2 : ℝ) * 2 = 4 by norm_num, add_zero, hR 2 4 (by norm_num) (by norm_num), hR 2 4 (by norm_num) (by norm_num)]
    show Fl.forcefieldSum flt64 true false [⟨0, -1⟩] ![-2, 0] 0 = _
    unfold Fl.forcefieldSum
    rw [List.foldlM_cons]
    have : Fl.forcefield flt64 true false ⟨0, -1⟩ ![-2, 0] 0 = .ok ![-1 / 2, 0] := by
      unfold Fl.forcefield
      dsimp only
      rw [hd, hn, add_zero, hR 2 4 (by norm_num) (by norm_num), if_neg (fun h => Bool.noConfusion h.1), if_neg (by norm_num)]
      show (.ok (flt64.vscale ![2, 0] (flt64.rnd (-1 / 4))) : Outcome (Vec 2)) = _
      rw [hN (-2) (-1 / 4) (by norm_num) (by norm_num)]
      refine congrArg Except.ok (funext fun j => ?_)
      fin_cases j
      · show flt64.rnd (2 * (-1 / 4)) = -1 / 2
        rw [show (2 : ℝ) * (-1 / 4) = -1 / 2 by norm_num, hN (-1) (-1 / 2) (by norm_num) (by norm_num)]
      · show flt64.rnd (0 * (-1 / 4)) = 0
        rw [zero_mul, h0]
    rw [this]
    show (.ok (flt64.vadd (Vec.fill 0) ![-1 / 2, 0]) : Outcome (Vec 2)) = _
    refine congrArg Except.ok (funext fun j => ?_)
    fin_cases j
    · show flt64.rnd (0 + -1 / 2) = -1 / 2
      rw [zero_add, hN (-1) (-1 / 2) (by norm_num) (by norm_num)]
    · show flt64.rnd (0 + 0) = 0
      rw [add_zero, h0]

end FMM.D2
