import Verif.DoubleExp2
import Verif.DoubleAgree3

/-!
# Two-dimensional expansions in binary64 and without upper limit of the exponent

The analogue of `DoubleAgree3.lean` for `DoubleExp2.lean` and `FltExp2.lean`.  `Sim R x x'`: if `x` has a result, `x'` has one, and the two are related.
-/

namespace FMM.D2
open FMM D64 Rounded

/-- The arithmetic operations of `F` are those of `double` without upper limit of the exponent; `std::log(std::complex)` is arbitrary. -/
structure Is64 (F : Flt) : Prop where
  rnd : ∀ x, F.rnd x = rndU x
  mul : ∀ x y : ℂ, F.mul x y = ⟨rndU (rndU (x.re * y.re) - rndU (x.im * y.im)), rndU (rndU (x.re * y.im) + rndU (x.im * y.re))⟩
  div : ∀ x y : ℂ, F.div x y = ⟨rndU (rndU (rndU (x.re * y.re) + rndU (x.im * y.im)) / rndU (rndU (y.re * y.re) + rndU (y.im * y.im))),
    rndU (rndU (rndU (x.im * y.re) - rndU (x.re * y.im)) / rndU (rndU (y.re * y.re) + rndU (y.im * y.im)))⟩
  rlog : ∀ x, 0 < x → F.rlog x = rndU (Real.log x)
  nrm : ∀ v, F.nrm v = rndU (Vec.norm v)

/-- The logarithm of `double`s is that of `F` where both are finite. -/
def LogOf (log : DC → DC) (F : Flt) : Prop := ∀ z : ℂ, z ≠ 0 → AgrC (log (cfin z)) (F.log z)

/-! ## Simulations -/

/-- If `x` has a result, `x'` has a related one. -/
def Sim {α β : Type} (R : β → α → Prop) (x : Outcome α) (x' : Outcome β) : Prop := ∀ a, x = .ok a → ∃ b, x' = .ok b ∧ R b a

section
variable {α β γ δ ι κ : Type} {R : β → α → Prop} {R' : δ → γ → Prop}

theorem Sim.ok {a : α} {b : β} (h : R b a) : Sim R (.ok a) (.ok b) := fun _ e => by
  injection e with e; subst e; exact ⟨b, rfl, h⟩

theorem Sim.err {e : Err} {x' : Outcome β} : Sim R (.error e) x' := fun _ h => by cases h

theorem Sim.bind {x : Outcome α} {x' : Outcome β} {f : α → Outcome γ} {g : β → Outcome δ} (h : Sim R x x') (k : ∀ a b, R b a → Sim R' (f a) (g b)) :
    Sim R' (x >>= f) (x' >>= g) := by
  intro c hc
  obtain ⟨a, h1, h2⟩ := bind_ok hc
  obtain ⟨b, h3, h4⟩ := h a h1
  obtain ⟨d, h5, h6⟩ := k a b h4 c h2
  exact ⟨d, by rw [h3, ok_bind]; exact h5, h6⟩

/-- The same operation on both sides. -/
theorem Sim.same {x : Outcome α} : Sim (fun b a => b = a) x x := fun a h => ⟨a, h, rfl⟩

theorem Sim.ite_err {c : Prop} [Decidable c] {e : Err} {y : Outcome α} {y' : Outcome β} (h : ¬ c → Sim R y y') :
    Sim R (if c then .error e else y) y' := by
  by_cases hc : c
  · rw [if_pos hc]; exact Sim.err
  · rw [if_neg hc]; exact h hc

theorem Sim.loop (n : ℕ) {f : ℕ → α → Outcome α} {g : ℕ → β → Outcome β} {a : α} {b : β} (h0 : R b a)
    (h : ∀ i < n, ∀ a b, R b a → Sim R (f i a) (g i b)) : Sim R (loopM n f a) (loopM n g b) := by
  induction n with
  | zero => exact Sim.ok h0
  | succ n ih =>
    rw [loopM_succ, loopM_succ]
    exact (ih fun i hi => h i (by omega)).bind fun a b hab => h n (by omega) a b hab

theorem Sim.fold {P : κ → ι → Prop} {f : α → ι → Outcome α} {g : β → κ → Outcome β} {l : List ι} {l' : List κ} (hl : List.Forall₂ P l' l)
    (h : ∀ i k a b, P k i → R b a → Sim R (f a i) (g b k)) {a : α} {b : β} (h0 : R b a) : Sim R (l.foldlM f a) (l'.foldlM g b) := by
  induction hl generalizing a b with
  | nil => exact Sim.ok h0
  | cons hp _ ih =>
    rw [List.foldlM_cons, List.foldlM_cons]
    exact (h _ _ _ _ hp h0).bind fun a b hab => ih hab

theorem Sim.mono {R2 : β → α → Prop} {x : Outcome α} {x' : Outcome β} (h : Sim R x x') (k : ∀ b a, R b a → R2 b a) : Sim R2 x x' := fun a e => by
  obtain ⟨b, h1, h2⟩ := h a e
  exact ⟨b, h1, k _ _ h2⟩

end

theorem forall_self {ι : Type} {P : ι → Prop} : ∀ {l : List ι}, (∀ i ∈ l, P i) → List.Forall₂ (fun a b => a = b ∧ P b) l l
  | [], _ => .nil
  | a :: _, h => .cons ⟨rfl, h a (by simp)⟩ (forall_self fun i hi => h i (by simp [hi]))

/-! ## Arrays -/

/-- Arrays of the same length with agreeing elements. -/
def AAgr (a : Arr DC) (b : Arr ℂ) : Prop := a.size = b.size ∧ ∀ i, AgrC (a.val i) (b.val i)

theorem aagr_zeros (n : ℕ) : AAgr (zeros n) (Arr.new n) := ⟨rfl, fun _ => agrC_zero⟩

theorem AAgr.rd {a : Arr DC} {b : Arr ℂ} (h : AAgr a b) (i : ℕ) : Sim AgrC (b.rd i) (a.rd i) := by
  unfold Arr.rd
  rw [h.1]
  by_cases hi : i < b.size
  · rw [if_pos hi, if_pos hi]; exact Sim.ok (h.2 i)
  · rw [if_neg hi]; exact Sim.err

theorem AAgr.wr {a : Arr DC} {b : Arr ℂ} (h : AAgr a b) (i : ℕ) {z : DC} {w : ℂ} (hz : AgrC z w) : Sim AAgr (b.wr i w) (a.wr i z) := by
  unfold Arr.wr
  rw [h.1]
  by_cases hi : i < b.size
  · rw [if_pos hi, if_pos hi]
    refine Sim.ok ⟨rfl, fun j => ?_⟩
    show AgrC (Function.update a.val i z j) (Function.update b.val i w j)
    by_cases hj : j = i
    · subst hj; rw [Function.update_self, Function.update_self]; exact hz
    · rw [Function.update_of_ne hj, Function.update_of_ne hj]; exact h.2 j
  · rw [if_neg hi]; exact Sim.err

/-! ## Operations -/

variable {F : Flt} {log : DC → DC}

theorem agr_cfin (z : ℂ) : AgrC (cfin z) z := ⟨agr_fin _, agr_fin _⟩

theorem agr_ofD {a : Dbl} {x : ℝ} (h : Agr a x) : AgrC (ofD a) (x : ℂ) := ⟨by rw [Complex.ofReal_re]; exact h, by rw [Complex.ofReal_im]; exact agr_fin 0⟩

section
variable (hF : Is64 F)
include hF

theorem cadd_agr {z w : DC} {a b : ℂ} (h : AgrC z a) (h' : AgrC w b) : AgrC (cadd z w) (F.cadd a b) := by
  unfold Flt.cadd
  rw [hF.rnd, hF.rnd]
  exact ⟨h.1.add h'.1, h.2.add h'.2⟩

theorem csub_agr {z w : DC} {a b : ℂ} (h : AgrC z a) (h' : AgrC w b) : AgrC (csub z w) (F.csub a b) := by
  unfold Flt.csub
  rw [hF.rnd, hF.rnd]
  exact ⟨h.1.sub h'.1, h.2.sub h'.2⟩

theorem rsc_agr {z : DC} {a : ℂ} {r : Dbl} {x : ℝ} (hr : Agr r x) (h : AgrC z a) : AgrC (rsc r z) (F.rsc x a) := by
  unfold Flt.rsc
  rw [hF.rnd, hF.rnd]
  exact ⟨hr.mul h.1, hr.mul h.2⟩

theorem cdr_agr {z : DC} {a : ℂ} (h : AgrC z a) (x : ℝ) : AgrC (cdr z (.fin x)) (F.cdr a x) := by
  unfold Flt.cdr
  rw [hF.rnd, hF.rnd]
  exact ⟨h.1.div x, h.2.div x⟩

theorem caddr_agr {z : DC} {a : ℂ} (h : AgrC z a) (x : ℝ) : AgrC (caddr z (.fin x)) (F.caddr a x) := by
  unfold Flt.caddr
  rw [hF.rnd]
  exact ⟨h.1.add (agr_fin x), h.2⟩

theorem cmul_agr {z w : DC} {a b : ℂ} (h : AgrC z a) (h' : AgrC w b) : AgrC (cmul z w) (F.mul a b) := by
  rw [hF.mul]
  exact ⟨(h.1.mul h'.1).sub (h.2.mul h'.2), (h.1.mul h'.2).add (h.2.mul h'.1)⟩

omit hF in
theorem cneg_agr {z : DC} {a : ℂ} (h : AgrC z a) : AgrC (cneg z) (-a) := ⟨by rw [Complex.neg_re]; exact h.1.neg, by rw [Complex.neg_im]; exact h.2.neg⟩

/-- Division by a number whose square does not overflow. -/
theorem cdiv_agr {z : DC} {a : ℂ} (h : AgrC z a) {w : ℂ} (h1 : |w.re| ≤ 2 ^ (511 : ℤ)) (h2 : |w.im| ≤ 2 ^ (511 : ℤ)) :
    AgrC (cdiv z (cfin w)) (F.div a w) := by
  have sq : ∀ x : ℝ, |x| ≤ 2 ^ (511 : ℤ) → |x * x| ≤ 2 ^ (1022 : ℤ) := fun x hx => by
    rw [abs_mul, show (1022 : ℤ) = 511 + 511 by norm_num, zpow_add₀ (by norm_num)]
    exact mul_le_mul hx hx (abs_nonneg _) (two_pow_pos _).le
  obtain ⟨r1, r2⟩ := rnd64_fin (sq _ h1) (by norm_num) (by norm_num)
  obtain ⟨i1, i2⟩ := rnd64_fin (sq _ h2) (by norm_num) (by norm_num)
  have b3 : |rndU (w.re * w.re) + rndU (w.im * w.im)| ≤ 2 ^ (1023 : ℤ) :=
    (abs_add_le _ _).trans ((add_le_add r2 i2).trans_eq (by rw [← two_mul, two_mul_pow]; norm_num only))
  obtain ⟨t1, -⟩ := rnd64_fin b3 (by norm_num) le_rfl
  have ht : add (mul (cfin w).re (cfin w).re) (mul (cfin w).im (cfin w).im) = .fin (rndU (rndU (w.re * w.re) + rndU (w.im * w.im))) := by
    show add (rnd64 (w.re * w.re)) (rnd64 (w.im * w.im)) = _
    rw [r1, i1]
    exact t1
  unfold cdiv
  dsimp only
  rw [ht, hF.div]
  have hw := agr_cfin w
  exact ⟨((h.1.mul hw.1).add (h.2.mul hw.2)).div _, ((h.2.mul hw.1).sub (h.1.mul hw.2)).div _⟩

end

/-! ## Differences of points -/

/-- Coordinates of at most `2^254`. -/
def ModC (z : ℂ) : Prop := |z.re| ≤ 2 ^ (254 : ℤ) ∧ |z.im| ≤ 2 ^ (254 : ℤ)

/-- The same for a point. -/
def Mod (v : Vec 2) : Prop := ∀ j, |v j| ≤ 2 ^ (254 : ℤ)

theorem Mod.toC {v : Vec 2} (h : Mod v) : ModC (toC v) := ⟨h 0, h 1⟩

theorem diff_le {a b : ℝ} {e : ℤ} (ha : |a| ≤ 2 ^ e) (hb : |b| ≤ 2 ^ e) : |a - b| ≤ 2 ^ (e + 1) :=
  (abs_sub _ _).trans ((add_le_add ha hb).trans_eq (by rw [← two_mul, two_mul_pow]))

theorem zdiff_fin (hF : Is64 F) {x y : ℂ} (hx : ModC x) (hy : ModC y) : zdiff x y = cfin (F.csub x y) ∧
    |(F.csub x y).re| ≤ 2 ^ (255 : ℤ) ∧ |(F.csub x y).im| ≤ 2 ^ (255 : ℤ) := by
  obtain ⟨r1, r2⟩ := rnd64_fin (diff_le hx.1 hy.1) (by norm_num) (by norm_num)
  obtain ⟨i1, i2⟩ := rnd64_fin (diff_le hx.2 hy.2) (by norm_num) (by norm_num)
  have e : F.csub x y = ⟨rndU (x.re - y.re), rndU (x.im - y.im)⟩ := by unfold Flt.csub; rw [hF.rnd, hF.rnd]
  rw [e]
  refine ⟨?_, r2, i2⟩
  show (⟨rnd64 (x.re + -y.re), rnd64 (x.im + -y.im)⟩ : DC) = _
  rw [← sub_eq_add_neg, ← sub_eq_add_neg, r1, i1]
  rfl

theorem cneg_fin (z : ℂ) : cneg (cfin z) = cfin (-z) := rfl

theorem pow255 : (2 : ℝ) ^ (255 : ℤ) ≤ 2 ^ (511 : ℤ) := two_pow_mono (by norm_num)

/-- The square of a difference. -/
theorem sq_fin (hF : Is64 F) {z : ℂ} (h1 : |z.re| ≤ 2 ^ (255 : ℤ)) (h2 : |z.im| ≤ 2 ^ (255 : ℤ)) :
    cmul (cfin z) (cfin z) = cfin (F.mul z z) ∧ |(F.mul z z).re| ≤ 2 ^ (511 : ℤ) ∧ |(F.mul z z).im| ≤ 2 ^ (511 : ℤ) := by
  have pr : ∀ x y : ℝ, |x| ≤ 2 ^ (255 : ℤ) → |y| ≤ 2 ^ (255 : ℤ) → |x * y| ≤ 2 ^ (510 : ℤ) := fun x y hx hy => by
    rw [abs_mul, show (510 : ℤ) = 255 + 255 by norm_num, zpow_add₀ (by norm_num)]
    exact mul_le_mul hx hy (abs_nonneg _) (two_pow_pos _).le
  have fin := fun x y hx hy => rnd64_fin (pr x y hx hy) (by norm_num) (by norm_num)
  obtain ⟨a1, a2⟩ := fin _ _ h1 h1
  obtain ⟨b1, b2⟩ := fin _ _ h2 h2
  obtain ⟨c1, c2⟩ := fin _ _ h1 h2
  obtain ⟨d1, d2⟩ := fin _ _ h2 h1
  obtain ⟨r1, r2⟩ := rnd64_fin (diff_le a2 b2) (by norm_num) (by norm_num)
  have hs : |rndU (z.re * z.im) + rndU (z.im * z.re)| ≤ 2 ^ (510 + 1 : ℤ) :=
    (abs_add_le _ _).trans ((add_le_add c2 d2).trans_eq (by rw [← two_mul, two_mul_pow]))
  obtain ⟨i1, i2⟩ := rnd64_fin hs (by norm_num) (by norm_num)
  rw [hF.mul]
  refine ⟨?_, r2, i2⟩
  show (⟨add (rnd64 (z.re * z.re)) (neg (rnd64 (z.im * z.im))), add (rnd64 (z.re * z.im)) (rnd64 (z.im * z.re))⟩ : DC) = _
  rw [a1, b1, c1, d1]
  show (⟨rnd64 (_ + -_), rnd64 (_ + _)⟩ : DC) = _
  rw [← sub_eq_add_neg, r1, i1]
  rfl

/-! ## Functions -/

section
variable (hF : Is64 F)
include hF

theorem powTable_sim {x : DC} {y : ℂ} (h : AgrC x y) (n : ℕ) : Sim AAgr (Fl.powTable F y n) (powTable x n) := by
  unfold Fl.powTable powTable
  refine Sim.bind (R := fun (b : Arr DC × DC) (a : Arr ℂ × ℂ) => AAgr b.1 a.1 ∧ AgrC b.2 a.2) ?_ ?_
  · refine Sim.loop _ ⟨aagr_zeros _, agr_cfin 1⟩ fun i _ a b hab => ?_
    exact (hab.1.wr i hab.2).bind fun t t' ht => Sim.ok ⟨ht, cmul_agr hF hab.2 h⟩
  · rintro ⟨a, z⟩ ⟨b, w⟩ hab
    exact Sim.ok hab.1

theorem meAddSource_sim {p : ℕ} {cen : ℂ} (hc : ModC cen) {s : Source 2} (hs : Mod s.pos) {a : Arr DC} {b : Arr ℂ} (h : AAgr a b) :
    Sim AAgr (Fl.meAddSource F p cen b s) (meAddSource p cen a s) := by
  obtain ⟨z1, -, -⟩ := zdiff_fin hF hs.toC hc
  unfold Fl.meAddSource meAddSource
  dsimp only
  rw [z1]
  have hz := agr_cfin (F.csub (toC s.pos) cen)
  refine (h.rd 0).bind fun a0 b0 h0 => (h.wr 0 (caddr_agr hF h0 s.q)).bind fun c d hcd => ?_
  refine Sim.bind (R := fun (b : Arr DC × DC) (a : Arr ℂ × ℂ) => AAgr b.1 a.1 ∧ AgrC b.2 a.2) ?_ ?_
  · refine Sim.loop _ ⟨hcd, hz⟩ fun i _ a b hab => ?_
    refine (hab.1.rd (i + 1)).bind fun x y hxy => (hab.1.wr (i + 1) (csub_agr hF hxy (rsc_agr hF (agr_fin s.q) hab.2))).bind fun t t' ht => ?_
    exact Sim.ok ⟨ht, cmul_agr hF hab.2 hz⟩
  · rintro ⟨a, z⟩ ⟨b, w⟩ hab
    exact Sim.ok hab.1

theorem divByIndex_sim (p : ℕ) {a : Arr DC} {b : Arr ℂ} (h : AAgr a b) : Sim AAgr (Fl.divByIndex F p b) (divByIndex p a) := by
  unfold Fl.divByIndex divByIndex
  refine Sim.loop _ h fun i _ a b hab => ?_
  exact (hab.rd (i + 1)).bind fun x y hxy => hab.wr (i + 1) (cdr_agr hF hxy _)

theorem meShift_sim {bt : BinomialTable} {e : ExpD} {f : Exp2} (ho : e.order = f.order) (he : AAgr e.coeffs f.coeffs) {z : DC} {w : ℂ} (hz : AgrC z w) :
    Sim AAgr (Fl.meShift F bt f w) (meShift bt e z) := by
  unfold Fl.meShift meShift
  rw [ho]
  refine (powTable_sim hF hz _).bind fun pw pw' hp => (he.rd 0).bind fun a0 b0 h0 => ?_
  refine ((aagr_zeros _).wr 0 (agr_ofD h0.1)).bind fun sc sc' hsc => ?_
  refine Sim.loop _ hsc fun i _ sc sc' hsc => ?_
  dsimp only
  refine (hp.rd _).bind fun p p' hpp => (hsc.wr _ (cdr_agr hF (rsc_agr hF h0.1.neg hpp) _)).bind fun sc sc' hsc => ?_
  refine Sim.loop _ hsc fun i' _ sc sc' hsc => ?_
  refine (hsc.rd _).bind fun x x' hx => (he.rd _).bind fun ck ck' hck => (hp.rd _).bind fun q q' hq => Sim.same.bind fun b b' hb => ?_
  subst hb
  refine hsc.wr _ (cadd_agr hF hx (rsc_agr hF ?_ (cmul_agr hF hck hq)))
  rw [hF.rnd]
  exact agr_rnd _

theorem addCoeffs_sim {a a' : Arr DC} {b b' : Arr ℂ} (h : AAgr a b) (h' : AAgr a' b') : Sim AAgr (Fl.addCoeffs F b b') (addCoeffs a a') := by
  unfold Fl.addCoeffs addCoeffs
  rw [h.1]
  refine Sim.loop _ h fun i _ c c' hc => ?_
  exact (hc.rd i).bind fun x x' hx => (h'.rd i).bind fun y y' hy => hc.wr i (cadd_agr hF hx hy)

/-- Expansions of the same order about the same centre with agreeing coefficients. -/
structure EAgr (e : ExpD) (f : Exp2) : Prop where
  order : e.order = f.order
  center : e.center = f.center
  coeffs : AAgr e.coeffs f.coeffs
  mod : ModC f.center

/-- Pairs of table and expansion. -/
def TAgr (r : BinomialTable × ExpD) (s : BinomialTable × Exp2) : Prop := r.1 = s.1 ∧ EAgr r.2 s.2

omit hF in
theorem new_sim {bt : BinomialTable} {c : Vec 2} (hc : Mod c) (p : ℕ) :
    Sim (fun r s => TAgr r s ∧ s.2 = ⟨p, toC c, Arr.new (p + 1)⟩) (Exp2.new bt c p) (new bt c p) := by
  unfold Exp2.new new
  dsimp only
  have key : ∀ bt, Sim (fun r s => TAgr r s ∧ s.2 = ⟨p, toC c, Arr.new (p + 1)⟩) (.ok (bt, ⟨p, toC c, Arr.new (p + 1)⟩))
      (.ok (bt, ⟨p, toC c, zeros (p + 1)⟩)) := fun bt => Sim.ok ⟨⟨rfl, rfl, rfl, aagr_zeros _, hc.toC⟩, rfl⟩
  by_cases h : p > bt.maxOrder
  · rw [if_pos h, if_pos h]
    refine Sim.same.bind fun b b' hb => ?_
    subst hb
    exact key _
  · rw [if_neg h, if_neg h]
    exact key _

theorem meOfSources_sim {bt : BinomialTable} {c : Vec 2} (hc : Mod c) (p : ℕ) {S : List (Source 2)} (hS : ∀ s ∈ S, Mod s.pos) :
    Sim TAgr (Fl.meOfSources F bt c p S) (meOfSources bt c p S) := by
  unfold Fl.meOfSources meOfSources
  refine (new_sim hc p).bind ?_
  rintro ⟨bt, f⟩ ⟨bt', e⟩ ⟨⟨h1, h2⟩, -⟩
  dsimp only at h1 h2 ⊢
  subst h1
  rw [h2.center]
  refine (Sim.fold (forall_self hS) (fun s s' a b hs hab => ?_) h2.coeffs).bind fun a b hab => ?_
  · rw [hs.1]
    exact meAddSource_sim hF h2.mod hs.2 hab
  · exact (divByIndex_sim hF p hab).bind fun a b hab => Sim.ok ⟨rfl, h2.order, rfl, hab, h2.mod⟩

theorem meOfMes_sim {bt : BinomialTable} {c : Vec 2} (hc : Mod c) {es : List ExpD} {fs : List Exp2} (h : List.Forall₂ EAgr es fs) :
    Sim TAgr (Fl.meOfMes F bt c fs) (meOfMes bt c es) := by
  cases h with
  | nil => exact Sim.err
  | cons h1 hl =>
    have hl := List.Forall₂.cons h1 hl
    unfold Fl.meOfMes meOfMes
    dsimp only
    rw [h1.order]
    refine (new_sim hc _).bind ?_
    rintro ⟨bt, f⟩ ⟨bt', e⟩ ⟨⟨t1, t2⟩, -⟩
    dsimp only at t1 t2 ⊢
    subst t1
    refine (Sim.fold hl (fun f' e' a b hfe hab => ?_) t2.coeffs).bind fun a b hab => Sim.ok ⟨rfl, t2.order, t2.center, hab, t2.mod⟩
    rw [hfe.center, t2.center, (zdiff_fin hF hfe.mod t2.mod).1]
    exact (meShift_sim hF hfe.order hfe.coeffs (agr_cfin _)).bind fun s s' hs => addCoeffs_sim hF hab hs

theorem leOfLe_sim {bt : BinomialTable} {c : Vec 2} (hc : Mod c) {e : ExpD} {f : Exp2} (h : EAgr e f) :
    Sim TAgr (Fl.leOfLe F bt c f) (leOfLe bt c e) := by
  unfold Fl.leOfLe leOfLe
  rw [h.order]
  refine (new_sim hc _).bind ?_
  rintro ⟨bt, g⟩ ⟨bt', g'⟩ ⟨⟨t1, t2⟩, -⟩
  dsimp only at t1 t2 ⊢
  subst t1
  by_cases h0 : f.order > 0
  · rw [if_pos h0, if_pos h0, h.center, t2.center, (zdiff_fin hF h.mod t2.mod).1]
    refine Sim.bind (R := AAgr) ?_ fun a b hab => Sim.ok ⟨rfl, t2.order, rfl, hab, t2.mod⟩
    unfold Fl.leShift leShift
    rw [h.order]
    refine Sim.loop _ h.coeffs fun j _ a b hab => Sim.loop _ hab fun i _ a b hab => ?_
    exact (hab.rd _).bind fun x x' hx => (hab.rd _).bind fun y y' hy => hab.wr _ (csub_agr hF hx (cmul_agr hF (agr_cfin _) hy))
  · rw [if_neg h0]; exact Sim.err

theorem addEq_sim {e e' : ExpD} {f f' : Exp2} (h : EAgr e f) (h' : EAgr e' f') : Sim EAgr (Fl.addEq F f f') (addEq e e') := by
  unfold Fl.addEq addEq
  rw [h.coeffs.1, h'.coeffs.1, h.center, h'.center]
  by_cases c : f.coeffs.size ≠ f'.coeffs.size ∨ f.center ≠ f'.center
  · rw [if_pos c]; exact Sim.err
  · rw [if_neg c, if_neg c]
    refine Sim.ok ⟨h.order, rfl, ⟨rfl, fun i => ?_⟩, h.mod⟩
    dsimp only
    by_cases hi : i < f.coeffs.size
    · rw [if_pos hi, if_pos hi]; exact cadd_agr hF (h.coeffs.2 i) (h'.coeffs.2 i)
    · rw [if_neg hi, if_neg hi]; exact h.coeffs.2 i

theorem lePot_sim {e : ExpD} {f : Exp2} (h : EAgr e f) {x : Vec 2} (hx : Mod x) : Sim Agr (Fl.lePot F f x) (lePot e x) := by
  unfold Fl.lePot lePot
  rw [h.center, (zdiff_fin hF hx.toC h.mod).1, h.coeffs.1]
  dsimp only
  refine Sim.bind (R := fun (b : DC × DC) (a : ℂ × ℂ) => AgrC b.1 a.1 ∧ AgrC b.2 a.2) ?_ ?_
  · refine Sim.loop _ ⟨agrC_zero, agr_cfin 1⟩ fun i _ a b hab => ?_
    exact (h.coeffs.rd i).bind fun y y' hy => Sim.ok ⟨cadd_agr hF hab.1 (cmul_agr hF hy hab.2), cmul_agr hF hab.2 (agr_cfin _)⟩
  · rintro ⟨a, z⟩ ⟨b, w⟩ hab
    exact Sim.ok hab.1.1

/-- Vectors. -/
def VAgr (v : DVec 2) (w : Vec 2) : Prop := ∀ j, Agr (v j) (w j)

omit hF in
theorem vagr2 {a b : Dbl} {x y : ℝ} (h0 : Agr a x) (h1 : Agr b y) : VAgr ![a, b] ![x, y] := by
  intro j
  fin_cases j
  · exact h0
  · exact h1

theorem leForce_sim {e : ExpD} {f : Exp2} (h : EAgr e f) {x : Vec 2} (hx : Mod x) : Sim VAgr (Fl.leForce F f x) (leForce e x) := by
  unfold Fl.leForce leForce
  rw [h.center, (zdiff_fin hF hx.toC h.mod).1, h.coeffs.1]
  dsimp only
  refine Sim.bind (R := fun (b : DC × DC) (a : ℂ × ℂ) => AgrC b.1 a.1 ∧ AgrC b.2 a.2) ?_ ?_
  · refine Sim.loop _ ⟨agrC_zero, agr_cfin 1⟩ fun i _ a b hab => ?_
    exact (h.coeffs.rd _).bind fun y y' hy =>
      Sim.ok ⟨cadd_agr hF hab.1 (cmul_agr hF (rsc_agr hF (agr_fin _) hy) hab.2), cmul_agr hF hab.2 (agr_cfin _)⟩
  · rintro ⟨a, z⟩ ⟨b, w⟩ hab
    exact Sim.ok (vagr2 hab.1.1.neg hab.1.2)

theorem meForce_sim {e : ExpD} {f : Exp2} (h : EAgr e f) {x : Vec 2} (hx : Mod x) : Sim VAgr (Fl.meForce F f x) (meForce e x) := by
  obtain ⟨z1, z2, z3⟩ := zdiff_fin hF hx.toC h.mod
  obtain ⟨q1, q2, q3⟩ := sq_fin hF z2 z3
  unfold Fl.meForce meForce
  rw [h.center, z1, h.coeffs.1]
  dsimp only
  refine (h.coeffs.rd 0).bind fun a0 b0 h0 => Sim.ite_err fun _ => ?_
  rw [q1]
  refine Sim.bind (R := fun (b : DC × DC) (a : ℂ × ℂ) => AgrC b.1 a.1 ∧ AgrC b.2 a.2) ?_ ?_
  · refine Sim.loop _ ⟨cdiv_agr hF (agr_ofD h0.1) (z2.trans pow255) (z3.trans pow255), cdiv_agr hF (agr_cfin 1) q2 q3⟩ fun i _ a b hab => ?_
    exact (h.coeffs.rd _).bind fun y y' hy =>
      Sim.ok ⟨csub_agr hF hab.1 (cmul_agr hF (rsc_agr hF (agr_fin _) hy) hab.2), cdiv_agr hF hab.2 (z2.trans pow255) (z3.trans pow255)⟩
  · rintro ⟨a, z⟩ ⟨b, w⟩ hab
    exact Sim.ok (vagr2 hab.1.1.neg hab.1.2)

/-! ### With logarithms -/

variable (hL : LogOf log F)
include hL

theorem mePot_sim {e : ExpD} {f : Exp2} (h : EAgr e f) {x : Vec 2} (hx : Mod x) : Sim Agr (Fl.mePot F f x) (mePot log e x) := by
  obtain ⟨z1, z2, z3⟩ := zdiff_fin hF hx.toC h.mod
  unfold Fl.mePot mePot
  rw [h.center, z1, h.coeffs.1]
  dsimp only
  refine (h.coeffs.rd 0).bind fun a0 b0 h0 => Sim.ite_err fun hz => ?_
  refine Sim.bind (R := fun (b : DC × DC) (a : ℂ × ℂ) => AgrC b.1 a.1 ∧ AgrC b.2 a.2) ?_ ?_
  · refine Sim.loop _ ⟨rsc_agr hF h0.1 (hL _ hz), cdiv_agr hF (agr_cfin 1) (z2.trans pow255) (z3.trans pow255)⟩ fun i _ a b hab => ?_
    exact (h.coeffs.rd _).bind fun y y' hy =>
      Sim.ok ⟨cadd_agr hF hab.1 (cmul_agr hF hy hab.2), cdiv_agr hF hab.2 (z2.trans pow255) (z3.trans pow255)⟩
  · rintro ⟨a, z⟩ ⟨b, w⟩ hab
    exact Sim.ok hab.1.1

theorem leAddSource_sim {p : ℕ} {cen : ℂ} (hc : ModC cen) {s : Source 2} (hs : Mod s.pos) {a : Arr DC} {b : Arr ℂ} (h : AAgr a b) :
    Sim AAgr (Fl.leAddSource F p cen b s) (leAddSource log p cen a s) := by
  obtain ⟨z1, z2, z3⟩ := zdiff_fin hF hs.toC hc
  unfold Fl.leAddSource leAddSource
  dsimp only
  rw [z1, cneg_fin]
  refine Sim.ite_err fun hz => ?_
  refine (h.rd 0).bind fun a0 b0 h0 => (h.wr 0 (cadd_agr hF h0 (rsc_agr hF (agr_fin _) (hL _ (neg_ne_zero.mpr hz))))).bind fun c d hcd => ?_
  refine Sim.bind (R := fun (b : Arr DC × DC) (a : Arr ℂ × ℂ) => AAgr b.1 a.1 ∧ AgrC b.2 a.2) ?_ ?_
  · refine Sim.loop _ ⟨hcd, cdiv_agr hF (agr_cfin 1) (z2.trans pow255) (z3.trans pow255)⟩ fun i _ a b hab => ?_
    refine (hab.1.rd (i + 1)).bind fun x y hxy => (hab.1.wr (i + 1) (csub_agr hF hxy (rsc_agr hF (agr_fin s.q) hab.2))).bind fun t t' ht => ?_
    exact Sim.ok ⟨ht, cdiv_agr hF hab.2 (z2.trans pow255) (z3.trans pow255)⟩
  · rintro ⟨a, z⟩ ⟨b, w⟩ hab
    exact Sim.ok hab.1

theorem leOfSources_sim {bt : BinomialTable} {c : Vec 2} (hc : Mod c) (p : ℕ) {S : List (Source 2)} (hS : ∀ s ∈ S, Mod s.pos) :
    Sim TAgr (Fl.leOfSources F bt c p S) (leOfSources log bt c p S) := by
  unfold Fl.leOfSources leOfSources
  refine (new_sim hc p).bind ?_
  rintro ⟨bt, f⟩ ⟨bt', e⟩ ⟨⟨h1, h2⟩, -⟩
  dsimp only at h1 h2 ⊢
  subst h1
  rw [h2.center]
  refine (Sim.fold (forall_self hS) (fun s s' a b hs hab => ?_) h2.coeffs).bind fun a b hab => ?_
  · rw [hs.1]
    exact leAddSource_sim hF hL h2.mod hs.2 hab
  · exact (divByIndex_sim hF p hab).bind fun a b hab => Sim.ok ⟨rfl, h2.order, rfl, hab, h2.mod⟩

theorem m2l_sim {bt : BinomialTable} (p : ℕ) {c : ℂ} (hc : ModC c) {e : ExpD} {f : Exp2} (h : EAgr e f) :
    Sim AAgr (Fl.m2l F bt p c f) (m2l log bt p c e) := by
  obtain ⟨z1, z2, z3⟩ := zdiff_fin hF h.mod hc
  unfold Fl.m2l m2l
  rw [h.center, z1]
  dsimp only
  rw [cneg_fin]
  refine Sim.ite_err fun hz => ?_
  refine (powTable_sim hF (cdiv_agr hF (agr_cfin 1) (z2.trans pow255) (z3.trans pow255)) p).bind fun inv inv' hi => ?_
  refine (h.coeffs.rd 0).bind fun a0 b0 h0 => ?_
  refine Sim.bind (R := AgrC) ?_ fun b b' hb => ?_
  · refine Sim.loop _ (cmul_agr hF h0 (hL _ (neg_ne_zero.mpr hz))) fun i _ a b hab => ?_
    exact (h.coeffs.rd _).bind fun x x' hx => (hi.rd _).bind fun q q' hq => Sim.ok (cadd_agr hF hab (cmul_agr hF (rsc_agr hF (agr_fin _) hx) hq))
  refine ((aagr_zeros _).wr 0 hb).bind fun cc cc' hcc => ?_
  refine Sim.loop _ hcc fun i _ cc cc' hcc => ?_
  refine Sim.bind (R := AgrC) ?_ fun b b' hb => (hi.rd _).bind fun q q' hq => hcc.wr _ (cmul_agr hF hb hq)
  refine Sim.loop _ (cdr_agr hF (cneg_agr h0) _) fun i' _ a b hab => ?_
  refine (h.coeffs.rd _).bind fun x x' hx => (hi.rd _).bind fun q q' hq => Sim.same.bind fun bn bn' hbn => ?_
  subst hbn
  refine Sim.ok (cadd_agr hF hab (rsc_agr hF ?_ (cmul_agr hF (rsc_agr hF (agr_fin _) hx) hq)))
  rw [hF.rnd]
  exact agr_rnd _

theorem leOfMe_sim {bt : BinomialTable} {c : Vec 2} (hc : Mod c) {e : ExpD} {f : Exp2} (h : EAgr e f) :
    Sim TAgr (Fl.leOfMe F bt c f) (leOfMe log bt c e) := by
  unfold Fl.leOfMe leOfMe
  rw [h.order]
  refine (new_sim hc _).bind ?_
  rintro ⟨bt, g⟩ ⟨bt', g'⟩ ⟨⟨t1, t2⟩, -⟩
  dsimp only at t1 t2 ⊢
  subst t1
  by_cases h0 : f.order > 0
  · rw [if_pos h0, if_pos h0, t2.center, t2.order]
    exact (m2l_sim hF hL _ t2.mod h).bind fun a b hab => Sim.ok ⟨rfl, rfl, rfl, hab, t2.mod⟩
  · rw [if_neg h0]; exact Sim.err

theorem leOfMes_sim {bt : BinomialTable} {c : Vec 2} (hc : Mod c) {es : List ExpD} {fs : List Exp2} (h : List.Forall₂ EAgr es fs) :
    Sim TAgr (Fl.leOfMes F bt c fs) (leOfMes log bt c es) := by
  cases h with
  | nil => exact Sim.err
  | cons h1 hl =>
    have hl := List.Forall₂.cons h1 hl
    unfold Fl.leOfMes leOfMes
    dsimp only
    rw [h1.order]
    refine (new_sim hc _).bind ?_
    rintro ⟨bt, f⟩ ⟨bt', e⟩ ⟨⟨t1, t2⟩, -⟩
    dsimp only at t1 t2 ⊢
    subst t1
    refine Sim.fold (R := TAgr) hl (fun f' e' a b hfe hab => ?_) ⟨rfl, t2⟩
    rw [hab.1]
    refine (leOfMe_sim hF hL hc hfe).bind ?_
    rintro ⟨bt, f⟩ ⟨bt', e⟩ ⟨u1, u2⟩
    dsimp only at u1 u2 ⊢
    subst u1
    exact (addEq_sim hF hab.2 u2).bind fun x x' hx => Sim.ok ⟨rfl, hx⟩

end
end FMM.D2
