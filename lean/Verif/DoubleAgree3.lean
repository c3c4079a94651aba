import Verif.DoubleTree3
import Verif.FltForceRun3

/-!
# Expansions in binary64 and expansions without upper limit of the exponent

`Agr d x`: the `double` `d` is `x` unless it is infinite or NaN.  All operations of `DoubleExp3.lean` are related in this sense to those of
`FltExp3.lean` with the rounding `rndU`, which differs from `rnd64` only in having no largest number, as long as no divisor is infinite.
-/

namespace FMM.D64
open FMM Rounded

/-- Rounding to 53 bits, multiples of `2^-1074` below `2^-1022`, without a largest number. -/
noncomputable def rndU (x : ℝ) : ℝ :=
  if |x| < 2 ^ (-1022 : ℤ) then (roundEven (x / 2 ^ (-1074 : ℤ)) : ℝ) * 2 ^ (-1074 : ℤ) else rndNE x

theorem rnd64_eq (x : ℝ) : rnd64 x = if |rndU x| < 2 ^ (1024 : ℤ) then .fin (rndU x) else .inf (decide (x < 0)) := rfl

/-- `d` is `x` or not finite. -/
def Agr (d : Dbl) (x : ℝ) : Prop := ∀ y, d = .fin y → y = x

/-- The same for complex numbers. -/
def AgrC (z : DC) (w : ℂ) : Prop := Agr z.re w.re ∧ Agr z.im w.im

theorem agr_fin (x : ℝ) : Agr (.fin x) x := fun y h => by injection h with h; exact h.symm

theorem agr_fin' {x y : ℝ} (h : x = y) : Agr (.fin x) y := h ▸ agr_fin x

theorem agr_inf (s : Bool) (x : ℝ) : Agr (.inf s) x := fun _ h => by cases h

theorem agr_nan (x : ℝ) : Agr .nan x := fun _ h => by cases h

theorem agr_rnd (x : ℝ) : Agr (rnd64 x) (rndU x) := by
  rw [rnd64_eq]
  by_cases h : |rndU x| < 2 ^ (1024 : ℤ)
  · rw [if_pos h]; exact agr_fin _
  · rw [if_neg h]; exact agr_inf _ _

theorem Agr.add {a b : Dbl} {x y : ℝ} (ha : Agr a x) (hb : Agr b y) : Agr (add a b) (rndU (x + y)) := by
  cases a with
  | fin a =>
    cases b with
    | fin b => rw [← ha a rfl, ← hb b rfl]; exact agr_rnd _
    | inf t => exact agr_inf _ _
    | nan => exact agr_nan _
  | inf s =>
    cases b with
    | fin b => exact agr_inf _ _
    | inf t =>
      unfold D64.add
      dsimp only
      by_cases h : s = t
      · rw [if_pos h]; exact agr_inf _ _
      · rw [if_neg h]; exact agr_nan _
    | nan => exact agr_nan _
  | nan => cases b <;> exact agr_nan _

theorem Agr.neg {a : Dbl} {x : ℝ} (ha : Agr a x) : Agr (neg a) (-x) := by
  cases a with
  | fin a => rw [← ha a rfl]; exact agr_fin _
  | inf s => exact agr_inf _ _
  | nan => exact agr_nan _

theorem Agr.sub {a b : Dbl} {x y : ℝ} (ha : Agr a x) (hb : Agr b y) : Agr (D64.add a (D64.neg b)) (rndU (x - y)) := by
  rw [sub_eq_add_neg]; exact ha.add hb.neg

theorem Agr.mul {a b : Dbl} {x y : ℝ} (ha : Agr a x) (hb : Agr b y) : Agr (mul a b) (rndU (x * y)) := by
  cases a with
  | fin a =>
    cases b with
    | fin b => rw [← ha a rfl, ← hb b rfl]; exact agr_rnd _
    | inf t =>
      unfold D64.mul
      dsimp only
      by_cases h : a = 0
      · rw [if_pos h]; exact agr_nan _
      · rw [if_neg h]; exact agr_inf _ _
    | nan => exact agr_nan _
  | inf s =>
    cases b with
    | fin b =>
      unfold D64.mul
      dsimp only
      by_cases h : b = 0
      · rw [if_pos h]; exact agr_nan _
      · rw [if_neg h]; exact agr_inf _ _
    | inf t => exact agr_inf _ _
    | nan => exact agr_nan _
  | nan => cases b <;> exact agr_nan _

/-- A finite divisor. -/
theorem Agr.div {a : Dbl} {x : ℝ} (ha : Agr a x) (y : ℝ) : Agr (div a (.fin y)) (rndU (x / y)) := by
  cases a with
  | fin a =>
    rw [← ha a rfl]
    unfold D64.div
    by_cases h : y = 0
    · simp only [if_pos h]
      by_cases h' : a = 0
      · rw [if_pos h']; exact agr_nan _
      · rw [if_neg h']; exact agr_inf _ _
    · simp only [if_neg h]; exact agr_rnd _
  | inf s => exact agr_inf _ _
  | nan => exact agr_nan _

/-- A divisor that is not infinite. -/
theorem Agr.div' {a b : Dbl} {x y : ℝ} (ha : Agr a x) (hb : Agr b y) (h : ∀ s, b ≠ .inf s) : Agr (D64.div a b) (rndU (x / y)) := by
  cases b with
  | fin b => rw [← hb b rfl]; exact ha.div b
  | inf s => exact absurd rfl (h s)
  | nan => cases a <;> exact agr_nan _

/-! ## Arithmetics with this rounding -/

/-- The arithmetic operations of `F` are those of `double` without upper limit of the exponent; the other library functions are arbitrary. -/
structure Is64 (F : Flt3) : Prop where
  rnd : ∀ x, F.rnd x = rndU x
  mul : ∀ x y : ℂ, F.mul x y = ⟨rndU (rndU (x.re * y.re) - rndU (x.im * y.im)), rndU (rndU (x.re * y.im) + rndU (x.im * y.re))⟩
  nrm3 : ∀ v, F.nrm3 v = rndU (Vec.norm v)
  cos : ∀ t, |F.rcos t| ≤ 1

/-- The library functions and tables of `L` are those of `F`, up to degree 84; harmonics may have overflowed. -/
structure LibOf (L : Lib) (F : Flt3) : Prop where
  ang : ∀ v : Vec 3, L.ang (fun j => .fin (v j)) = (.fin (F.sph v 1), .fin (F.sph v 2))
  ylm : ∀ (lmax : ℕ) (θ φ : ℝ) (Y : YlmTable) (l : ℕ) (m : ℤ) (y : ℂ), Fl3.ylm F lmax θ φ = .ok Y → l ≤ lmax → |m| ≤ l → Y.get l m = .ok y →
    AgrC (L.ylm lmax (.fin θ, .fin φ) l m) y
  ylmD : ∀ (lmax : ℕ) (θ φ : ℝ) (Y : YlmDerivTable) (l : ℕ) (m : ℤ) (y dt dp : ℂ), Fl3.ylmD F lmax θ φ = .ok Y → l ≤ lmax → |m| ≤ l →
    Y.Y l m = .ok y → Y.dYdtheta l m = .ok dt → Fl3.dYdphi F Y l m = .ok dp →
    AgrC (L.ylmD lmax (.fin θ, .fin φ) l m).1 y ∧ AgrC (L.ylmD lmax (.fin θ, .fin φ) l m).2.1 dt ∧ AgrC (L.ylmD lmax (.fin θ, .fin φ) l m).2.2 dp
  sin : ∀ t, L.sin (.fin t) = .fin (F.rsin t)
  cos : ∀ t, L.cos (.fin t) = .fin (F.rcos t)
  alm : ∀ (n : ℕ) (m : ℤ), n ≤ 84 → |m| ≤ n → L.alm n m = .fin (F.alm n m (aSpec n m)) ∧ F.alm n m (aSpec n m) ≠ 0
  sign1 : ∀ k m : ℤ, L.sign1 k m = .fin (sg1 k m)
  sign2 : ∀ k m : ℤ, L.sign2 k m = .fin (sg2 k m)
  sign3 : ∀ k m : ℤ, L.sign3 k m = .fin (sg3 k m)

variable {F : Flt3} {L : Lib}

theorem agrC_zero : AgrC czero 0 := ⟨agr_fin _, agr_fin _⟩

theorem AgrC.cadd (hF : Is64 F) {z w : DC} {a b : ℂ} (h : AgrC z a) (h' : AgrC w b) : AgrC (cadd z w) (F.cadd a b) := by
  unfold Flt.cadd
  rw [hF.rnd, hF.rnd]
  exact ⟨h.1.add h'.1, h.2.add h'.2⟩

theorem AgrC.rsc (hF : Is64 F) {z : DC} {a : ℂ} {r : Dbl} {x : ℝ} (hr : Agr r x) (h : AgrC z a) : AgrC (rsc r z) (F.rsc x a) := by
  unfold Flt.rsc
  rw [hF.rnd, hF.rnd]
  exact ⟨hr.mul h.1, hr.mul h.2⟩

theorem Agr.rsc' (hF : Is64 F) {z : DC} {a : ℂ} {r : Dbl} {x : ℝ} (hr : Agr r x) (h : AgrC z a) : AgrC (D64.rsc r z) (F.rsc x a) :=
  AgrC.rsc hF hr h

theorem AgrC.cdr (hF : Is64 F) {z : DC} {a : ℂ} (h : AgrC z a) (x : ℝ) : AgrC (cdr z (.fin x)) (F.cdr a x) := by
  unfold Flt.cdr
  rw [hF.rnd, hF.rnd]
  exact ⟨h.1.div x, h.2.div x⟩

theorem AgrC.cmul (hF : Is64 F) {z w : DC} {a b : ℂ} (h : AgrC z a) (h' : AgrC w b) : AgrC (cmul z w) (F.mul a b) := by
  rw [hF.mul]
  exact ⟨(h.1.mul h'.1).sub (h.2.mul h'.2), (h.1.mul h'.2).add (h.2.mul h'.1)⟩

theorem Agr.rmul (hF : Is64 F) {a b : Dbl} {x y : ℝ} (ha : Agr a x) (hb : Agr b y) : Agr (D64.mul a b) (F.rnd (x * y)) := by
  rw [hF.rnd]; exact ha.mul hb

theorem Agr.rdiv (hF : Is64 F) {a : Dbl} {x : ℝ} (ha : Agr a x) (y : ℝ) : Agr (D64.div a (.fin y)) (F.rnd (x / y)) := by
  rw [hF.rnd]; exact ha.div y

/-! ## Loops -/

theorem loopM_rel {σ τ : Type*} (R : σ → τ → Prop) (n : ℕ) (f : ℕ → σ → Outcome σ) (g : τ → ℕ → τ) {s : σ} {t : τ} (h0 : R s t)
    (h : ∀ i < n, ∀ s t, R s t → ∃ s', f i s = .ok s' ∧ R s' (g t i)) :
    ∃ s', loopM n f s = .ok s' ∧ R s' ((List.range n).foldl g t) := by
  induction n with
  | zero => exact ⟨s, rfl, h0⟩
  | succ n ih =>
    obtain ⟨s1, e1, r1⟩ := ih fun i hi => h i (by omega)
    obtain ⟨s2, e2, r2⟩ := h n (by omega) _ _ r1
    refine ⟨s2, by rw [loopM_succ, e1]; exact e2, ?_⟩
    rw [List.range_succ, List.foldl_append]
    exact r2

theorem loopZ_rel {σ τ : Type*} (R : σ → τ → Prop) (lo hi : ℤ) (f : ℤ → σ → Outcome σ) (g : τ → ℤ → τ) {s : σ} {t : τ} (h0 : R s t)
    (h : ∀ m, lo ≤ m → m ≤ hi → ∀ s t, R s t → ∃ s', f m s = .ok s' ∧ R s' (g t m)) :
    ∃ s', loopZ lo hi f s = .ok s' ∧ R s' ((zrange lo hi).foldl g t) := by
  unfold loopZ zrange
  rw [List.foldl_map]
  exact loopM_rel R _ _ (fun t (i : ℕ) => g t (lo + i)) h0 fun i hi' => h _ (by omega) (by omega)

/-- The double loop over the indices of an array. -/
theorem foldl_indices {τ : Type*} (g : τ → ℕ × ℤ → τ) (order : ℕ) (t : τ) :
    (indices order).foldl g t = (List.range (order + 1)).foldl (fun t (n : ℕ) => (zrange (-(n : ℤ)) n).foldl (fun t m => g t (n, m)) t) t := by
  unfold indices
  rw [List.foldl_flatMap]
  congr 1
  funext t n
  rw [List.foldl_map]

/-- Inversion of a sequence of operations. -/
theorem bind_ok {α β : Type} {x : Outcome α} {f : α → Outcome β} {b : β} (h : (x >>= f) = .ok b) : ∃ a, x = .ok a ∧ f a = .ok b := by
  cases x with
  | error e => cases h
  | ok a => exact ⟨a, rfl, h⟩

/-! ## Powers -/

theorem pows_rel (hF : Is64 F) {r : Dbl} {x : ℝ} (h : Agr r x) (n : ℕ) : Agr (pows r n) (Fl3.rpw F x 1 n) := by
  induction n with
  | zero => exact agr_fin _
  | succ n ih =>
    have := ih.rmul hF h
    exact this

/-- Repeated division by a finite number. -/
theorem ipows_rel (hF : Is64 F) {a : Dbl} {x : ℝ} (h : Agr a x) (r : ℝ) (n : ℕ) : Agr (ipows a (.fin r) n) (Fl3.rdv F r x n) := by
  induction n with
  | zero => exact h
  | succ n ih => exact ih.rdiv hF r

/-! ## Distances -/

/-- Coordinates of moderate size. -/
def Mod (v : Vec 3) : Prop := ∀ j, |v j| ≤ 2 ^ (300 : ℤ)

theorem rnd64_fin {x : ℝ} {b : ℤ} (h : |x| ≤ 2 ^ b) (h1 : -1022 ≤ b) (h2 : b ≤ 1023) : rnd64 x = .fin (rndU x) ∧ |rndU x| ≤ 2 ^ b := by
  obtain ⟨y, e, hy⟩ := rnd64_le h h1 h2
  have := agr_rnd x y e
  subst this
  exact ⟨e, hy⟩

theorem two_mul_pow (b : ℤ) : (2 : ℝ) * 2 ^ b = 2 ^ (b + 1) := by
  rw [zpow_add₀ (by norm_num), zpow_one]; ring

theorem vsub_fin (hF : Is64 F) {v w : Vec 3} (hv : Mod v) (hw : Mod w) :
    vsub v w = (fun j => .fin (F.vsub v w j)) ∧ ∀ j, |F.vsub v w j| ≤ 2 ^ (301 : ℤ) := by
  have key : ∀ j, rnd64 (v j - w j) = .fin (rndU (v j - w j)) ∧ |rndU (v j - w j)| ≤ 2 ^ (301 : ℤ) := by
    intro j
    refine rnd64_fin ?_ (by norm_num) (by norm_num)
    have e := two_mul_pow 300
    norm_num only at e
    rw [← e]
    have h1 := hv j
    have h2 := hw j
    generalize (2 : ℝ) ^ (300 : ℤ) = P at h1 h2 ⊢
    exact (abs_sub _ _).trans (by linarith)
  have e : ∀ j, F.vsub v w j = rndU (v j - w j) := fun j => hF.rnd _
  refine ⟨?_, fun j => by rw [e]; exact (key j).2⟩
  funext j
  rw [e]
  exact (key j).1

/-- Differences and distances of moderate points. -/
theorem geo_fin (hF : Is64 F) (hL : LibOf L F) {v w : Vec 3} (hv : Mod v) (hw : Mod w) :
    norm3 (vsub v w) = .fin (F.nrm3 (F.vsub v w)) ∧ |F.nrm3 (F.vsub v w)| ≤ 2 ^ (302 : ℤ) ∧
      L.ang (vsub v w) = (.fin (F.sph (F.vsub v w) 1), .fin (F.sph (F.vsub v w) 2)) := by
  obtain ⟨h1, h2⟩ := vsub_fin hF hv hw
  have h3 := norm3_le (two_pow_pos _).le h2
  have e := two_mul_pow 301
  norm_num only at e
  rw [e] at h3
  have h4 : 0 ≤ Vec.norm (F.vsub v w) := Real.sqrt_nonneg _
  obtain ⟨h5, h6⟩ := rnd64_fin (b := 302) (by rwa [abs_of_nonneg h4]) (by norm_num) (by norm_num)
  rw [h1, norm3_of_fin, hF.nrm3]
  exact ⟨h5, h6, hL.ang _⟩

/-! ## Harmonics -/

theorem ylm_agr (hF : Is64 F) (hL : LibOf L F) (lmax : ℕ) (θ φ : ℝ) {l : ℕ} (hl : l ≤ lmax) {m : ℤ} (hm : |m| ≤ l) :
    AgrC (L.ylm lmax (.fin θ, .fin φ) l m) (Fl3.yv F lmax (F.rcos θ) φ l m) := by
  obtain ⟨Y, h1, h2⟩ := Fl3.ylm_ok F lmax θ φ (hF.cos _)
  exact hL.ylm lmax θ φ Y l m _ h1 hl hm (h2 l hl m hm)

/-! ## Coefficients -/

theorem cell_lt {p n : ℕ} {m : ℤ} (hn : n ≤ p) (hm : |m| ≤ n) : cell n m < (p + 1) * (p + 1) := by
  obtain ⟨h0, h1⟩ := lmIndex_bounds hm hn
  unfold cell; omega

/-- The coefficients `e` agree with the array `a`. -/
structure Cells (p : ℕ) (e : Coeffs) (a : Arr ℂ) : Prop where
  size : a.size = (p + 1) * (p + 1)
  val : ∀ n ≤ p, ∀ m : ℤ, |m| ≤ n → AgrC (e n m) (a.val (cell n m))

/-- The expansions agree. -/
structure CAgr (p : ℕ) (c : Vec 3) (e : Exp64) (f : Exp3) : Prop where
  order : e.order = p
  order' : f.order = p
  size : e.size = (p + 1) * (p + 1)
  center : e.center = c
  center' : f.center = c
  cells : Cells p e.c f.coeffs

theorem CAgr.is {p : ℕ} {c : Vec 3} {e : Exp64} {f : Exp3} (h : CAgr p c e f) : f.Is c p (fun n m => f.coeffs.val (cell n m)) :=
  ⟨h.order', h.center', h.cells.size, fun _ _ _ _ => rfl⟩

theorem addEq_agr (hF : Is64 F) {p : ℕ} {c : Vec 3} {e e' : Exp64} {f f' g : Exp3} (h : CAgr p c e f) (h' : CAgr p c e' f')
    (hg : Fl3.addEq F f f' = .ok g) : ∃ d, addEq e e' = .ok d ∧ CAgr p c d g := by
  refine ⟨_, if_neg ?_, h.order, ?_, h.size, h.center, ?_, ?_, ?_⟩
  · rw [h.size, h'.size, h.center, h'.center]; simp
  all_goals
    unfold Fl3.addEq at hg
    rw [if_neg (by rw [h.cells.size, h'.cells.size, h.center', h'.center']; simp)] at hg
    injection hg with hg
    subst hg
  · exact h.order'
  · exact h.center'
  · exact h.cells.size
  · intro n hn m hm
    have hc : cell n m < f.coeffs.size := by rw [h.cells.size]; exact cell_lt hn hm
    show AgrC (cadd (e.c n m) (e'.c n m)) (if cell n m < f.coeffs.size then F.cadd (f.coeffs.val (cell n m)) (f'.coeffs.val (cell n m)) else _)
    rw [if_pos hc]
    exact (h.cells.val n hn m hm).cadd hF (h'.cells.val n hn m hm)

theorem addCoeffs_agr (hF : Is64 F) {p : ℕ} {e e' : Coeffs} {a a' b : Arr ℂ} (h : Cells p e a) (h' : Cells p e' a')
    (hb : Fl.addCoeffs F.toFlt a a' = .ok b) : Cells p (fun j k => cadd (e j k) (e' j k)) b := by
  rw [Fl.addCoeffs_ok _ _ _ (by rw [h.size, h'.size])] at hb
  injection hb with hb
  subst hb
  refine ⟨h.size, fun n hn m hm => ?_⟩
  have hc : cell n m < a.size := by rw [h.size]; exact cell_lt hn hm
  show AgrC _ (if cell n m < a.size then F.cadd (a.val (cell n m)) (a'.val (cell n m)) else _)
  rw [if_pos hc]
  exact (h.val n hn m hm).cadd hF (h'.val n hn m hm)

/-! ## Sources -/

theorem meAddSource_agr (hF : Is64 F) (hL : LibOf L F) {p : ℕ} {c : Vec 3} (hc : Mod c) {s : Source 3} (hs : Mod s.pos) {a a' : Arr ℂ} {e : Coeffs}
    (h : Cells p e a) (ha : Fl3.meAddSource F p c a s = .ok a') : Cells p (p2mAdd L p c e s) a' := by
  obtain ⟨g1, -, g3⟩ := geo_fin hF hL hs hc
  unfold Fl3.meAddSource at ha
  set v' := F.vsub s.pos c with hv
  obtain ⟨Y, hY, hYv⟩ := Fl3.ylm_ok F p (F.sph v' 1) (F.sph v' 2) (hF.cos _)
  simp only [Fl3.sph0] at ha
  rw [hY, ok_bind] at ha
  obtain ⟨b, b1, b2, b3⟩ := Fl3.srcLoop F hYv (fun x => .ok (F.rnd (x * F.nrm3 v'))) (Fl3.rpw F (F.nrm3 v') 1) (fun i => rfl) (q := s.q) a h.size
  have e1 := ha.symm.trans b1
  injection e1 with e1
  subst e1
  refine ⟨b2, fun n hn m hm => ?_⟩
  rw [b3 n hn m hm]
  unfold p2mAdd
  rw [g1, g3]
  exact (h.val n hn m hm).cadd hF (((agr_fin s.q).rmul hF (pows_rel hF (agr_fin _) n)).rsc' hF
    (ylm_agr hF hL p _ _ hn (by rwa [abs_neg])))

/-- Equal outcomes. -/
theorem ok_inj {α : Type} {x : Outcome α} {a b : α} (h : x = .ok a) (h' : x = .ok b) : a = b := by
  rw [h] at h'; injection h'

theorem leAddSource_agr (hF : Is64 F) (hL : LibOf L F) {p : ℕ} {c : Vec 3} (hc : Mod c) {s : Source 3} (hs : Mod s.pos) {a a' : Arr ℂ} {e : Coeffs}
    (h : Cells p e a) (ha : Fl3.leAddSource F p c a s = .ok a') : Cells p (p2lAdd L p c e s) a' := by
  obtain ⟨g1, -, g3⟩ := geo_fin hF hL hs hc
  unfold Fl3.leAddSource at ha
  set v' := F.vsub s.pos c with hv
  obtain ⟨Y, hY, hYv⟩ := Fl3.ylm_ok F p (F.sph v' 1) (F.sph v' 2) (hF.cos _)
  simp only [Fl3.sph0] at ha
  have hr : F.nrm3 v' ≠ 0 := by
    intro h0
    rw [hY, ok_bind, Fl3.divR, if_pos h0] at ha
    cases ha
  rw [hY, ok_bind, Fl3.divR, if_neg hr, ok_bind] at ha
  obtain ⟨b, b1, b2, b3⟩ := Fl3.srcLoop F hYv (fun x => Fl3.divR F x (F.nrm3 v')) (Fl3.rdv F (F.nrm3 v') (F.rnd (1 / F.nrm3 v')))
    (fun i => by rw [Fl3.divR, if_neg hr]; rfl) (q := s.q) a h.size
  have e1 := ok_inj ha b1
  subst e1
  refine ⟨b2, fun n hn m hm => ?_⟩
  rw [b3 n hn m hm]
  unfold p2lAdd
  rw [g1, g3]
  exact (h.val n hn m hm).cadd hF (((agr_fin s.q).rmul hF (ipows_rel hF ((agr_fin 1).rdiv hF _) _ n)).rsc' hF
    (ylm_agr hF hL p _ _ hn (by rwa [abs_neg])))

/-- Loops over lists of related elements. -/
theorem foldlM_agr {α β σ τ : Type} (Q : α → β → Prop) (R : σ → τ → Prop) (f : σ → α → Outcome σ) (g : τ → β → τ)
    (h : ∀ a b s t s', Q a b → R s t → f s a = .ok s' → R s' (g t b)) {l : List α} {l' : List β} (hl : List.Forall₂ Q l l') {s s' : σ} {t : τ}
    (h0 : R s t) (e : l.foldlM f s = .ok s') : R s' (l'.foldl g t) := by
  induction hl generalizing s t with
  | nil => injection e with e; subst e; exact h0
  | cons hq _ ih =>
    rw [List.foldlM_cons] at e
    obtain ⟨s1, e1, e2⟩ := bind_ok e
    exact ih (h _ _ _ _ _ hq h0 e1) e2

theorem forall₂_self {α : Type} (Q : α → Prop) (l : List α) (h : ∀ a ∈ l, Q a) : List.Forall₂ (fun a b => a = b ∧ Q a) l l := by
  induction l with
  | nil => exact .nil
  | cons a l ih => exact .cons ⟨rfl, h a (by simp)⟩ (ih fun b hb => h b (by simp [hb]))

/-- Inversion of the constructor of an expansion with zero coefficients. -/
theorem new_agr {st st' : Stat3} (hst : st.Good) {c : Vec 3} {p : ℕ} (hp : p ≤ 42) {f : Exp3} (h : Exp3.new st c p = .ok (st', f)) :
    st'.Good ∧ p ≤ st'.alm.maxOrder ∧ CAgr p c (Exp64.new c p) f := by
  obtain ⟨st1, e, h1, h2, h3, -, h5⟩ := Exp3.new_ok st hst c p hp
  have := ok_inj h h1
  injection this with e1 e2
  subst e1 e2
  refine ⟨h2, h3, rfl, h5.order, rfl, rfl, h5.center, h5.size, fun n hn m hm => ?_⟩
  rw [h5.val n hn m hm]
  exact agrC_zero

theorem meOfSources_agr (hF : Is64 F) (hL : LibOf L F) {p : ℕ} (hp : p ≤ 42) {c : Vec 3} (hc : Mod c) {S : List (Source 3)} (hS : ∀ s ∈ S, Mod s.pos)
    {st st' : Stat3} (hst : st.Good) {f : Exp3} (h : Fl3.meOfSources F st c p S = .ok (st', f)) :
    st'.Good ∧ CAgr p c { Exp64.new c p with c := p2m L p c S } f := by
  unfold Fl3.meOfSources at h
  obtain ⟨⟨st1, f1⟩, h1, h⟩ := bind_ok h
  obtain ⟨a, h2, h⟩ := bind_ok h
  obtain ⟨n1, -, n2⟩ := new_agr hst hp h1
  injection h with h
  injection h with e1 e2
  subst e1 e2
  simp only [n2.center'] at h2
  exact ⟨n1, n2.order, n2.order', n2.size, n2.center, n2.center', foldlM_agr (fun (a b : Source 3) => a = b ∧ Mod a.pos) (fun a e => Cells p e a) _ (p2mAdd L p c)
    (fun a b s t s' hq hr e => meAddSource_agr hF hL hc (hq.1 ▸ hq.2) hr (hq.1 ▸ e)) (forall₂_self (fun s => Mod s.pos) S hS) n2.cells h2⟩

theorem leOfSources_agr (hF : Is64 F) (hL : LibOf L F) {p : ℕ} (hp : p ≤ 42) {c : Vec 3} (hc : Mod c) {S : List (Source 3)} (hS : ∀ s ∈ S, Mod s.pos)
    {st st' : Stat3} (hst : st.Good) {f : Exp3} (h : Fl3.leOfSources F st c p S = .ok (st', f)) :
    st'.Good ∧ CAgr p c { Exp64.new c p with c := p2l L p c S } f := by
  unfold Fl3.leOfSources at h
  obtain ⟨⟨st1, f1⟩, h1, h⟩ := bind_ok h
  obtain ⟨a, h2, h⟩ := bind_ok h
  obtain ⟨n1, -, n2⟩ := new_agr hst hp h1
  injection h with h
  injection h with e1 e2
  subst e1 e2
  simp only [n2.center'] at h2
  exact ⟨n1, n2.order, n2.order', n2.size, n2.center, n2.center', foldlM_agr (fun (a b : Source 3) => a = b ∧ Mod a.pos) (fun a e => Cells p e a) _ (p2lAdd L p c)
    (fun a b s t s' hq hr e => leAddSource_agr hF hL hc (hq.1 ▸ hq.2) hr (hq.1 ▸ e)) (forall₂_self (fun s => Mod s.pos) S hS) n2.cells h2⟩

/-! ## Translations -/

section coeffs
variable {st : Stat3} {f : Exp3} {c : Vec 3} {p : ℕ} {a : ℕ → ℤ → ℂ} {Y : YlmTable} {y : ℕ → ℤ → ℂ} {pow : Arr ℝ} {P : ℕ → ℝ} {e : Coeffs}
  {Y' : ℕ → ℤ → DC} {P' : ℕ → Dbl}

theorem meShiftCoeff_agr (hF : Is64 F) (hL : LibOf L F) (hst : st.Good) (he : f.Is c p a) (hp0 : 0 < p) (hp : p ≤ 42) (hM : p ≤ st.alm.maxOrder)
    (hY : ∀ l ≤ p, ∀ m : ℤ, |m| ≤ l → Y.get l m = .ok (y l m)) (hpow : pow.size = p + 1) (hpv : ∀ k ≤ p, pow.val k = P k)
    (hea : ∀ n ≤ p, ∀ m : ℤ, |m| ≤ n → AgrC (e n m) (a n m)) (hYa : ∀ n ≤ p, ∀ m : ℤ, |m| ≤ n → AgrC (Y' n m) (y n m)) (hPa : ∀ n ≤ p, Agr (P' n) (P n))
    {j : ℕ} {k : ℤ} (hj : j ≤ p) (hk : |k| ≤ j) :
    ∃ w, Fl3.meShiftCoeff F st f Y pow j k = .ok w ∧
      AgrC (cdr ((List.range (j + 1)).foldl (fun M (n : ℕ) =>
        cadd M (rsc (P' n) ((zrange (max (-(n : ℤ)) (n + k - j)) (min (n : ℤ) (j + k - n))).foldl (fun acc m =>
          cadd acc (rsc (mul (mul (L.sign1 k m) (L.alm n m)) (L.alm (j - n) (k - m))) (cmul (e (j - n) (k - m)) (Y' n (-m))))) czero))) czero) (L.alm j k)) w := by
  unfold Fl3.meShiftCoeff
  have hk' := hk
  rw [abs_le] at hk'
  obtain ⟨r, h1, h2⟩ := loopM_rel (fun (z : ℂ) w => AgrC w z) (j + 1) (fun n M => do
    let acc ← loopZ (max (-(n : ℤ)) (n + k - j)) (min (n : ℤ) (j + k - n)) (fun m acc => do
      let s ← st.s1.get k m
      let a ← Fl3.aGet F st n m
      let b ← Fl3.aGet F st (j - n) (k - m)
      let o ← f.get (j - n) (k - m)
      let y ← Y.get n (-m)
      .ok (F.cadd acc (F.rsc (F.rnd (F.rnd (s * a) * b)) (F.mul o y)))) 0
    let p ← pow.rd n
    .ok (F.cadd M (F.rsc p acc)))
    (fun M (n : ℕ) =>
        cadd M (rsc (P' n) ((zrange (max (-(n : ℤ)) (n + k - j)) (min (n : ℤ) (j + k - n))).foldl (fun acc m =>
          cadd acc (rsc (mul (mul (L.sign1 k m) (L.alm n m)) (L.alm (j - n) (k - m))) (cmul (e (j - n) (k - m)) (Y' n (-m))))) czero)))
    (s := 0) (t := czero) agrC_zero (fun n hn M M' hMM => by
      obtain ⟨acc, g1, g2⟩ := loopZ_rel (fun (z : ℂ) w => AgrC w z) (max (-(n : ℤ)) (n + k - j)) (min (n : ℤ) (j + k - n)) (fun m acc => do
          let s ← st.s1.get k m
          let a ← Fl3.aGet F st n m
          let b ← Fl3.aGet F st (j - n) (k - m)
          let o ← f.get (j - n) (k - m)
          let y ← Y.get n (-m)
          .ok (F.cadd acc (F.rsc (F.rnd (F.rnd (s * a) * b)) (F.mul o y))))
        (fun acc m => cadd acc (rsc (mul (mul (L.sign1 k m) (L.alm n m)) (L.alm (j - n) (k - m))) (cmul (e (j - n) (k - m)) (Y' n (-m)))))
        (s := 0) (t := czero) agrC_zero (fun m hm1 hm2 z w hzw => by
          have hm : |m| ≤ n := by rw [abs_le]; omega
          have hkm : |k - m| ≤ ((j - n : ℕ) : ℤ) := by rw [abs_le]; omega
          refine ⟨F.cadd z (F.rsc (F.rnd (F.rnd (sg1 k m * F.alm n m (aSpec n m)) * F.alm (j - n) (k - m) (aSpec (j - n) (k - m))))
            (F.mul (a (j - n) (k - m)) (y n (-m)))), ?_, ?_⟩
          · rw [SignTable.get_ok hst.s1 (by rw [hst.m1]; omega) (by rw [hst.m1]; omega) (by rw [hst.m1]; omega), ok_bind,
              Fl3.aGet_ok hst (by omega) (by omega) hm, ok_bind, Fl3.aGet_ok hst (by omega) (by omega) hkm, ok_bind,
              he.get (by omega) hkm, ok_bind, hY n (by omega) (-m) (by rwa [abs_neg]), ok_bind]
          · rw [hL.sign1, (hL.alm n m (by omega) hm).1, (hL.alm (j - n) (k - m) (by omega) hkm).1]
            exact hzw.cadd hF ((((agr_fin _).rmul hF (agr_fin _)).rmul hF (agr_fin _)).rsc' hF
              ((hea _ (by omega) _ hkm).cmul hF (hYa n (by omega) (-m) (by rwa [abs_neg])))))
      refine ⟨F.cadd M (F.rsc (P n) acc), ?_, ?_⟩
      · rw [g1, ok_bind, Arr.rd_ok _ (by rw [hpow]; omega), ok_bind, hpv n (by omega)]
      · exact hMM.cadd hF ((hPa n (by omega)).rsc' hF g2))
  obtain ⟨l1, l2⟩ := hL.alm j k (by omega) hk
  rw [h1, ok_bind, Fl3.aGet_ok hst (by omega) (by omega) hk, ok_bind, Fl3.divC, if_neg l2, l1]
  exact ⟨_, rfl, h2.cdr hF _⟩

theorem m2lCoeff_agr (hF : Is64 F) (hL : LibOf L F) (hst : st.Good) (he : f.Is c p a) (hp0 : 0 < p) (hp : p ≤ 42) (hM : p ≤ st.alm.maxOrder)
    (hY : ∀ l ≤ 2 * p, ∀ m : ℤ, |m| ≤ l → Y.get l m = .ok (y l m)) (hpow : pow.size = 2 * p + 1 + 1) (hpv : ∀ k ≤ 2 * p + 1, pow.val k = P k)
    (hea : ∀ n ≤ p, ∀ m : ℤ, |m| ≤ n → AgrC (e n m) (a n m)) (hYa : ∀ n ≤ 2 * p, ∀ m : ℤ, |m| ≤ n → AgrC (Y' n m) (y n m))
    (hPa : ∀ n ≤ 2 * p + 1, Agr (P' n) (P n)) {j : ℕ} {k : ℤ} (hj : j ≤ p) (hk : |k| ≤ j) :
    ∃ w, Fl3.m2lCoeff F st p f Y pow j k = .ok w ∧
      AgrC (rsc (L.alm j k) ((List.range (p + 1)).foldl (fun Ljk (n : ℕ) =>
        cadd Ljk (rsc (mul (parity n) (P' (j + n + 1))) ((zrange (-(n : ℤ)) n).foldl (fun acc m =>
          cadd acc (rsc (div (mul (L.sign2 k m) (L.alm n m)) (L.alm (j + n) (m - k))) (cmul (e n m) (Y' (j + n) (m - k))))) czero))) czero)) w := by
  unfold Fl3.m2lCoeff
  have hk' := hk
  rw [abs_le] at hk'
  obtain ⟨r, h1, h2⟩ := loopM_rel (fun (z : ℂ) w => AgrC w z) (p + 1) (fun n L => do
    let acc ← loopZ (-(n : ℤ)) n (fun m acc => do
      let s ← st.s2.get k m
      let a ← Fl3.aGet F st n m
      let b ← Fl3.aGet F st (j + n) (m - k)
      let A ← Fl3.divR F (F.rnd (s * a)) b
      let o ← f.get n m
      let y ← Y.get (j + n) (m - k)
      .ok (F.cadd acc (F.rsc A (F.mul o y)))) 0
    let p ← pow.rd (j + n + 1)
    .ok (F.cadd L (F.rsc (F.rnd (Exp3.parSign n * p)) acc)))
    (fun Ljk (n : ℕ) =>
        cadd Ljk (rsc (mul (parity n) (P' (j + n + 1))) ((zrange (-(n : ℤ)) n).foldl (fun acc m =>
          cadd acc (rsc (div (mul (L.sign2 k m) (L.alm n m)) (L.alm (j + n) (m - k))) (cmul (e n m) (Y' (j + n) (m - k))))) czero)))
    (s := 0) (t := czero) agrC_zero (fun n hn M M' hMM => by
      obtain ⟨acc, g1, g2⟩ := loopZ_rel (fun (z : ℂ) w => AgrC w z) (-(n : ℤ)) n (fun m acc => do
          let s ← st.s2.get k m
          let a ← Fl3.aGet F st n m
          let b ← Fl3.aGet F st (j + n) (m - k)
          let A ← Fl3.divR F (F.rnd (s * a)) b
          let o ← f.get n m
          let y ← Y.get (j + n) (m - k)
          .ok (F.cadd acc (F.rsc A (F.mul o y))))
        (fun acc m => cadd acc (rsc (div (mul (L.sign2 k m) (L.alm n m)) (L.alm (j + n) (m - k))) (cmul (e n m) (Y' (j + n) (m - k)))))
        (s := 0) (t := czero) agrC_zero (fun m hm1 hm2 z w hzw => by
          have hm : |m| ≤ n := by rw [abs_le]; omega
          have hkm : |m - k| ≤ ((j + n : ℕ) : ℤ) := by rw [abs_le]; push_cast; omega
          obtain ⟨l1, l2⟩ := hL.alm (j + n) (m - k) (by omega) hkm
          refine ⟨F.cadd z (F.rsc (F.rnd (F.rnd (sg2 k m * F.alm n m (aSpec n m)) / F.alm (j + n) (m - k) (aSpec (j + n) (m - k))))
            (F.mul (a n m) (y (j + n) (m - k)))), ?_, ?_⟩
          · rw [SignTable.get_ok hst.s2 (by rw [hst.m2]; omega) (by rw [hst.m2]; omega) (by rw [hst.m2]; omega), ok_bind,
              Fl3.aGet_ok hst (by omega) (by omega) hm, ok_bind, Fl3.aGet_ok hst (by omega) (by omega) hkm, ok_bind, Fl3.divR, if_neg l2, ok_bind,
              he.get (by omega) hm, ok_bind, hY (j + n) (by omega) (m - k) hkm, ok_bind]
          · rw [hL.sign2, (hL.alm n m (by omega) hm).1, l1]
            exact hzw.cadd hF ((((agr_fin _).rmul hF (agr_fin _)).rdiv hF _).rsc' hF
              ((hea _ (by omega) _ hm).cmul hF (hYa _ (by omega) _ hkm))))
      refine ⟨F.cadd M (F.rsc (F.rnd (Exp3.parSign n * P (j + n + 1))) acc), ?_, ?_⟩
      · rw [g1, ok_bind, Arr.rd_ok _ (by rw [hpow]; omega), ok_bind, hpv _ (by omega)]
      · exact hMM.cadd hF (((agr_fin _).rmul hF (hPa _ (by omega))).rsc' hF g2))
  rw [h1, ok_bind, Fl3.aGet_ok hst (by omega) (by omega) hk, ok_bind, (hL.alm j k (by omega) hk).1]
  exact ⟨_, rfl, (agr_fin _).rsc' hF h2⟩

theorem leShiftCoeff_agr (hF : Is64 F) (hL : LibOf L F) (hst : st.Good) (he : f.Is c p a) (hp0 : 0 < p) (hp : p ≤ 42) (hM : p ≤ st.alm.maxOrder)
    (hY : ∀ l ≤ 2 * p, ∀ m : ℤ, |m| ≤ l → Y.get l m = .ok (y l m)) (hpow : pow.size = p + 1) (hpv : ∀ k ≤ p, pow.val k = P k)
    (hea : ∀ n ≤ p, ∀ m : ℤ, |m| ≤ n → AgrC (e n m) (a n m)) (hYa : ∀ n ≤ 2 * p, ∀ m : ℤ, |m| ≤ n → AgrC (Y' n m) (y n m)) (hPa : ∀ n ≤ p, Agr (P' n) (P n))
    {j : ℕ} {k : ℤ} (hj : j ≤ p) (hk : |k| ≤ j) :
    ∃ w, Fl3.leShiftCoeff F st f Y pow j k = .ok w ∧
      AgrC (rsc (L.alm j k) (((List.range (p + 1 - j)).map (j + ·)).foldl (fun Ljk (n : ℕ) =>
        cadd Ljk (rsc (mul (parity (n + j)) (P' (n - j))) ((zrange (max (-(n : ℤ)) (k + j - n)) (min (n : ℤ) (k + n - j))).foldl (fun acc m =>
          cadd acc (rsc (div (mul (L.sign3 k m) (L.alm (n - j) (m - k))) (L.alm n m)) (cmul (e n m) (Y' (n - j) (m - k))))) czero))) czero)) w := by
  unfold Fl3.leShiftCoeff
  have hk' := hk
  rw [abs_le] at hk'
  rw [he.order, List.foldl_map]
  obtain ⟨r, h1, h2⟩ := loopM_rel (fun (z : ℂ) w => AgrC w z) (p + 1 - j) (fun i L => do
    let n := j + i
    let acc ← loopZ (max (-(n : ℤ)) (k + j - n)) (min (n : ℤ) (k + n - j)) (fun m acc => do
      let s ← st.s3.get k m
      let a ← Fl3.aGet F st (n - j) (m - k)
      let b ← Fl3.aGet F st n m
      let A ← Fl3.divR F (F.rnd (s * a)) b
      let o ← f.get n m
      let y ← Y.get (n - j) (m - k)
      .ok (F.cadd acc (F.rsc A (F.mul o y)))) 0
    let p ← pow.rd (n - j)
    .ok (F.cadd L (F.rsc (F.rnd (Exp3.parSign (n + j) * p)) acc)))
    (fun Ljk (i : ℕ) => (fun Ljk (n : ℕ) =>
        cadd Ljk (rsc (mul (parity (n + j)) (P' (n - j))) ((zrange (max (-(n : ℤ)) (k + j - n)) (min (n : ℤ) (k + n - j))).foldl (fun acc m =>
          cadd acc (rsc (div (mul (L.sign3 k m) (L.alm (n - j) (m - k))) (L.alm n m)) (cmul (e n m) (Y' (n - j) (m - k))))) czero))) Ljk (j + i))
    (s := 0) (t := czero) agrC_zero (fun i hi M M' hMM => by
      simp only
      generalize hn : j + i = n
      obtain ⟨acc, g1, g2⟩ := loopZ_rel (fun (z : ℂ) w => AgrC w z) (max (-(n : ℤ)) (k + j - n)) (min (n : ℤ) (k + n - j)) (fun m acc => do
          let s ← st.s3.get k m
          let a ← Fl3.aGet F st (n - j) (m - k)
          let b ← Fl3.aGet F st n m
          let A ← Fl3.divR F (F.rnd (s * a)) b
          let o ← f.get n m
          let y ← Y.get (n - j) (m - k)
          .ok (F.cadd acc (F.rsc A (F.mul o y))))
        (fun acc m => cadd acc (rsc (div (mul (L.sign3 k m) (L.alm (n - j) (m - k))) (L.alm n m)) (cmul (e n m) (Y' (n - j) (m - k)))))
        (s := 0) (t := czero) agrC_zero (fun m hm1 hm2 z w hzw => by
          have hm : |m| ≤ n := by rw [abs_le]; omega
          have hkm : |m - k| ≤ ((n - j : ℕ) : ℤ) := by rw [abs_le]; omega
          obtain ⟨l1, l2⟩ := hL.alm n m (by omega) hm
          refine ⟨F.cadd z (F.rsc (F.rnd (F.rnd (sg3 k m * F.alm (n - j) (m - k) (aSpec (n - j) (m - k))) / F.alm n m (aSpec n m)))
            (F.mul (a n m) (y (n - j) (m - k)))), ?_, ?_⟩
          · rw [SignTable.get_ok hst.s3 (by rw [hst.m3]; omega) (by rw [hst.m3]; omega) (by rw [hst.m3]; omega), ok_bind,
              Fl3.aGet_ok hst (by omega) (by omega) hkm, ok_bind, Fl3.aGet_ok hst (by omega) (by omega) hm, ok_bind, Fl3.divR, if_neg l2, ok_bind,
              he.get (by omega) hm, ok_bind, hY (n - j) (by omega) (m - k) hkm, ok_bind]
          · rw [hL.sign3, (hL.alm (n - j) (m - k) (by omega) hkm).1, l1]
            exact hzw.cadd hF ((((agr_fin _).rmul hF (agr_fin _)).rdiv hF _).rsc' hF
              ((hea _ (by omega) _ hm).cmul hF (hYa _ (by omega) _ hkm))))
      refine ⟨F.cadd M (F.rsc (F.rnd (Exp3.parSign (n + j) * P (n - j))) acc), ?_, ?_⟩
      · rw [g1, ok_bind, Arr.rd_ok _ (by rw [hpow]; omega), ok_bind, hpv _ (by omega)]
      · exact hMM.cadd hF (((agr_fin _).rmul hF (hPa _ (by omega))).rsc' hF g2))
  rw [h1, ok_bind, Fl3.aGet_ok hst (by omega) (by omega) hk, ok_bind, (hL.alm j k (by omega) hk).1]
  exact ⟨_, rfl, (agr_fin _).rsc' hF h2⟩

end coeffs

theorem meShift_agr (hF : Is64 F) (hL : LibOf L F) {st : Stat3} (hst : st.Good) {p : ℕ} (hp0 : 0 < p) (hp : p ≤ 42) (hM : p ≤ st.alm.maxOrder) {c c' : Vec 3}
    (hc : Mod c) (hc' : Mod c') {e : Exp64} {f : Exp3} (he : CAgr p c e f) {d : Arr ℂ} (hd : Fl3.meShift F st f (F.vsub c c') = .ok d) :
    Cells p (meShift L p e.c (vsub c c')) d := by
  obtain ⟨g1, -, g3⟩ := geo_fin hF hL hc hc'
  unfold Fl3.meShift at hd
  set v' := F.vsub c c' with hv
  obtain ⟨Y, hY, hYv⟩ := Fl3.ylm_ok F p (F.sph v' 1) (F.sph v' 2) (hF.cos _)
  obtain ⟨pw, hpw, hps, hpv⟩ := Fl3.powTable_ok F (F.nrm3 v') p
  have hex : ∀ (j : ℕ) (k : ℤ), ∃ w, j ≤ p → |k| ≤ j → Fl3.meShiftCoeff F st f Y pw j k = .ok w ∧ AgrC (meShift L p e.c (vsub c c') j k) w := by
    intro j k
    by_cases h : j ≤ p ∧ |k| ≤ j
    · obtain ⟨w, h1, h2⟩ := meShiftCoeff_agr hF hL hst he.is hp0 hp hM hYv hps hpv he.cells.val
        (Y' := L.ylm p (.fin (F.sph v' 1), .fin (F.sph v' 2))) (P' := pows (.fin (F.nrm3 v')))
        (fun n hn m hm => ylm_agr hF hL p _ _ hn hm) (fun n _ => pows_rel hF (agr_fin _) n) h.1 h.2
      refine ⟨w, fun _ _ => ⟨h1, ?_⟩⟩
      unfold meShift
      rw [g1, g3]
      exact h2
    · exact ⟨0, fun h1 h2 => absurd ⟨h1, h2⟩ h⟩
  choose w hw using hex
  obtain ⟨b, h1, h2, h3⟩ := Fl3.grid_pos (p := p) (Fl3.meShiftCoeff F st f Y pw) w he.cells.size fun j hj k hk => (hw j k hj hk).1
  simp only [he.order', Fl3.sph0] at hd
  rw [hY, ok_bind, hpw, ok_bind] at hd
  have e1 := ok_inj hd h1
  subst e1
  exact ⟨h2, fun j hj k hk => by rw [h3 j hj k hk]; exact (hw j k hj hk).2⟩

theorem leShift_agr (hF : Is64 F) (hL : LibOf L F) {st : Stat3} (hst : st.Good) {p : ℕ} (hp0 : 0 < p) (hp : p ≤ 42) (hM : p ≤ st.alm.maxOrder) {c c' : Vec 3}
    (hc : Mod c) (hc' : Mod c') {e : Exp64} {f : Exp3} (he : CAgr p c e f) {d : Arr ℂ} (hd : Fl3.leShift F st f (F.vsub c c') = .ok d) :
    Cells p (leShift L p e.c (vsub c c')) d := by
  obtain ⟨g1, -, g3⟩ := geo_fin hF hL hc hc'
  unfold Fl3.leShift at hd
  set v' := F.vsub c c' with hv
  obtain ⟨Y, hY, hYv⟩ := Fl3.ylm_ok F (2 * p) (F.sph v' 1) (F.sph v' 2) (hF.cos _)
  obtain ⟨pw, hpw, hps, hpv⟩ := Fl3.powTable_ok F (F.nrm3 v') p
  have hex : ∀ (j : ℕ) (k : ℤ), ∃ w, j ≤ p → |k| ≤ j → Fl3.leShiftCoeff F st f Y pw j k = .ok w ∧ AgrC (leShift L p e.c (vsub c c') j k) w := by
    intro j k
    by_cases h : j ≤ p ∧ |k| ≤ j
    · obtain ⟨w, h1, h2⟩ := leShiftCoeff_agr hF hL hst he.is hp0 hp hM hYv hps hpv he.cells.val
        (Y' := L.ylm (2 * p) (.fin (F.sph v' 1), .fin (F.sph v' 2))) (P' := pows (.fin (F.nrm3 v')))
        (fun n hn m hm => ylm_agr hF hL (2 * p) _ _ hn hm) (fun n _ => pows_rel hF (agr_fin _) n) h.1 h.2
      refine ⟨w, fun _ _ => ⟨h1, ?_⟩⟩
      unfold leShift
      rw [g1, g3]
      exact h2
    · exact ⟨0, fun h1 h2 => absurd ⟨h1, h2⟩ h⟩
  choose w hw using hex
  obtain ⟨b, h1, h2, h3⟩ := Fl3.grid_pos (p := p) (Fl3.leShiftCoeff F st f Y pw) w he.cells.size fun j hj k hk => (hw j k hj hk).1
  simp only [he.order', Fl3.sph0] at hd
  rw [hY, ok_bind, hpw, ok_bind] at hd
  have e1 := ok_inj hd h1
  subst e1
  exact ⟨h2, fun j hj k hk => by rw [h3 j hj k hk]; exact (hw j k hj hk).2⟩

theorem leOfMe_agr (hF : Is64 F) (hL : LibOf L F) {st st' : Stat3} (hst : st.Good) {p : ℕ} (hp0 : 0 < p) (hp : p ≤ 42) {c c' : Vec 3}
    (hc : Mod c) (hc' : Mod c') {e : Exp64} {f g : Exp3} (he : CAgr p c e f) (hg : Fl3.leOfMe F st c' f = .ok (st', g)) :
    st'.Good ∧ CAgr p c' { Exp64.new c' p with c := m2l L p c' (c, e.c) } g := by
  obtain ⟨g1, -, g3⟩ := geo_fin hF hL hc hc'
  unfold Fl3.leOfMe at hg
  rw [he.order'] at hg
  obtain ⟨⟨st1, f1⟩, h1, hg⟩ := bind_ok hg
  obtain ⟨n1, n2, n3⟩ := new_agr hst hp h1
  simp only [n3.center', n3.order', he.center', Fl3.sph0] at hg
  set v' := F.vsub c c' with hv
  obtain ⟨Y, hY, hYv⟩ := Fl3.ylm_ok F (2 * p) (F.sph v' 1) (F.sph v' 2) (hF.cos _)
  obtain ⟨pw, hpw, hps, hpv⟩ := Fl3.powTable_ok F (F.rnd (1 / F.nrm3 v')) (2 * p + 1)
  have hr : F.nrm3 v' ≠ 0 := by
    intro h0
    rw [hY, ok_bind, Fl3.divR, if_pos h0] at hg
    cases hg
  rw [hY, ok_bind, Fl3.divR, if_neg hr, ok_bind, hpw, ok_bind] at hg
  have hex : ∀ (j : ℕ) (k : ℤ), ∃ w, j ≤ p → |k| ≤ j → Fl3.m2lCoeff F st1 p f Y pw j k = .ok w ∧ AgrC (m2l L p c' (c, e.c) j k) w := by
    intro j k
    by_cases h : j ≤ p ∧ |k| ≤ j
    · obtain ⟨w, h1, h2⟩ := m2lCoeff_agr hF hL n1 he.is hp0 hp n2 hYv hps hpv he.cells.val
        (Y' := L.ylm (2 * p) (.fin (F.sph v' 1), .fin (F.sph v' 2))) (P' := pows (div (.fin 1) (.fin (F.nrm3 v'))))
        (fun n hn m hm => ylm_agr hF hL (2 * p) _ _ hn hm) (fun n _ => pows_rel hF ((agr_fin 1).rdiv hF _) n) h.1 h.2
      refine ⟨w, fun _ _ => ⟨h1, ?_⟩⟩
      unfold m2l
      dsimp only
      rw [g1, g3]
      exact h2
    · exact ⟨0, fun h1 h2 => absurd ⟨h1, h2⟩ h⟩
  choose w hw using hex
  obtain ⟨d, b1, b2, b3⟩ := grid_rmw1 (p := p) (fun j c =>
    loopZ (-(j : ℤ)) j (fun k c => do
      let L ← Fl3.m2lCoeff F st1 p f Y pw j k
      c.wrZ (lmIndex j k) L) c) (fun n m _ => w n m) f1.coeffs n3.cells.size (by
      intro n hn c' hc'
      exact row_rmw hn _ (fun m _ => w n m) c' hc' fun m hm d hd => by
        rw [(hw n m hn hm).1, ok_bind, wrZ_cell hd hn hm])
  rw [b1, ok_bind] at hg
  injection hg with hg
  injection hg with e1 e2
  subst e1 e2
  exact ⟨n1, rfl, rfl, rfl, rfl, rfl, b2, fun j hj k hk => by rw [b3 j hj k hk]; exact (hw j k hj hk).2⟩

/-! ## Lists of expansions -/

/-- The pair agrees, about some centre of moderate size. -/
def PAgr (p : ℕ) (f : Exp3) (e : Exp64) : Prop := Mod e.center ∧ CAgr p e.center e f

theorem meOfMes_agr (hF : Is64 F) (hL : LibOf L F) {st st' : Stat3} (hst : st.Good) {p : ℕ} (hp0 : 0 < p) (hp : p ≤ 42) {c : Vec 3} (hc : Mod c)
    {fs : List Exp3} {es : List Exp64} (hl : List.Forall₂ (PAgr p) fs es) {g : Exp3} (hg : Fl3.meOfMes F st c fs = .ok (st', g)) :
    ∃ d, meMes L c es = .ok d ∧ st'.Good ∧ CAgr p c d g := by
  cases hl with
  | nil => cases hg
  | @cons f0 e0 fs es h0 hl =>
    refine ⟨_, meMes_ok (L := L) c rfl h0.2.order, ?_⟩
    unfold Fl3.meOfMes at hg
    simp only [h0.2.order'] at hg
    obtain ⟨⟨st1, f1⟩, h1, hg⟩ := bind_ok hg
    obtain ⟨n1, n2, n3⟩ := new_agr hst hp h1
    obtain ⟨a, h2, hg⟩ := bind_ok hg
    injection hg with hg
    injection hg with e1 e2
    subst e1 e2
    simp only [n3.center'] at h2
    refine ⟨n1, rfl, n3.order', rfl, rfl, n3.center', ?_⟩
    have key : Cells p (m2m L p c ((e0 :: es).map fun e => (e.center, e.c))) a := by
     unfold m2m
     rw [List.foldl_map]
     refine foldlM_agr (PAgr p) (fun a e => Cells p e a) (fun a me => do
       let sh ← Fl3.meShift F st1 me (F.vsub me.center c)
       Fl.addCoeffs F.toFlt a sh) (fun d (e : Exp64) => fun j k => cadd (d j k) (meShift L p e.c (vsub e.center c) j k)) ?_
       (List.Forall₂.cons h0 hl) (t := fun _ _ => czero) n3.cells h2
     rintro f e a d a' ⟨q1, q2⟩ hr h
     obtain ⟨sh, k1, k2⟩ := bind_ok h
     rw [q2.center'] at k1
     exact addCoeffs_agr hF hr (meShift_agr hF hL n1 hp0 hp n2 q1 hc q2 k1) k2
    exact key

theorem leOfMes_agr (hF : Is64 F) (hL : LibOf L F) {st st' : Stat3} (hst : st.Good) {p : ℕ} (hp0 : 0 < p) (hp : p ≤ 42) {c : Vec 3} (hc : Mod c)
    {fs : List Exp3} {es : List Exp64} (hl : List.Forall₂ (PAgr p) fs es) {g : Exp3} (hg : Fl3.leOfMes F st c fs = .ok (st', g)) :
    ∃ d, leMes L c es = .ok d ∧ st'.Good ∧ CAgr p c d g := by
  cases hl with
  | nil => cases hg
  | @cons f0 e0 fs es h0 hl =>
    refine ⟨_, rfl, ?_⟩
    unfold Fl3.leOfMes at hg
    simp only [h0.2.order'] at hg
    rw [h0.2.order]
    obtain ⟨⟨st1, f1⟩, h1, hg⟩ := bind_ok hg
    obtain ⟨n1, n2, n3⟩ := new_agr hst hp h1
    have key : (st', g).1.Good ∧ CAgr p c { Exp64.new c p with c := m2ls L p c ((e0 :: es).map fun e => (e.center, e.c)) } (st', g).2 := by
      unfold m2ls
      rw [List.foldl_map]
      refine foldlM_agr (PAgr p) (fun (s : Stat3 × Exp3) d => s.1.Good ∧ CAgr p c { Exp64.new c p with c := d } s.2)
        (fun (s : Stat3 × Exp3) me => do
          let (st, le) ← Fl3.leOfMe F s.1 c me
          let e ← Fl3.addEq F s.2 le
          .ok (st, e)) (fun d (e : Exp64) => fun j k => cadd (d j k) (m2l L p c (e.center, e.c) j k)) ?_
        (List.Forall₂.cons h0 hl) (s := (st1, f1)) (t := fun _ _ => czero) ⟨n1, n3⟩ hg
      rintro f e ⟨t1, a⟩ d ⟨t2, a'⟩ ⟨q1, q2⟩ ⟨hr1, hr2⟩ h
      obtain ⟨⟨t3, le⟩, k1, k2⟩ := bind_ok h
      obtain ⟨l1, l2⟩ := leOfMe_agr hF hL hr1 hp0 hp q1 hc q2 k1
      obtain ⟨a2, k3, k4⟩ := bind_ok k2
      obtain ⟨d', d1, d2⟩ := addEq_agr hF hr2 l2 k3
      injection k4 with k4
      injection k4 with e1 e2
      subst e1 e2
      refine ⟨l1, ?_⟩
      unfold addEq at d1
      rw [if_neg (by simp [Exp64.new])] at d1
      injection d1 with d1
      subst d1
      exact d2
    exact key

theorem leOfLe_agr (hF : Is64 F) (hL : LibOf L F) {st st' : Stat3} (hst : st.Good) {p : ℕ} (hp0 : 0 < p) (hp : p ≤ 42) {c : Vec 3} (hc : Mod c)
    {e : Exp64} {f g : Exp3} (he : PAgr p f e) (hg : Fl3.leOfLe F st c f = .ok (st', g)) :
    st'.Good ∧ CAgr p c { Exp64.new c e.order with c := leShift L e.order e.c (vsub e.center c) } g := by
  obtain ⟨h0, he⟩ := he
  unfold Fl3.leOfLe at hg
  simp only [he.order', he.center'] at hg
  rw [he.order]
  obtain ⟨⟨st1, f1⟩, h1, hg⟩ := bind_ok hg
  obtain ⟨n1, n2, n3⟩ := new_agr hst hp h1
  obtain ⟨a, h2, hg⟩ := bind_ok hg
  injection hg with hg
  injection hg with e1 e2
  subst e1 e2
  simp only [n3.center'] at h2
  exact ⟨n1, rfl, n3.order', rfl, rfl, n3.center', leShift_agr hF hL n1 hp0 hp n2 h0 hc he h2⟩

end FMM.D64
