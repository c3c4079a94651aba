import Verif.DoubleAgree2
import Verif.DoubleLib3
import Verif.LowCalc

/-!
# Operations on `double`s that do not overflow

`R1 m b d x`: the `double` `d` is the number `x`, and `|x| ≤ m * 2^b`.  Rounding does not pass the bound as long as `m` has at most 50 bits, so that
sums of many terms do not lose anything.
-/

namespace FMM.D2.Hi
open FMM D64 Rounded

/-- A finite number with a bound. -/
def R1 (m b : ℕ) (d : Dbl) (x : ℝ) : Prop := d = .fin x ∧ |x| ≤ m * 2 ^ b

/-- A finite complex number with a bound for its components. -/
def RC (m b : ℕ) (d : DC) (z : ℂ) : Prop := R1 m b d.re z.re ∧ R1 m b d.im z.im

variable {m n b c t : ℕ} {d e : Dbl} {x y : ℝ}

theorem rnd_R1 (hm : m ≤ 2 ^ 50) (hb : b ≤ 950) (h : |x| ≤ m * 2 ^ b) : R1 m b (rnd64 x) (rndU x) := by
  have key : |rndU x| ≤ m * 2 ^ b := by
    rcases Nat.eq_zero_or_pos m with rfl | h0
    · have : x = 0 := by simpa using h
      rw [this, rndU_zero]; simp
    · have e1 : (2 : ℝ) ^ b = 2 ^ (b : ℤ) := (zpow_natCast _ _).symm
      rw [e1] at h ⊢
      have hm' : (m : ℝ) ≤ 2 ^ (50 : ℤ) := by
        have : ((m : ℕ) : ℝ) ≤ ((2 ^ 50 : ℕ) : ℝ) := Nat.cast_le.mpr hm
        exact this.trans (le_of_eq (by norm_num))
      refine rndU_grid (b := b + 52) ?_ (by omega) ?_ h
      · refine lt_of_le_of_lt (h.trans (mul_le_mul_of_nonneg_right hm' (two_pow_pos _).le)) ?_
        rw [← zpow_add₀ (by norm_num)]
        exact zpow_lt_zpow_right₀ (by norm_num) (by omega)
      · have h1 : (1 : ℝ) ≤ m := by exact_mod_cast h0
        have h2 : (2 : ℝ) ^ (-1022 : ℤ) ≤ 2 ^ (b : ℤ) := two_pow_mono (by omega)
        have := two_pow_pos (b : ℤ)
        nlinarith
  refine ⟨?_, key⟩
  rw [rnd64_eq, if_pos]
  refine lt_of_le_of_lt key ?_
  have hm' : (m : ℝ) ≤ 2 ^ (50 : ℕ) := by exact_mod_cast hm
  have h2 : (2 : ℝ) ^ b ≤ 2 ^ 950 := pow_le_pow_right₀ (by norm_num) hb
  refine lt_of_le_of_lt (mul_le_mul hm' h2 (by positivity) (by positivity)) ?_
  rw [← pow_add, ← zpow_natCast]
  exact zpow_lt_zpow_right₀ (by norm_num) (by norm_num)

theorem R1.mono (h : R1 m b d x) (hm : m ≤ n) (hb : b ≤ c) : R1 n c d x := by
  refine ⟨h.1, h.2.trans ?_⟩
  have h1 : (m : ℝ) ≤ n := by exact_mod_cast hm
  have h2 : (2 : ℝ) ^ b ≤ 2 ^ c := pow_le_pow_right₀ (by norm_num) hb
  exact mul_le_mul h1 h2 (by positivity) (by positivity)

/-- The factor may be moved to the exponent. -/
theorem R1.lift (h : R1 m b d x) {j : ℕ} (hm : m ≤ 2 ^ j) : R1 1 (b + j) d x := by
  refine ⟨h.1, h.2.trans ?_⟩
  have h1 : (m : ℝ) ≤ 2 ^ j := by exact_mod_cast hm
  rw [Nat.cast_one, one_mul, pow_add, mul_comm]
  exact mul_le_mul_of_nonneg_left h1 (by positivity)

theorem R1.fin (h : |x| ≤ m * 2 ^ b) : R1 m b (.fin x) x := ⟨rfl, h⟩

theorem R1.zero : R1 m b (.fin 0) 0 := ⟨rfl, by rw [abs_zero]; positivity⟩

theorem R1.neg (h : R1 m b d x) : R1 m b (neg d) (-x) := by
  obtain ⟨rfl, h⟩ := h
  exact ⟨rfl, by rwa [abs_neg]⟩

theorem R1.add (h : R1 m b d x) (h' : R1 n b e y) (hm : m + n ≤ 2 ^ 50) (hb : b ≤ 950) : R1 (m + n) b (add d e) (rndU (x + y)) := by
  obtain ⟨rfl, h⟩ := h
  obtain ⟨rfl, h'⟩ := h'
  refine rnd_R1 hm hb ((abs_add_le _ _).trans ?_)
  push_cast
  linarith

theorem R1.sub (h : R1 m b d x) (h' : R1 n b e y) (hm : m + n ≤ 2 ^ 50) (hb : b ≤ 950) : R1 (m + n) b (D64.add d (D64.neg e)) (rndU (x - y)) := by
  have := h.add h'.neg hm hb
  rwa [← sub_eq_add_neg] at this

theorem R1.mul (h : R1 m b d x) (h' : R1 n c e y) (hm : m * n ≤ 2 ^ 50) (hb : b + c ≤ 950) : R1 (m * n) (b + c) (mul d e) (rndU (x * y)) := by
  obtain ⟨rfl, h⟩ := h
  obtain ⟨rfl, h'⟩ := h'
  refine rnd_R1 hm hb ?_
  rw [abs_mul, pow_add]
  push_cast
  calc |x| * |y| ≤ (m * 2 ^ b) * (n * 2 ^ c) := mul_le_mul h h' (abs_nonneg _) (by positivity)
    _ = _ := by ring

/-- Division by a number which is not less than one. -/
theorem R1.div1 (h : R1 m b d x) (hy : 1 ≤ y) (hm : m ≤ 2 ^ 50) (hb : b ≤ 950) : R1 m b (D64.div d (.fin y)) (rndU (x / y)) := by
  obtain ⟨rfl, h⟩ := h
  show R1 m b (if y = 0 then _ else rnd64 (x / y)) _
  rw [if_neg (by linarith)]
  refine rnd_R1 hm hb ?_
  rw [abs_div, abs_of_pos (by linarith : 0 < y)]
  exact (div_le_self (abs_nonneg _) hy).trans h

/-! ## Complex numbers -/

section
variable {z w : DC} {a v : ℂ}

theorem RC.mono (h : RC m b z a) (hm : m ≤ n) (hb : b ≤ c) : RC n c z a := ⟨h.1.mono hm hb, h.2.mono hm hb⟩
theorem RC.lift (h : RC m b z a) {j : ℕ} (hm : m ≤ 2 ^ j) : RC 1 (b + j) z a := ⟨h.1.lift hm, h.2.lift hm⟩
theorem RC.eq (h : RC m b z a) : z = D2.cfin a := by
  obtain ⟨⟨h1, -⟩, h2, -⟩ := h
  cases z
  dsimp only at h1 h2
  rw [h1, h2]; rfl
theorem RC.cfin (h1 : |a.re| ≤ m * 2 ^ b) (h2 : |a.im| ≤ m * 2 ^ b) : RC m b (D2.cfin a) a := ⟨.fin h1, .fin h2⟩
theorem RC.of_norm (h : ‖a‖ ≤ m * 2 ^ b) : RC m b (D2.cfin a) a :=
  .cfin ((Complex.abs_re_le_norm a).trans h) ((Complex.abs_im_le_norm a).trans h)
theorem RC.zero : RC m b czero 0 := ⟨.zero, .zero⟩
theorem RC.one : RC 1 0 (D2.cfin 1) 1 := .of_norm (by simp)
theorem RC.neg (h : RC m b z a) : RC m b (cneg z) (-a) := ⟨by rw [Complex.neg_re]; exact h.1.neg, by rw [Complex.neg_im]; exact h.2.neg⟩
theorem RC.ofD (h : R1 m b d x) : RC m b (D2.ofD d) (x : ℂ) := ⟨by rw [Complex.ofReal_re]; exact h, by rw [Complex.ofReal_im]; exact R1.zero⟩

variable {F : Flt} (hF : Is64 F)
include hF

theorem RC.add (h : RC m b z a) (h' : RC n b w v) (hm : m + n ≤ 2 ^ 50) (hb : b ≤ 950) : RC (m + n) b (cadd z w) (F.cadd a v) := by
  unfold Flt.cadd
  rw [hF.rnd, hF.rnd]
  exact ⟨h.1.add h'.1 hm hb, h.2.add h'.2 hm hb⟩

theorem RC.sub (h : RC m b z a) (h' : RC n b w v) (hm : m + n ≤ 2 ^ 50) (hb : b ≤ 950) : RC (m + n) b (csub z w) (F.csub a v) := by
  unfold Flt.csub
  rw [hF.rnd, hF.rnd]
  exact ⟨h.1.sub h'.1 hm hb, h.2.sub h'.2 hm hb⟩

theorem RC.addr (h : RC m b z a) (h' : R1 n b d x) (hm : m + n ≤ 2 ^ 50) (hb : b ≤ 950) : RC (m + n) b (caddr z d) (F.caddr a x) := by
  unfold Flt.caddr
  rw [hF.rnd]
  exact ⟨h.1.add h' hm hb, h.2.mono (by omega) le_rfl⟩

theorem RC.rsc (hr : R1 n c d x) (h : RC m b z a) (hm : n * m ≤ 2 ^ 50) (hb : c + b ≤ 950) : RC (n * m) (c + b) (D64.rsc d z) (F.rsc x a) := by
  unfold Flt.rsc
  rw [hF.rnd, hF.rnd]
  exact ⟨hr.mul h.1 hm hb, hr.mul h.2 hm hb⟩

theorem RC.cdr (h : RC m b z a) (hy : 1 ≤ y) (hm : m ≤ 2 ^ 50) (hb : b ≤ 950) : RC m b (D64.cdr z (.fin y)) (F.cdr a y) := by
  unfold Flt.cdr
  rw [hF.rnd, hF.rnd]
  exact ⟨h.1.div1 hy hm hb, h.2.div1 hy hm hb⟩

theorem RC.mul (h : RC 1 b z a) (h' : RC 1 c w v) (hb : b + c ≤ 949) : RC 1 (b + c + 1) (cmul z w) (F.mul a v) := by
  rw [hF.mul]
  have k1 : 1 * 1 ≤ 2 ^ 50 := by norm_num
  have k2 : 1 * 1 + 1 * 1 ≤ 2 ^ 50 := by norm_num
  refine RC.lift (m := 1 * 1 + 1 * 1) (j := 1) ⟨?_, ?_⟩ (by norm_num)
  · exact (h.1.mul h'.1 k1 (by omega)).sub (h.2.mul h'.2 k1 (by omega)) k2 (by omega)
  · exact (h.1.mul h'.2 k1 (by omega)).add (h.2.mul h'.1 k1 (by omega)) k2 (by omega)

/-- Division by a number whose modulus is between `2^-t` and about `2^t`. -/
theorem RC.div {u η ρ : ℝ} (hL : F.Low u η ρ) (h : RC 1 b z a) (hv : RC 1 t w v) (hlo : 1 ≤ ‖v‖ * 2 ^ t) (hρ : ρ ≤ ‖v‖) (ht : t ≤ 400) (hb : b + t ≤ 940) :
    RC 1 (b + t + 1) (cdiv z w) (F.div a v) := by
  have hv0 : 0 < ‖v‖ := hL.rho.trans_le hρ
  have k1 : 1 * 1 ≤ 2 ^ 50 := by norm_num
  have k2 : 1 * 1 + 1 * 1 ≤ 2 ^ 50 := by norm_num
  have T := (hv.1.mul hv.1 k1 (by omega)).add (hv.2.mul hv.2 k1 (by omega)) k2 (by omega)
  have Nr := (h.1.mul hv.1 k1 (by omega)).add (h.2.mul hv.2 k1 (by omega)) k2 (by omega)
  have Ni := (h.2.mul hv.1 k1 (by omega)).sub (h.1.mul hv.2 k1 (by omega)) k2 (by omega)
  set s := rndU (rndU (v.re * v.re) + rndU (v.im * v.im)) with hs
  -- the denominator is not zero
  have hs0 : s ≠ 0 := by
    have sq : ∀ q : ℝ, 1 / 2 * ‖v‖ ≤ |q| → (2 : ℝ) ^ (-(2 * t + 2 : ℤ)) ≤ rndU (q * q) := by
      intro q hq
      have e1 : (2 : ℝ) ^ (-(2 * t + 2 : ℤ)) = (1 / 2 * (2 ^ t)⁻¹) ^ 2 := by
        rw [zpow_neg, zpow_add₀ (by norm_num), mul_comm (2 : ℤ), zpow_mul, zpow_natCast]
        norm_num
        ring
      have e2 : (2 ^ t : ℝ)⁻¹ ≤ ‖v‖ := by rw [inv_le_iff_one_le_mul₀ (by positivity)]; exact hlo
      have e3 : (2 : ℝ) ^ (-(2 * t + 2 : ℤ)) ≤ |q * q| := by
        rw [e1, abs_mul, ← sq]
        exact pow_le_pow_left₀ (by positivity) (by linarith) 2
      obtain ⟨g, -⟩ := rndU_bnd (x := q * q) (a := -(2 * t + 2 : ℤ)) (b := Int.log 2 |q * q| + 1) (by omega) ⟨e3, (Int.lt_zpow_succ_log_self (by norm_num) _).le⟩
      rwa [abs_of_nonneg (rndU_nonneg (mul_self_nonneg q))] at g
    have p1 := rndU_nonneg (mul_self_nonneg v.re)
    have p2 := rndU_nonneg (mul_self_nonneg v.im)
    have hsum : (2 : ℝ) ^ (-(2 * t + 2 : ℤ)) ≤ rndU (v.re * v.re) + rndU (v.im * v.im) := by
      have hc := Complex.norm_le_abs_re_add_abs_im v
      by_cases hh : 1 / 2 * ‖v‖ ≤ |v.re|
      · linarith [sq _ hh]
      · linarith [sq v.im (by linarith)]
    obtain ⟨g, -⟩ := rndU_bnd (x := rndU (v.re * v.re) + rndU (v.im * v.im)) (a := -(2 * t + 2 : ℤ))
      (b := Int.log 2 |rndU (v.re * v.re) + rndU (v.im * v.im)| + 1) (by omega)
      ⟨hsum.trans (le_abs_self _), (Int.lt_zpow_succ_log_self (by norm_num) _).le⟩
    intro h0
    rw [← hs, h0, abs_zero] at g
    exact absurd g (not_le.mpr (two_pow_pos _))
  -- the quotient
  have na : ‖a‖ ≤ 3 / 2 * 2 ^ b := by
    have h1 := h.1.2
    have h2 := h.2.2
    rw [Nat.cast_one, one_mul] at h1 h2
    have hB : (0 : ℝ) ≤ 2 ^ b := by positivity
    rw [Complex.norm_def]
    refine Real.sqrt_le_iff.mpr ⟨by positivity, ?_⟩
    rw [Complex.normSq_apply]
    have := abs_mul_abs_self a.re
    have := abs_mul_abs_self a.im
    have g1 := mul_le_mul h1 h1 (abs_nonneg _) hB
    have g2 := mul_le_mul h2 h2 (abs_nonneg _) hB
    nlinarith
  have nq : ‖a / v‖ ≤ 3 / 2 * 2 ^ (b + t) := by
    rw [norm_div, div_le_iff₀ hv0]
    calc ‖a‖ ≤ 3 / 2 * 2 ^ b := na
      _ ≤ 3 / 2 * 2 ^ b * (‖v‖ * 2 ^ t) := le_mul_of_one_le_right (by positivity) hlo
      _ = _ := by rw [pow_add]; ring
  have nf : ‖F.div a v‖ ≤ 2 ^ (b + t + 1) := by
    have h1 := hL.div a v hρ
    have hP : (1 : ℝ) ≤ 2 ^ (b + t) := one_le_pow₀ (by norm_num)
    have h2 : Max.max ‖a / v‖ η ≤ 3 / 2 * 2 ^ (b + t) := max_le nq (hL.eta1.trans (by linarith))
    have h3 := mul_le_mul hL.small h2 (le_max_of_le_right hL.eta) (by norm_num)
    have h4 : ‖F.div a v‖ ≤ ‖F.div a v - a / v‖ + ‖a / v‖ := by
      have := norm_add_le (F.div a v - a / v) (a / v)
      rwa [sub_add_cancel] at this
    rw [pow_succ]
    linarith
  have fin : ∀ q : ℝ, |rndU q| ≤ 2 ^ (b + t + 1) → R1 1 (b + t + 1) (rnd64 q) (rndU q) := fun q hq => by
    refine ⟨?_, by simpa using hq⟩
    rw [rnd64_eq, if_pos]
    refine lt_of_le_of_lt hq ?_
    rw [← zpow_natCast]
    exact zpow_lt_zpow_right₀ (by norm_num) (by omega)
  have hre := (Complex.abs_re_le_norm _).trans nf
  have him := (Complex.abs_im_le_norm _).trans nf
  rw [hF.div] at hre him ⊢
  unfold cdiv
  dsimp only at hre him ⊢
  rw [T.1, Nr.1, Ni.1]
  refine ⟨?_, ?_⟩
  · show R1 _ _ (if _ = 0 then _ else rnd64 _) _
    rw [if_neg hs0]
    exact fin _ hre
  · show R1 _ _ (if _ = 0 then _ else rnd64 _) _
    rw [if_neg hs0]
    exact fin _ him

end

/-! ## Arrays -/

/-- Arrays of the same length with equal elements, and bounds for the elements. -/
def RA (m b : ℕ → ℕ) (a : Arr DC) (v : Arr ℂ) : Prop := a.size = v.size ∧ ∀ i < v.size, RC (m i) (b i) (a.val i) (v.val i)

section
variable {m b m' b' : ℕ → ℕ} {a : Arr DC} {v : Arr ℂ}

theorem ra_zeros (n : ℕ) : RA m b (zeros n) (Arr.new n) := ⟨rfl, fun _ _ => .zero⟩

theorem RA.mono (h : RA m b a v) (hm : ∀ i, m i ≤ m' i) (hb : ∀ i, b i ≤ b' i) : RA m' b' a v := ⟨h.1, fun i hi => (h.2 i hi).mono (hm i) (hb i)⟩

theorem RA.rd (h : RA m b a v) (i : ℕ) : Sim (RC (m i) (b i)) (v.rd i) (a.rd i) := by
  unfold Arr.rd
  rw [h.1]
  by_cases hi : i < v.size
  · rw [if_pos hi, if_pos hi]; exact Sim.ok (h.2 i hi)
  · rw [if_neg hi]; exact Sim.err

theorem RA.wr (h : RA m b a v) (i : ℕ) {z : DC} {w : ℂ} (hz : RC (m' i) (b' i) z w) (hm : ∀ j, j ≠ i → m j ≤ m' j) (hb : ∀ j, j ≠ i → b j ≤ b' j) :
    Sim (RA m' b') (v.wr i w) (a.wr i z) := by
  unfold Arr.wr
  rw [h.1]
  by_cases hi : i < v.size
  · rw [if_pos hi, if_pos hi]
    refine Sim.ok ⟨rfl, fun j hjs => ?_⟩
    show RC _ _ (Function.update a.val i z j) (Function.update v.val i w j)
    by_cases hj : j = i
    · subst hj; rw [Function.update_self, Function.update_self]; exact hz
    · rw [Function.update_of_ne hj, Function.update_of_ne hj]; exact (h.2 j hjs).mono (hm j hj) (hb j hj)
  · rw [if_neg hi]; exact Sim.err

/-- The case of the same bounds for all elements. -/
theorem RA.wrc {m b : ℕ} (h : RA (fun _ => m) (fun _ => b) a v) (i : ℕ) {z : DC} {w : ℂ} (hz : RC m b z w) :
    Sim (RA (fun _ => m) (fun _ => b)) (v.wr i w) (a.wr i z) := h.wr i hz (fun _ _ => le_rfl) fun _ _ => le_rfl

end

/-! ## Loops -/

section
variable {α β ι κ : Type}

theorem loopI {R : ℕ → β → α → Prop} (n : ℕ) {f : ℕ → α → Outcome α} {g : ℕ → β → Outcome β} {a : α} {b : β} (h0 : R 0 b a)
    (h : ∀ i < n, ∀ a b, R i b a → Sim (R (i + 1)) (f i a) (g i b)) : Sim (R n) (loopM n f a) (loopM n g b) := by
  induction n with
  | zero => exact Sim.ok h0
  | succ n ih =>
    rw [loopM_succ, loopM_succ]
    exact (ih fun i hi => h i (by omega)).bind fun a b hab => h n (by omega) a b hab

theorem foldI {R : ℕ → β → α → Prop} {P : κ → ι → Prop} {f : α → ι → Outcome α} {g : β → κ → Outcome β} {l : List ι} {l' : List κ}
    (hl : List.Forall₂ P l' l) (k : ℕ) (h : ∀ n < k + l.length, ∀ i k a b, P k i → R n b a → Sim (R (n + 1)) (f a i) (g b k)) {a : α} {b : β} (h0 : R k b a) :
    Sim (R (k + l.length)) (l.foldlM f a) (l'.foldlM g b) := by
  induction hl generalizing a b k with
  | nil => exact Sim.ok h0
  | cons hp _ ih =>
    rw [List.foldlM_cons, List.foldlM_cons]
    refine (h k (by simp) _ _ _ _ hp h0).bind fun a b hab => ?_
    have e : ∀ (x : ι) (l : List ι), k + (x :: l).length = k + 1 + l.length := fun x l => by simp; omega
    rw [e]
    exact ih (k + 1) (fun n hn => h n (by rw [e]; exact hn)) hab

end
end FMM.D2.Hi
