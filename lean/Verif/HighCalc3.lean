import Verif.HighCalc
import Verif.DoubleAgreeTree3

/-!
# Operations on `double`s in space that do not overflow

`N m b d`: the `double` `d` is finite, and `|d| ≤ m * 2^b`.  Rounding does not pass the bound as long as `m` has at most 50 bits.
The exponents are integers, so that products of large and small factors do not lose anything.
-/

namespace FMM.Hi3
open FMM D64 Rounded

/-- A finite number with a bound. -/
def N (m : ℕ) (b : ℤ) (d : Dbl) : Prop := ∃ x, d = .fin x ∧ |x| ≤ m * 2 ^ b

/-- A finite complex number with a bound for its components. -/
def NC (m : ℕ) (b : ℤ) (z : DC) : Prop := N m b z.re ∧ N m b z.im

variable {m n : ℕ} {a b c : ℤ} {d e : Dbl} {x y : ℝ}

theorem rnd_N (hm : m ≤ 2 ^ 50) (h0 : -1000 ≤ b) (hb : b ≤ 950) (h : |x| ≤ m * 2 ^ b) : N m b (rnd64 x) := by
  have key : |rndU x| ≤ m * 2 ^ b := by
    rcases Nat.eq_zero_or_pos m with rfl | h0
    · have : x = 0 := by simpa using h
      rw [this, rndU_zero]; simp
    · have hm' : (m : ℝ) ≤ 2 ^ (50 : ℤ) := by
        have : ((m : ℕ) : ℝ) ≤ ((2 ^ 50 : ℕ) : ℝ) := Nat.cast_le.mpr hm
        exact this.trans (le_of_eq (by norm_num))
      refine rndU_grid (b := b + 52) ?_ (by omega) ?_ h
      · refine lt_of_le_of_lt (h.trans (mul_le_mul_of_nonneg_right hm' (two_pow_pos _).le)) ?_
        rw [← zpow_add₀ (by norm_num)]
        exact zpow_lt_zpow_right₀ (by norm_num) (by omega)
      · have h1 : (1 : ℝ) ≤ m := by exact_mod_cast h0
        have h2 : (2 : ℝ) ^ (-1022 : ℤ) ≤ 2 ^ (b : ℤ) := two_pow_mono (by omega)
        have := two_pow_pos (b : ℤ)
        nlinarith
  refine ⟨_, ?_, key⟩
  rw [rnd64_eq, if_pos]
  refine lt_of_le_of_lt key ?_
  have hm' : (m : ℝ) ≤ 2 ^ (50 : ℤ) := by
    have : ((m : ℕ) : ℝ) ≤ ((2 ^ 50 : ℕ) : ℝ) := Nat.cast_le.mpr hm
    exact this.trans (le_of_eq (by norm_num))
  refine lt_of_le_of_lt (mul_le_mul_of_nonneg_right hm' (two_pow_pos b).le) ?_
  rw [← zpow_add₀ (by norm_num)]
  exact zpow_lt_zpow_right₀ (by norm_num) (by omega)

theorem N.mono (h : N m b d) (hm : m ≤ n) (hb : b ≤ c) : N n c d := by
  obtain ⟨x, h1, h2⟩ := h
  refine ⟨x, h1, h2.trans ?_⟩
  have h1 : (m : ℝ) ≤ n := by exact_mod_cast hm
  exact mul_le_mul h1 (two_pow_mono hb) (two_pow_pos _).le (by positivity)

theorem N.up (h : N m b d) (hb : b ≤ c) : N m c d := h.mono le_rfl hb

/-- The factor may be moved to the exponent. -/
theorem N.lift (h : N m b d) (j : ℕ) (hm : m ≤ 2 ^ j) (hb : b + j ≤ c) : N 1 c d := by
  obtain ⟨x, h1, h2⟩ := h
  refine ⟨x, h1, h2.trans ?_⟩
  have h1 : (m : ℝ) ≤ 2 ^ (j : ℤ) := by rw [zpow_natCast]; exact_mod_cast hm
  rw [Nat.cast_one, one_mul]
  refine (mul_le_mul_of_nonneg_right h1 (two_pow_pos _).le).trans ?_
  rw [← zpow_add₀ (by norm_num)]
  exact two_pow_mono (by omega)

theorem N.fin (h : |x| ≤ 2 ^ b) : N 1 b (.fin x) := ⟨x, rfl, by rwa [Nat.cast_one, one_mul]⟩

theorem N.zero : N m b (.fin 0) := ⟨0, rfl, by rw [abs_zero]; have := two_pow_pos b; positivity⟩

theorem N.neg (h : N m b d) : N m b (neg d) := by
  obtain ⟨x, rfl, h⟩ := h
  exact ⟨-x, rfl, by rwa [abs_neg]⟩

theorem N.add (h : N m b d) (h' : N n b e) (hm : m + n ≤ 2 ^ 50) (h0 : -1000 ≤ b) (hb : b ≤ 950) : N (m + n) b (add d e) := by
  obtain ⟨x, rfl, h⟩ := h
  obtain ⟨y, rfl, h'⟩ := h'
  refine rnd_N hm h0 hb ((abs_add_le _ _).trans ?_)
  push_cast
  linarith

theorem N.mul (h : N m a d) (h' : N n b e) (hm : m * n ≤ 2 ^ 50) (hc : a + b ≤ c) (h0 : -1000 ≤ c) (hb : c ≤ 950) : N (m * n) c (mul d e) := by
  obtain ⟨x, rfl, h⟩ := h
  obtain ⟨y, rfl, h'⟩ := h'
  refine rnd_N hm h0 hb ?_
  rw [abs_mul]
  push_cast
  have := two_pow_pos a
  have := two_pow_pos b
  calc |x| * |y| ≤ (m * 2 ^ a) * (n * 2 ^ b) := mul_le_mul h h' (abs_nonneg _) (by positivity)
    _ = m * n * 2 ^ (a + b) := by rw [zpow_add₀ (by norm_num)]; ring
    _ ≤ _ := mul_le_mul_of_nonneg_left (two_pow_mono hc) (by positivity)

theorem N.mul1 (h : N m a d) (h' : N 1 b e) (hm : m ≤ 2 ^ 50) (hc : a + b ≤ c) (h0 : -1000 ≤ c) (hb : c ≤ 950) : N m c (D64.mul d e) := by
  have := h.mul h' (by omega) hc h0 hb
  rwa [mul_one] at this

theorem N.lmul (h' : N 1 a d) (h : N m b e) (hm : m ≤ 2 ^ 50) (hc : a + b ≤ c) (h0 : -1000 ≤ c) (hb : c ≤ 950) : N m c (D64.mul d e) := by
  have := h'.mul h (by omega) hc h0 hb
  rwa [one_mul] at this

/-- Division by a number which is not too small. -/
theorem N.div (h : N m a d) (hy : y ≠ 0) (hy' : |y|⁻¹ ≤ 2 ^ b) (hm : m ≤ 2 ^ 50) (hc : a + b ≤ c) (h0 : -1000 ≤ c) (hb : c ≤ 950) :
    N m c (D64.div d (.fin y)) := by
  obtain ⟨x, rfl, h⟩ := h
  show N m c (if y = 0 then _ else rnd64 (x / y))
  rw [if_neg hy]
  refine rnd_N hm h0 hb ?_
  rw [abs_div, div_eq_mul_inv]
  have := two_pow_pos a
  calc |x| * |y|⁻¹ ≤ (m * 2 ^ a) * 2 ^ b := mul_le_mul h hy' (by positivity) (by positivity)
    _ = m * 2 ^ (a + b) := by rw [zpow_add₀ (by norm_num)]; ring
    _ ≤ _ := mul_le_mul_of_nonneg_left (two_pow_mono hc) (by positivity)

/-- A finite number that agrees with `x`. -/
theorem N.val (h : N m b d) (ha : Agr d x) : d = .fin x := by
  obtain ⟨y, h1, -⟩ := h
  rw [h1, ha y h1]

theorem N.rebound (h : N m b d) (ha : Agr d x) (hx : |x| ≤ 2 ^ c) : N 1 c d := by
  rw [h.val ha]; exact .fin hx

/-! ## Complex numbers -/

section
variable {z w : DC}

theorem NC.mono (h : NC m b z) (hm : m ≤ n) (hb : b ≤ c) : NC n c z := ⟨h.1.mono hm hb, h.2.mono hm hb⟩
theorem NC.up (h : NC m b z) (hb : b ≤ c) : NC m c z := h.mono le_rfl hb
theorem NC.lift (h : NC m b z) (j : ℕ) (hm : m ≤ 2 ^ j) (hb : b + j ≤ c) : NC 1 c z := ⟨h.1.lift j hm hb, h.2.lift j hm hb⟩
theorem NC.zero : NC m b czero := ⟨.zero, .zero⟩

theorem NC.add (h : NC m b z) (h' : NC n b w) (hm : m + n ≤ 2 ^ 50) (h0 : -1000 ≤ b) (hb : b ≤ 950) : NC (m + n) b (cadd z w) :=
  ⟨h.1.add h'.1 hm h0 hb, h.2.add h'.2 hm h0 hb⟩

/-- `N 1` times a complex number. -/
theorem NC.rsc (hr : N 1 a d) (h : NC m b z) (hm : m ≤ 2 ^ 50) (hc : a + b ≤ c) (h0 : -1000 ≤ c) (hb : c ≤ 950) : NC m c (D64.rsc d z) :=
  ⟨hr.lmul h.1 hm hc h0 hb, hr.lmul h.2 hm hc h0 hb⟩

theorem NC.cdr (h : NC m a z) (hy : y ≠ 0) (hy' : |y|⁻¹ ≤ 2 ^ b) (hm : m ≤ 2 ^ 50) (hc : a + b ≤ c) (h0 : -1000 ≤ c) (hb : c ≤ 950) :
    NC m c (D64.cdr z (.fin y)) :=
  ⟨h.1.div hy hy' hm hc h0 hb, h.2.div hy hy' hm hc h0 hb⟩

theorem NC.mul (h : NC 1 a z) (h' : NC 1 b w) (hc : a + b + 1 ≤ c) (h0 : -1000 ≤ a + b) (hb : c ≤ 950) : NC 1 c (cmul z w) := by
  have k2 : 1 + 1 ≤ 2 ^ 50 := by norm_num
  have key : ∀ {d e d' e'}, N 1 a d → N 1 b e → N 1 a d' → N 1 b e' → N (1 + 1) (a + b) (D64.add (D64.mul d e) (D64.mul d' e')) ∧
      N (1 + 1) (a + b) (D64.add (D64.mul d e) (D64.neg (D64.mul d' e'))) := fun h1 h2 h3 h4 => by
    have p1 := h1.mul1 h2 (by norm_num) le_rfl h0 (by omega)
    have p2 := h3.mul1 h4 (by norm_num) le_rfl h0 (by omega)
    exact ⟨p1.add p2 k2 h0 (by omega), p1.add p2.neg k2 h0 (by omega)⟩
  refine NC.lift (m := 1 + 1) (b := a + b) ⟨?_, ?_⟩ 1 (by norm_num) hc
  · exact (key h.1 h'.1 h.2 h'.2).2
  · exact (key h.1 h'.2 h.2 h'.1).1

/-- Sums. -/
theorem NC.foldl {ι : Type} (l : List ι) (t : ι → DC) (k : ℕ) {z : DC} (hz : NC n b z) (h : ∀ i ∈ l, NC k b (t i)) (hm : n + l.length * k ≤ 2 ^ 50)
    (h0 : -1000 ≤ b) (hb : b ≤ 950) : NC (n + l.length * k) b (l.foldl (fun acc i => cadd acc (t i)) z) := by
  induction l generalizing n z with
  | nil => simpa using hz
  | cons i l ih =>
    rw [List.length_cons, add_mul, one_mul] at hm
    have := ih (hz.add (h i (by simp)) (by omega) h0 hb) (fun i hi => h i (by simp [hi])) (by omega)
    rw [List.foldl_cons, List.length_cons, add_mul, one_mul, show n + (l.length * k + k) = n + k + l.length * k by ring]
    exact this

theorem NC.sum {ι : Type} (l : List ι) (t : ι → DC) {k M : ℕ} (h : ∀ i ∈ l, NC k b (t i)) (hl : l.length * k ≤ M) (hm : M ≤ 2 ^ 50)
    (h0 : -1000 ≤ b) (hb : b ≤ 950) : NC M b (l.foldl (fun acc i => cadd acc (t i)) czero) := by
  have := NC.foldl (n := 0) l t k .zero h (by omega) h0 hb
  rw [zero_add] at this
  exact this.mono hl le_rfl

/-- A finite number that agrees with `v`, and a bound for `v`. -/
theorem NC.rebound {v : ℂ} (h : NC m b z) (ha : AgrC z v) (hv : ‖v‖ ≤ 2 ^ c) : NC 1 c z :=
  ⟨h.1.rebound ha.1 ((Complex.abs_re_le_norm v).trans hv), h.2.rebound ha.2 ((Complex.abs_im_le_norm v).trans hv)⟩

end

theorem zrange_length (lo hi : ℤ) : (zrange lo hi).length = (hi + 1 - lo).toNat := by unfold zrange; simp

theorem mem_zrange {lo hi i : ℤ} (h : i ∈ zrange lo hi) : lo ≤ i ∧ i ≤ hi := by
  unfold zrange at h
  obtain ⟨k, hk, rfl⟩ := List.mem_map.mp h
  have := List.mem_range.mp hk
  omega

/-! ## Powers -/

theorem pows_N (h : N 1 a d) (n : ℕ) (h0 : -1000 ≤ a * n) (h1 : a * n ≤ 950) : N 1 (a * n) (pows d n) := by
  induction n with
  | zero => exact .fin (by simp)
  | succ n ih =>
    push_cast at h0 h1 ⊢
    have e : a * (n + 1) = a * n + a := by ring
    rcases le_total 0 a with ha | ha
    · have : 0 ≤ a * n := by positivity
      exact (ih (by linarith) (by linarith)).mul1 h (by norm_num) e.ge h0 h1
    · have : a * n ≤ 0 := mul_nonpos_of_nonpos_of_nonneg ha (by positivity)
      exact (ih (by linarith) (by linarith)).mul1 h (by norm_num) e.ge h0 h1

theorem ipows_N {f : Dbl} (hf : N 1 a f) (hy : y ≠ 0) (hy' : |y|⁻¹ ≤ 2 ^ a) (n : ℕ) (h0 : -1000 ≤ a * (n + 1)) (h1 : a * (n + 1) ≤ 950) :
    N 1 (a * (n + 1)) (ipows f (.fin y) n) := by
  induction n with
  | zero => simpa [ipows] using hf
  | succ n ih =>
    push_cast at h0 h1 ⊢
    have e : a * (n + 1 + 1) = a * (n + 1) + a := by ring
    rcases le_total 0 a with ha | ha
    · have : 0 ≤ a * (n + 1) := by positivity
      exact (ih (by linarith) (by linarith)).div hy hy' (by norm_num) e.ge h0 h1
    · have : a * (n + 1) ≤ 0 := mul_nonpos_of_nonpos_of_nonneg ha (by positivity)
      exact (ih (by linarith) (by linarith)).div hy hy' (by norm_num) e.ge h0 h1

end FMM.Hi3
