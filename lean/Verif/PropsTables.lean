import Verif.Tables
import Verif.Order

/-!
# Properties of the tables, the sign functions and the expansion order: C20, C21, C22, C24, C25, C57
-/

namespace FMM

/-! ## C57 -/

/-- **C57** `PowTable(x, n)(k) == x^k` for `k ≤ n`; reading beyond `n` is undefined. -/
theorem C57_pow_table {T : Type*} [CommRing T] (x : T) (n : ℕ) :
    ∃ t, powTable x n = .ok t ∧ (∀ k ≤ n, t.rd k = .ok (x ^ k)) ∧ ∀ k > n, t.rd k = .error .ub := by
  obtain ⟨t, ht, hsz, hv⟩ := powTable_spec x n
  refine ⟨t, ht, fun k hk => ?_, fun k hk => Arr.rd_ub t (by omega)⟩
  rw [Arr.rd_ok t (by omega), hv k hk]

/-- Non-vacuity of C57. -/
example : ∃ t, powTable (3 : ℤ) 4 = .ok t ∧ t.rd 4 = .ok 81 ∧ t.rd 5 = .error .ub := by
  obtain ⟨t, h1, h2, h3⟩ := C57_pow_table (3 : ℤ) 4
  exact ⟨t, h1, by simpa using h2 4 le_rfl, h3 5 (by norm_num)⟩

/-! ## C20 -/

/-- **C20** The triangular index of the binomial table: injective, and inside the vector allocated for
maximal order `M` for all rows up to `2M`. -/
theorem C20_binomial_index (M n k n' k' : ℕ) (hk : k ≤ n) (hk' : k' ≤ n') :
    (binIndex n k = binIndex n' k' → n = n' ∧ k = k') ∧
    (n ≤ 2 * M → binIndex n k < ((2 * M + 1) * (2 * M + 2)) / 2) :=
  ⟨binIndex_injective hk hk', binIndex_lt hk⟩

/-- **C20** The index `l(l+1)+m` of coefficients, A- and Ylm-tables: a bijection of
`{(l,m) | l ≤ L, |m| ≤ l}` onto `[0, (L+1)^2)`. -/
theorem C20_lm_index (L : ℕ) :
    (∀ l : ℕ, ∀ m : ℤ, l ≤ L → |m| ≤ l → 0 ≤ lmIndex l m ∧ lmIndex l m < ((L + 1) * (L + 1) : ℕ)) ∧
    (∀ (l l' : ℕ) (m m' : ℤ), |m| ≤ l → |m'| ≤ l' → lmIndex l m = lmIndex l' m' → l = l' ∧ m = m') ∧
    (∀ i : ℕ, i < (L + 1) * (L + 1) → ∃ (l : ℕ) (m : ℤ), l ≤ L ∧ |m| ≤ l ∧ lmIndex l m = i) := by
  refine ⟨fun l m hl hm => lmIndex_bounds hm hl, fun l l' m m' h h' => lmIndex_injective h h', ?_⟩
  intro i hi
  refine ⟨Nat.sqrt i, (i : ℤ) - Nat.sqrt i * (Nat.sqrt i + 1), ?_, ?_, by unfold lmIndex; ring⟩
  · have := Nat.sqrt_lt'.mpr (show i < (L + 1) ^ 2 by rw [pow_two]; exact hi)
    omega
  · have h1 : Nat.sqrt i * Nat.sqrt i ≤ i := Nat.sqrt_le i
    have h2 : i ≤ Nat.sqrt i * Nat.sqrt i + Nat.sqrt i + Nat.sqrt i := Nat.sqrt_le_add i
    have h1' : ((Nat.sqrt i : ℤ)) * Nat.sqrt i ≤ i := by exact_mod_cast h1
    have h2' : (i : ℤ) ≤ Nat.sqrt i * Nat.sqrt i + Nat.sqrt i + Nat.sqrt i := by exact_mod_cast h2
    rw [abs_le]; constructor <;> nlinarith

/-- **C20** The sign-table index after a refresh with maximal order `M`. -/
theorem C20_sign_index (M : ℕ) (l m l' m' : ℤ) (hl : |l| ≤ M) (hm : |m| ≤ M) (hm' : |m'| ≤ M) :
    (0 ≤ SignTable.index M (2 * M * (M + 1)) l m ∧
      SignTable.index M (2 * M * (M + 1)) l m < ((2 * M + 1) * (2 * M + 1) : ℕ)) ∧
    (SignTable.index M (2 * M * (M + 1)) l m = SignTable.index M (2 * M * (M + 1)) l' m' →
      l = l' ∧ m = m') :=
  ⟨signIndex_bounds hl hm, signIndex_injective hm hm'⟩

/-! ## C21 -/

theorem even_exponent (k m : ℤ) : Even (|k| - |m| - |k - m|) := by
  rcases abs_cases k with ⟨h1, _⟩ | ⟨h1, _⟩ <;> rcases abs_cases m with ⟨h2, _⟩ | ⟨h2, _⟩ <;>
    rcases abs_cases (k - m) with ⟨h3, _⟩ | ⟨h3, _⟩ <;> rw [h1, h2, h3, Int.even_iff] <;> omega

theorem signSwitch_iPow {e : ℤ} (h : Even e) :
    signSwitch e = .ok (iPow e) ∧ (iPow e : ℂ) = Complex.I ^ e := by
  obtain ⟨t, rfl⟩ := h
  rw [← two_mul, signSwitch_even]
  unfold iPow
  rw [I_zpow_two_mul, Complex.ofReal_re]
  exact ⟨rfl, rfl⟩

/-- **C21** The sign functions never throw and return the real number equal to the stated power of `i`. -/
theorem C21_sign_functions (k m : ℤ) :
    (∃ s : ℝ, signFun1 k m = .ok s ∧ (s : ℂ) = Complex.I ^ (|k| - |m| - |k - m|)) ∧
    (∃ s : ℝ, signFun2 k m = .ok s ∧ (s : ℂ) = Complex.I ^ (|k - m| - |k| - |m|)) ∧
    (∃ s : ℝ, signFun3 k m = .ok s ∧ (s : ℂ) = Complex.I ^ (|m| - |m - k| - |k|)) := by
  have e1 := even_exponent k m
  have e2 : Even (|k - m| - |k| - |m|) := by
    have := even_exponent k m
    rw [Int.even_iff] at this ⊢; omega
  have e3 : Even (|m| - |m - k| - |k|) := by
    have := even_exponent m k
    rw [Int.even_iff] at this ⊢; omega
  exact ⟨⟨_, signSwitch_iPow e1⟩, ⟨_, signSwitch_iPow e2⟩, ⟨_, signSwitch_iPow e3⟩⟩

/-- The sign functions take both values: `i^(|1|-|2|-|1-2|) = -1`, `i^(|2|-|1|-|2-1|) = 1`. -/
example : signFun1 1 2 = .ok (-1) ∧ signFun1 2 1 = .ok 1 := by
  constructor <;> norm_num [signFun1, signSwitch]

/-! ## C22 -/

/-- A history of refresh requests. -/
noncomputable def BinomialTable.run (h : List ℕ) : Outcome BinomialTable :=
  h.foldlM BinomialTable.refresh BinomialTable.init
noncomputable def AlmTable.run (h : List ℕ) : Outcome AlmTable :=
  h.foldlM AlmTable.refresh AlmTable.init
noncomputable def SignTable.run (f : ℤ → ℤ → Outcome ℝ) (o : ℤ) (h : List ℕ) : Outcome SignTable :=
  h.foldlM (SignTable.refresh f) (SignTable.init o)

/-- Maximum of a history (0 for the empty one). -/
def histMax (h : List ℕ) : ℕ := h.foldl max 0

theorem le_histMax {h : List ℕ} {x : ℕ} (hx : x ∈ h) : x ≤ histMax h := by
  have key : ∀ (l : List ℕ) (a : ℕ), a ≤ l.foldl max a ∧ ∀ x ∈ l, x ≤ l.foldl max a := by
    intro l
    induction l with
    | nil => intro a; simp
    | cons b l ih =>
      intro a
      obtain ⟨h1, h2⟩ := ih (max a b)
      refine ⟨le_trans (le_max_left a b) h1, fun x hx => ?_⟩
      rcases List.mem_cons.mp hx with rfl | hx
      · exact le_trans (le_max_right a x) h1
      · exact h2 x hx
  exact (key h 0).2 x hx

/-- Generic: a refresh function that keeps an invariant and maximises `maxOrder`. -/
theorem foldlM_refresh {T : Type*} (refresh : T → ℕ → Outcome T) (mo : T → ℕ) (Good : T → Prop)
    (bound : ℕ)
    (hr : ∀ t, Good t → ∀ o ≤ bound, ∃ t', refresh t o = .ok t' ∧ Good t' ∧ mo t' = max (mo t) o)
    (h : List ℕ) (hb : ∀ o ∈ h, o ≤ bound) (t : T) (ht : Good t) :
    ∃ t', h.foldlM refresh t = .ok t' ∧ Good t' ∧ mo t' = h.foldl max (mo t) := by
  induction h generalizing t with
  | nil => exact ⟨t, rfl, ht, rfl⟩
  | cons o h ih =>
    obtain ⟨t1, e1, g1, m1⟩ := hr t ht o (hb o (by simp))
    obtain ⟨t2, e2, g2, m2⟩ := ih (fun x hx => hb x (by simp [hx])) t1 g1
    refine ⟨t2, ?_, g2, ?_⟩
    · rw [List.foldlM_cons, e1]; exact e2
    · rw [m2, m1]; rfl

/-- **C22** Binomial table after any history of refreshes with maximum `M ≥ 1`: every entry of a row
`n ≤ M` reads as `n choose k`; the rows `M < n ≤ 2M` read as zero. -/
theorem C22_binomial_table (h : List ℕ) (hb : ∀ o ∈ h, o ≤ 1029) :
    ∃ t, BinomialTable.run h = .ok t ∧ t.maxOrder = histMax h ∧
      (∀ n, n ≤ histMax h → 0 < histMax h → ∀ k ≤ n, t.get n k = .ok (n.choose k : ℝ)) ∧
      (∀ n, histMax h < n → n ≤ 2 * histMax h → ∀ k ≤ n, t.get n k = .ok 0) := by
  obtain ⟨t, e, g, m⟩ := foldlM_refresh BinomialTable.refresh BinomialTable.maxOrder
    BinomialTable.Good 1029 (fun t ht o ho => t.refresh_good ht o ho) h hb _ BinomialTable.good_init
  have m' : t.maxOrder = histMax h := m
  refine ⟨t, e, m', ?_, ?_⟩
  · intro n hn h0 k hk
    unfold BinomialTable.get
    rw [Arr.rd_ok, g.low (by omega) n (by omega) k hk]
    rw [g.size, if_neg (by omega)]; exact binIndex_lt hk (by omega)
  · intro n h1 h2 k hk
    unfold BinomialTable.get
    rw [Arr.rd_ok, g.high n (by omega) (by omega) k hk]
    rw [g.size, if_neg (by omega)]; exact binIndex_lt hk (by omega)

/-- **C22** A-table after any history of refreshes with maximum `M`, `1 ≤ M ≤ 42`. -/
theorem C22_alm_table (h : List ℕ) (hb : ∀ o ∈ h, o ≤ 42) :
    ∃ t, AlmTable.run h = .ok t ∧ t.maxOrder = histMax h ∧
      (0 < histMax h → ∀ l ≤ 2 * histMax h, ∀ m : ℤ, |m| ≤ l → t.get l m = .ok (aSpec l m)) := by
  obtain ⟨t, e, g, m⟩ := foldlM_refresh AlmTable.refresh AlmTable.maxOrder
    AlmTable.Good 42 (fun t ht o ho => t.refresh_good ht o ho) h hb _ AlmTable.good_init
  have m' : t.maxOrder = histMax h := m
  refine ⟨t, e, m', ?_⟩
  intro h0 l hl k hk
  obtain ⟨b0, b1⟩ := lmIndex_bounds hk hl
  unfold AlmTable.get
  rw [Arr.rdZ_ok _ b0, g.val (by omega) l (by omega) k hk]
  rw [g.size, if_neg (by omega), m']; exact b1

/-- **C22** Sign tables after any history of refreshes with maximum `M ≥ 1`. -/
theorem C22_sign_table (f : ℤ → ℤ → Outcome ℝ) (hf : f = signFun1 ∨ f = signFun2 ∨ f = signFun3)
    (o : ℤ) (h : List ℕ) :
    ∃ t, SignTable.run f o h = .ok t ∧ t.maxOrder = histMax h ∧
      (0 < histMax h → ∀ l m : ℤ, |l| ≤ histMax h → |m| ≤ histMax h → t.get l m = f l m) := by
  have hok : ∀ l m, ∃ s, f l m = .ok s := by
    intro l m
    obtain ⟨⟨s1, h1, _⟩, ⟨s2, h2, _⟩, ⟨s3, h3, _⟩⟩ := C21_sign_functions l m
    rcases hf with rfl | rfl | rfl
    · exact ⟨s1, h1⟩
    · exact ⟨s2, h2⟩
    · exact ⟨s3, h3⟩
  choose g hg using hok
  obtain ⟨t, e, gd, m⟩ := foldlM_refresh (SignTable.refresh f) SignTable.maxOrder
    (SignTable.Good g) (histMax h) (fun t ht o _ => t.refresh_good f g hg ht o) h
    (fun x hx => le_histMax hx) _ (SignTable.good_init g o)
  have m' : t.maxOrder = histMax h := m
  refine ⟨t, e, m', ?_⟩
  intro h0 l k hl hk
  obtain ⟨b0, b1⟩ := signIndex_bounds hl hk
  have hoff := gd.off (by omega)
  unfold SignTable.get
  rw [Arr.rdZ_ok, gd.val (by omega) l k (by omega) (by omega), hg]
  · rw [hoff, m']; exact b0
  · rw [gd.size, if_neg (by omega), hoff, m']; exact b1

/-- **C22** The maximum never decreases, and a refresh with an order that is not larger changes nothing. -/
theorem C22_refresh_monotone (o : ℕ) :
    (∀ t : BinomialTable, o ≤ t.maxOrder → t.refresh o = .ok t) ∧
    (∀ t : AlmTable, o ≤ t.maxOrder → t.refresh o = .ok t) ∧
    (∀ f, ∀ t : SignTable, o ≤ t.maxOrder → t.refresh f o = .ok t) :=
  ⟨fun _ h => if_pos h, fun _ h => if_pos h, fun _ _ h => if_pos h⟩

/-- Non-vacuity of C22: history 3, 2, 5. -/
example : ∃ t, BinomialTable.run [3, 2, 5] = .ok t ∧ t.get 5 2 = .ok 10 ∧ t.get 6 2 = .ok 0 := by
  obtain ⟨t, h1, _, h2, h3⟩ := C22_binomial_table [3, 2, 5] (by simp)
  refine ⟨t, h1, ?_, ?_⟩
  · have := h2 5 (by decide) (by decide) 2 (by norm_num)
    rw [this]; norm_num [Nat.choose]
  · exact h3 6 (by decide) (by decide) 2 (by norm_num)

/-- **C22** From order 1030 on the binomial table cannot be filled: `gsl_sf_choose` overflows. -/
theorem C22_binomial_abort (t : BinomialTable) (ht : t.maxOrder ≤ 1029) (order : ℕ) (ho : 1030 ≤ order) :
    t.refresh order = .error .gslAbort := t.refresh_abort ht order ho

example : BinomialTable.init.refresh 1030 = .error .gslAbort := C22_binomial_abort _ (by decide) _ le_rfl

/-! ## C25 -/

/-- **C25 is false**: filling the 3D A-table aborts in GSL for every order ≥ 43. -/
theorem C25_false (t : AlmTable) (ht : t.maxOrder ≤ 42) (order : ℕ) (ho : 43 ≤ order) :
    t.refresh order = .error .gslAbort := t.refresh_abort ht order ho

/-- **C25, the part that holds**: orders up to 42 can be filled, from every reachable table. -/
theorem C25_fill_partial (h : List ℕ) (hb : ∀ o ∈ h, o ≤ 42) (order : ℕ) (ho : order ≤ 42) :
    ∃ t t', AlmTable.run h = .ok t ∧ t.refresh order = .ok t' := by
  obtain ⟨t, e, g, m⟩ := foldlM_refresh AlmTable.refresh AlmTable.maxOrder
    AlmTable.Good 42 (fun t ht o ho => t.refresh_good ht o ho) h hb _ AlmTable.good_init
  obtain ⟨t', e', _⟩ := t.refresh_good g order ho
  exact ⟨t, t', e, e'⟩

/-- The fresh table satisfies the hypothesis of `C25_false`. -/
example : AlmTable.init.refresh 43 = .error .gslAbort := C25_false _ (by decide) 43 le_rfl

/-! ## C24 -/

/-- **C24** `getOrder()` is the least `p` with `Σ|q| ≤ 2^p eps`, whenever `Σ|q| > eps/2` (and the order
fits in 32 bits). -/
theorem C24_order (A eps : ℝ) (he : 0 < eps) (hA : eps / 2 < A) (hfit : A ≤ 2 ^ (2 ^ 32 - 1) * eps) :
    ∃ p, expansionOrder A eps = .ok p ∧ A ≤ 2 ^ p * eps ∧ ∀ q < p, 2 ^ q * eps < A := by
  have hApos : 0 < A := by linarith
  have hq : 0 < A / eps := by positivity
  have hl2 : 0 < Real.log 2 := Real.log_pos (by norm_num)
  have hb : Real.log (A / eps) / Real.log 2 = Real.logb 2 (A / eps) := rfl
  set L := Real.logb 2 (A / eps) with hL
  have hL1 : -1 < L := by
    rw [hL, Real.lt_logb_iff_rpow_lt (by norm_num) hq, lt_div_iff₀ he, Real.rpow_neg_one]
    linarith
  have key : ∀ n : ℕ, L ≤ n ↔ A ≤ 2 ^ n * eps := by
    intro n
    rw [hL, Real.logb_le_iff_le_rpow (by norm_num) hq, Real.rpow_natCast, div_le_iff₀ he]
  have h0 : 0 ≤ ⌈L⌉ := by
    have : (-1 : ℤ) < ⌈L⌉ := Int.lt_ceil.mpr (by push_cast; exact hL1)
    omega
  have h1 : ⌈L⌉ ≤ (2 ^ 32 - 1 : ℕ) := by
    refine Int.ceil_le.mpr ?_
    have := (key (2 ^ 32 - 1)).mpr hfit
    exact_mod_cast this
  obtain ⟨p, hp⟩ := Int.eq_ofNat_of_zero_le h0
  refine ⟨p, ?_, ?_, ?_⟩
  · unfold expansionOrder
    rw [if_neg (by push Not; exact ⟨he.ne', hq⟩), hb]
    unfold toU32
    rw [if_pos ⟨h0, by have : (2 : ℕ) ^ 32 - 1 = 4294967295 := by norm_num
                       omega⟩, hp]
    rfl
  · rw [← key]
    have := Int.le_ceil L
    rw [hp] at this; exact_mod_cast this
  · intro q hq'
    by_contra hc
    push Not at hc
    have := Int.ceil_le.mpr (show L ≤ ((q : ℤ) : ℝ) by exact_mod_cast (key q).mpr hc)
    omega

/-- **C24** For `Σ|q| ≤ eps/2` (in particular without sources) the conversion is undefined behaviour. -/
theorem C24_order_ub (A eps : ℝ) (he : 0 < eps) (hA : A ≤ eps / 2) : expansionOrder A eps = .error .ub := by
  unfold expansionOrder
  split_ifs with h
  · rfl
  push Not at h
  have hL : Real.log (A / eps) / Real.log 2 ≤ -1 := by
    change Real.logb 2 (A / eps) ≤ -1
    rw [Real.logb_le_iff_le_rpow (by norm_num) h.2, Real.rpow_neg_one, div_le_iff₀ he]
    linarith
  have : ⌈Real.log (A / eps) / Real.log 2⌉ ≤ -1 := Int.ceil_le.mpr (by push_cast; exact hL)
  unfold toU32
  rw [if_neg (by omega)]

/-- **C24** The sum in the formula is the sum of the absolute strengths. -/
theorem C24_total_strength {d : ℕ} (sources : List (Source d)) :
    totalStrength sources = (sources.map fun s => |s.q|).sum := totalStrength_eq sources

/-- Non-vacuity of C24: `Σ|q| = 1000`, `eps = 1` gives order 10. -/
example : expansionOrder 1000 1 = .ok 10 := by
  obtain ⟨p, h, h1, h2⟩ := C24_order 1000 1 (by norm_num) (by norm_num) (by
    have : (2 : ℝ) ^ 10 ≤ 2 ^ (2 ^ 32 - 1) := pow_le_pow_right₀ (by norm_num) (by norm_num)
    linarith)
  have hp : p = 10 := by
    rcases Nat.lt_trichotomy p 10 with hlt | rfl | hgt
    · have : (2 : ℝ) ^ p ≤ 2 ^ 9 := pow_le_pow_right₀ (by norm_num) (by omega)
      norm_num at this h1; linarith
    · rfl
    · have := h2 10 hgt; norm_num at this
  rw [h, hp]

end FMM
