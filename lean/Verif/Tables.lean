import Verif.Basic
import Mathlib.Data.Complex.Basic
import Mathlib.Data.Nat.Choose.Basic
import Mathlib.Data.Nat.Choose.Sum
import Mathlib.Data.Nat.Choose.Bounds
import Mathlib.Tactic.NormNum.NatFactorial
import Mathlib.Data.Nat.Factorial.Basic
import Mathlib.Analysis.SpecialFunctions.Sqrt
import Mathlib.Tactic.IntervalCases

/-!
# Tables (`fmm_tables.hpp`, sign functions and `A_coeff` of `fmm_general.hpp`)

Orders are natural numbers here (`int order` in the code; orders are never negative in the programs, and
the index arithmetic does not overflow `int` for orders below 16000).
-/

namespace FMM

/-! ## Power table, fmm_tables.hpp 16-32 -/

/-- `PowTable(x, nmax)`, fmm_tables.hpp:22-29: `x_pow = 1; for n <= nmax {table[n] = x_pow; x_pow *= x;}` -/
noncomputable def powTable {T : Type*} [CommRing T] (x : T) (nmax : ℕ) : Outcome (Arr T) := do
  let (table, _) ← loopM (nmax + 1)
    (fun n (s : Arr T × T) => do
      let t ← s.1.wr n s.2
      .ok (t, s.2 * x))
    (Arr.new (nmax + 1), 1)
  .ok table

theorem powTable_spec {T : Type*} [CommRing T] (x : T) (nmax : ℕ) :
    ∃ t, powTable x nmax = .ok t ∧ t.size = nmax + 1 ∧ ∀ k ≤ nmax, t.val k = x ^ k := by
  obtain ⟨s, hs, h1, h2, h3⟩ := loopM_invariant
    (fun n (s : Arr T × T) => s.1.size = nmax + 1 ∧ s.2 = x ^ n ∧ ∀ k < n, s.1.val k = x ^ k)
    (fun n (s : Arr T × T) => (do
      let t ← s.1.wr n s.2
      .ok (t, s.2 * x) : Outcome (Arr T × T)))
    (Arr.new (nmax + 1), 1) (nmax + 1)
    ⟨rfl, by simp, by simp⟩
    (by
      rintro i hi ⟨t, y⟩ ⟨h1, h2, h3⟩
      refine ⟨(⟨t.size, Function.update t.val i y⟩, y * x), ?_, h1, ?_, ?_⟩
      · simp only [bind, Except.bind, Arr.wr_ok t (h1 ▸ hi : i < t.size)]
      · simp only at h2 ⊢; rw [h2, pow_succ]
      · intro k hk
        simp only at h2 h3 ⊢
        rcases eq_or_ne k i with rfl | hne
        · rw [Function.update_self, h2]
        · rw [Function.update_of_ne hne]; exact h3 k (by omega))
  refine ⟨s.1, ?_, h1, fun k hk => h3 k (by omega)⟩
  unfold powTable
  rw [hs]; rfl

/-! ## Binomial table, fmm_tables.hpp 34-66 -/

/-- `gsl_sf_choose(n, k)` (trusted specification): the exact value, except that an overflow of the `double`
range makes the default GSL error handler abort. -/
noncomputable def gslChoose (n k : ℕ) : Outcome ℝ :=
  if n.choose k < 2 ^ 1024 then .ok (n.choose k) else .error .gslAbort

set_option exponentiation.threshold 2000 in
theorem choose_1029 : Nat.choose 1029 514 < 2 ^ 1024 := by
  rw [Nat.choose_eq_factorial_div_factorial (by norm_num)]
  norm_num

set_option exponentiation.threshold 2000 in
theorem choose_1030 : 2 ^ 1024 ≤ Nat.choose 1030 515 := by
  rw [Nat.choose_eq_factorial_div_factorial (by norm_num)]
  norm_num

theorem gslChoose_ok {n : ℕ} (h : n ≤ 1029) (k : ℕ) : gslChoose n k = .ok (n.choose k : ℝ) :=
  if_pos (((Nat.choose_le_choose k h).trans (Nat.choose_le_middle k 1029)).trans_lt choose_1029)

theorem gslChoose_abort : gslChoose 1030 515 = .error .gslAbort := if_neg (not_lt.mpr choose_1030)

/-- `BinomialTable::getTableIndex`, fmm_tables.hpp:58-60. -/
def binIndex (n k : ℕ) : ℕ := (n * (n + 1)) / 2 + k

/-- `struct BinomialTable`, fmm_tables.hpp:34-37. -/
structure BinomialTable where
  maxOrder : ℕ
  table : Arr ℝ

namespace BinomialTable

/-- `BinomialTable(int order = 0)` as used for the static member, fmm_tables.hpp:39-42 and
series_expansion.hpp:43: `refresh(0)` returns immediately, the vector stays empty. -/
def init : BinomialTable := ⟨0, ⟨0, fun _ => 0⟩⟩

/-- `BinomialTable::refresh`, fmm_tables.hpp:44-56. -/
noncomputable def refresh (t : BinomialTable) (order : ℕ) : Outcome BinomialTable :=
  if order ≤ t.maxOrder then .ok t
  else do
    let tbl := t.table.resize (((2 * order + 1) * (2 * order + 2)) / 2)
    let tbl ← loopM (order + 1) (fun n tbl =>
      loopM (n + 1) (fun k (tbl : Arr ℝ) => do
        let c ← gslChoose n k
        tbl.wr (binIndex n k) c) tbl) tbl
    .ok ⟨order, tbl⟩

/-- `BinomialTable::operator()`, fmm_tables.hpp:62-64. -/
def get (t : BinomialTable) (n k : ℕ) : Outcome ℝ := t.table.rd (binIndex n k)

end BinomialTable

theorem two_mul_tri (n : ℕ) : 2 * ((n * (n + 1)) / 2) = n * (n + 1) :=
  Nat.two_mul_div_two_of_even (Nat.even_mul_succ_self n)

theorem tri_succ (n : ℕ) : ((n + 1) * (n + 1 + 1)) / 2 = (n * (n + 1)) / 2 + (n + 1) := by
  have h1 := two_mul_tri n
  have h2 := two_mul_tri (n + 1)
  nlinarith

theorem tri_mono {a b : ℕ} (h : a ≤ b) : (a * (a + 1)) / 2 ≤ (b * (b + 1)) / 2 :=
  Nat.div_le_div_right (Nat.mul_le_mul h (by omega))

theorem binIndex_injective {n k n' k' : ℕ} (hk : k ≤ n) (hk' : k' ≤ n')
    (h : binIndex n k = binIndex n' k') : n = n' ∧ k = k' := by
  unfold binIndex at h
  have hn : n = n' := by
    rcases Nat.lt_trichotomy n n' with hlt | heq | hgt
    · exfalso
      have := tri_mono (show n + 1 ≤ n' from hlt)
      rw [tri_succ] at this; omega
    · exact heq
    · exfalso
      have := tri_mono (show n' + 1 ≤ n from hgt)
      rw [tri_succ] at this; omega
  subst hn
  exact ⟨rfl, by omega⟩

theorem binIndex_lt {n k M : ℕ} (hk : k ≤ n) (hn : n ≤ 2 * M) :
    binIndex n k < ((2 * M + 1) * (2 * M + 2)) / 2 := by
  unfold binIndex
  have := tri_mono (show n + 1 ≤ 2 * M + 1 by omega)
  rw [tri_succ] at this
  have e : (2 * M + 1) * (2 * M + 2) = (2 * M + 1) * (2 * M + 1 + 1) := by ring
  rw [e]; omega

/-- Contents of the binomial table with maximal order `M`: rows up to `M` hold binomial coefficients, the
rows `M+1 .. 2M` are allocated but zero. -/
structure BinomialTable.Good (t : BinomialTable) : Prop where
  size : t.table.size = if t.maxOrder = 0 then 0 else ((2 * t.maxOrder + 1) * (2 * t.maxOrder + 2)) / 2
  low : 0 < t.maxOrder → ∀ n ≤ t.maxOrder, ∀ k ≤ n, t.table.val (binIndex n k) = (n.choose k : ℝ)
  high : ∀ n, t.maxOrder < n → n ≤ 2 * t.maxOrder → ∀ k ≤ n, t.table.val (binIndex n k) = 0

theorem BinomialTable.good_init : BinomialTable.init.Good :=
  ⟨rfl, fun h => absurd h (lt_irrefl 0), fun _ _ _ _ _ => rfl⟩

theorem BinomialTable.refresh_good (t : BinomialTable) (ht : t.Good) (order : ℕ) (ho : order ≤ 1029) :
    ∃ t', t.refresh order = .ok t' ∧ t'.Good ∧ t'.maxOrder = max t.maxOrder order := by
  by_cases h : order ≤ t.maxOrder
  · exact ⟨t, if_pos h, ht, (max_eq_left h).symm⟩
  push Not at h
  set S := ((2 * order + 1) * (2 * order + 2)) / 2 with hS
  -- values kept from before
  set old : ℕ → ℝ := (t.table.resize S).val with hold
  have hzero : ∀ n, order < n → n ≤ 2 * order → ∀ k ≤ n, old (binIndex n k) = 0 := by
    intro n h1 h2 k hk
    simp only [hold, Arr.resize]
    split_ifs with hlt
    · -- the entry existed before: then n ≤ 2 * old max
      have : n ≤ 2 * t.maxOrder := by
        by_contra hc
        push Not at hc
        rw [ht.size] at hlt
        split_ifs at hlt with h0
        · omega
        · have := tri_mono (show 2 * t.maxOrder + 1 ≤ n by omega)
          unfold binIndex at hlt
          have e : (2 * t.maxOrder + 1) * (2 * t.maxOrder + 2)
            = (2 * t.maxOrder + 1) * (2 * t.maxOrder + 1 + 1) := by ring
          rw [e] at hlt; omega
      exact ht.high n (by omega) this k hk
    · rfl
  obtain ⟨tbl, htbl, hsz, hlow, hhigh⟩ := loopM_invariant
    (fun n (a : Arr ℝ) => a.size = S ∧ (∀ n' < n, ∀ k ≤ n', a.val (binIndex n' k) = (n'.choose k : ℝ)) ∧
      ∀ n' ≥ n, ∀ k ≤ n', a.val (binIndex n' k) = old (binIndex n' k))
    (fun n tbl =>
      loopM (n + 1) (fun k (tbl : Arr ℝ) => do
        let c ← gslChoose n k
        tbl.wr (binIndex n k) c) tbl)
    (t.table.resize S) (order + 1) ⟨rfl, by omega, fun _ _ _ _ => rfl⟩
    (by
      rintro n hn a ⟨h1, h2, h3⟩
      obtain ⟨a', ha', g1, g2, g3⟩ := loopM_invariant
        (fun k (b : Arr ℝ) => b.size = S ∧ (∀ k' < k, b.val (binIndex n k') = (n.choose k' : ℝ)) ∧
          ∀ n' ≠ n, ∀ k' ≤ n', b.val (binIndex n' k') = a.val (binIndex n' k'))
        (fun k (tbl : Arr ℝ) => do
          let c ← gslChoose n k
          tbl.wr (binIndex n k) c) a (n + 1) ⟨h1, by omega, fun _ _ _ _ => rfl⟩
        (by
          rintro k hk b ⟨b1, b2, b3⟩
          refine ⟨⟨b.size, Function.update b.val (binIndex n k) (n.choose k : ℝ)⟩, ?_, b1, ?_, ?_⟩
          · simp only [gslChoose_ok (show n ≤ 1029 by omega), bind, Except.bind]
            exact Arr.wr_ok b (by rw [b1, hS]; exact binIndex_lt (by omega) (by omega)) _
          · intro k' hk'
            simp only
            rcases eq_or_ne k' k with rfl | hne
            · rw [Function.update_self]
            · rw [Function.update_of_ne]
              · exact b2 k' (by omega)
              · intro he; exact hne (binIndex_injective (by omega) (by omega) he).2
          · intro n' hn' k' hk'
            simp only
            rw [Function.update_of_ne]
            · exact b3 n' hn' k' hk'
            · intro he; exact hn' (binIndex_injective hk' (by omega) he).1)
      refine ⟨a', ha', g1, ?_, ?_⟩
      · intro n' hn' k hk
        rcases eq_or_ne n' n with rfl | hne
        · exact g2 k (by omega)
        · rw [g3 n' hne k hk]; exact h2 n' (by omega) k hk
      · intro n' hn' k hk
        rw [g3 n' (by omega) k hk]; exact h3 n' (by omega) k hk)
  refine ⟨⟨order, tbl⟩, ?_, ⟨?_, ?_, ?_⟩, (max_eq_right h.le).symm⟩
  · unfold BinomialTable.refresh
    rw [if_neg (by omega)]
    simp only [bind, Except.bind] at htbl ⊢
    rw [htbl]
  · simp only; rw [if_neg (by omega), hsz]
  · intro _ n hn k hk; exact hlow n (by simp only at hn; omega) k hk
  · intro n h1 h2 k hk
    simp only at h1 h2 ⊢
    rw [hhigh n (by omega) k hk]; exact hzero n h1 h2 k hk

/-- A loop all of whose iterations succeed, keeping an invariant, or fail with the error `e`. -/
theorem loopM_or {σ : Type*} (I : σ → Prop) (e : Err) (f : ℕ → σ → Outcome σ) (s : σ) (n : ℕ) (h0 : I s)
    (hs : ∀ i, i < n → ∀ t, I t → (∃ t', f i t = .ok t' ∧ I t') ∨ f i t = .error e) :
    (∃ t, loopM n f s = .ok t ∧ I t) ∨ loopM n f s = .error e := by
  induction n with
  | zero => exact .inl ⟨s, rfl, h0⟩
  | succ n ih =>
    rw [loopM_succ]
    rcases ih fun i hi => hs i (by omega) with ⟨t, h1, h2⟩ | h1
    · rw [h1]
      exact hs n (by omega) t h2
    · rw [h1]; exact .inr rfl

/-- From order 1030 on the table cannot be filled: `gsl_sf_choose` overflows. -/
theorem BinomialTable.refresh_abort (t : BinomialTable) (ht : t.maxOrder ≤ 1029) (order : ℕ) (ho : 1030 ≤ order) :
    t.refresh order = .error .gslAbort := by
  unfold BinomialTable.refresh
  rw [if_neg (by omega)]
  set S := ((2 * order + 1) * (2 * order + 2)) / 2 with hS
  have hn : ∀ tbl, loopM (order + 1) (fun n tbl =>
      loopM (n + 1) (fun k (tbl : Arr ℝ) => do
        let c ← gslChoose n k
        tbl.wr (binIndex n k) c) tbl) (t.table.resize S) ≠ .ok tbl := by
    refine loopM_ne_ok _ _ _ 1030 (by omega) fun a a' => ?_
    refine loopM_ne_ok _ _ _ 515 (by omega) (fun b b' => ?_) _
    rw [gslChoose_abort]
    simp [bind, Except.bind]
  rcases loopM_or (fun a : Arr ℝ => a.size = S) .gslAbort (fun n tbl =>
      loopM (n + 1) (fun k (tbl : Arr ℝ) => do
        let c ← gslChoose n k
        tbl.wr (binIndex n k) c) tbl) (t.table.resize S) (order + 1) rfl (by
      intro n hn a ha
      refine loopM_or (fun a : Arr ℝ => a.size = S) .gslAbort _ a (n + 1) ha ?_
      intro k hk b hb
      by_cases hc : n.choose k < 2 ^ 1024
      · refine .inl ⟨⟨b.size, Function.update b.val (binIndex n k) (n.choose k : ℝ)⟩, ?_, hb⟩
        unfold gslChoose
        rw [if_pos hc]
        simp only [bind, Except.bind]
        exact Arr.wr_ok b (by rw [hb, hS]; exact binIndex_lt (by omega) (by omega)) _
      · refine .inr ?_
        unfold gslChoose
        rw [if_neg hc]; rfl) with ⟨tbl, h, -⟩ | h
  · exact absurd h (hn tbl)
  · simp only [bind, Except.bind] at h ⊢
    rw [h]

/-! ## A-table, fmm_general.hpp 18-27 and fmm_tables.hpp 193-223 -/

/-- `gsl_sf_fact(n)` (trusted specification): `n!` for `n ≤ 170`, overflow error otherwise.  The argument is
`unsigned`, so a negative argument is a huge one. -/
noncomputable def gslFact (n : ℤ) : Outcome ℝ :=
  if 0 ≤ n ∧ n ≤ 170 then .ok ((n.toNat.factorial : ℕ) : ℝ) else .error .gslAbort

/-- `A_coeff`, fmm_general.hpp:19-27. -/
noncomputable def aCoeff (n m : ℤ) : Outcome ℝ :=
  if n < 0 then .error .logicError
  else do
    let a ← gslFact (n - m)
    let b ← gslFact (n + m)
    .ok ((if n % 2 = 0 then 1 else -1) / Real.sqrt (a * b))

/-- Specification: `A_n^m = (-1)^n / sqrt((n-m)! (n+m)!)`. -/
noncomputable def aSpec (n : ℕ) (m : ℤ) : ℝ :=
  (-1) ^ n / Real.sqrt (((n - m).toNat.factorial : ℝ) * ((n + m).toNat.factorial : ℝ))

theorem aCoeff_ok (n : ℕ) (m : ℤ) (hm : |m| ≤ n) (hn : n ≤ 85) : aCoeff n m = .ok (aSpec n m) := by
  rw [abs_le] at hm
  unfold aCoeff gslFact
  rw [if_neg (by omega), if_pos (by omega), if_pos (by omega)]
  simp only [bind, Except.bind]
  unfold aSpec
  congr 2
  rcases Nat.even_or_odd n with h | h
  · rw [if_pos (by obtain ⟨k, rfl⟩ := h; omega), h.neg_one_pow]
  · rw [if_neg (by obtain ⟨k, rfl⟩ := h; omega), h.neg_one_pow]

/-- index of `(l, m)`, fmm_tables.hpp:109-111, 176, 217 and series_expansion.hpp:164-175. -/
def lmIndex (l : ℕ) (m : ℤ) : ℤ := l * (l + 1) + m

theorem lmIndex_bounds {l : ℕ} {m : ℤ} (hm : |m| ≤ l) {L : ℕ} (hl : l ≤ L) :
    0 ≤ lmIndex l m ∧ lmIndex l m < ((L + 1) * (L + 1) : ℕ) := by
  rw [abs_le] at hm
  unfold lmIndex
  constructor
  · have : (0 : ℤ) ≤ l * l := by positivity
    nlinarith
  · push_cast
    have : (l : ℤ) ≤ L := by exact_mod_cast hl
    nlinarith

theorem lmIndex_injective {l l' : ℕ} {m m' : ℤ} (hm : |m| ≤ l) (hm' : |m'| ≤ l')
    (h : lmIndex l m = lmIndex l' m') : l = l' ∧ m = m' := by
  have key : ∀ {a b : ℕ} {x y : ℤ}, |x| ≤ a → |y| ≤ b → a < b → lmIndex a x < lmIndex b y := by
    intro a b x y hx hy hab
    rw [abs_le] at hx hy
    unfold lmIndex
    have : (a : ℤ) + 1 ≤ b := by exact_mod_cast hab
    nlinarith
  rcases Nat.lt_trichotomy l l' with hlt | heq | hgt
  · exact absurd h (key hm hm' hlt).ne
  · subst heq; exact ⟨rfl, by unfold lmIndex at h; omega⟩
  · exact absurd h.symm (key hm' hm hgt).ne

theorem lmIndex_toNat_injective {l l' : ℕ} {m m' : ℤ} (hm : |m| ≤ l) (hm' : |m'| ≤ l')
    (h : (lmIndex l m).toNat = (lmIndex l' m').toNat) : l = l' ∧ m = m' := by
  refine lmIndex_injective hm hm' ?_
  have h1 := (lmIndex_bounds hm (le_refl l)).1
  have h2 := (lmIndex_bounds hm' (le_refl l')).1
  omega

/-- `struct AlmTable`, fmm_tables.hpp:193-196. -/
structure AlmTable where
  maxOrder : ℕ
  table : Arr ℝ

namespace AlmTable

/-- `AlmTable(int order = 0)` as used for the static member, fmm_tables.hpp:198-201. -/
def init : AlmTable := ⟨0, ⟨0, fun _ => 0⟩⟩

/-- `AlmTable::refresh`, fmm_tables.hpp:203-215; `m = -l .. l` is `i - l` for `i = 0 .. 2l`. -/
noncomputable def refresh (t : AlmTable) (order : ℕ) : Outcome AlmTable :=
  if order ≤ t.maxOrder then .ok t
  else do
    let tbl := t.table.resize ((2 * order + 1) * (2 * order + 1))
    let tbl ← loopM (2 * order + 1) (fun l tbl =>
      loopM (2 * l + 1) (fun i (tbl : Arr ℝ) => do
        let m : ℤ := i - l
        let a ← aCoeff l m
        tbl.wrZ (lmIndex l m) a) tbl) tbl
    .ok ⟨order, tbl⟩

/-- `AlmTable::operator()`, fmm_tables.hpp:219-221. -/
def get (t : AlmTable) (l : ℕ) (m : ℤ) : Outcome ℝ := t.table.rdZ (lmIndex l m)

end AlmTable

/-- Contents of the A-table. -/
structure AlmTable.Good (t : AlmTable) : Prop where
  size : t.table.size = if t.maxOrder = 0 then 0 else (2 * t.maxOrder + 1) * (2 * t.maxOrder + 1)
  val : 0 < t.maxOrder → ∀ l ≤ 2 * t.maxOrder, ∀ m : ℤ, |m| ≤ l →
    t.table.val (lmIndex l m).toNat = aSpec l m

theorem AlmTable.good_init : AlmTable.init.Good := ⟨rfl, fun h => absurd h (lt_irrefl 0)⟩

theorem AlmTable.refresh_good (t : AlmTable) (ht : t.Good) (order : ℕ) (ho : order ≤ 42) :
    ∃ t', t.refresh order = .ok t' ∧ t'.Good ∧ t'.maxOrder = max t.maxOrder order := by
  by_cases h : order ≤ t.maxOrder
  · exact ⟨t, if_pos h, ht, (max_eq_left h).symm⟩
  push Not at h
  set S := (2 * order + 1) * (2 * order + 1) with hS
  obtain ⟨tbl, htbl, hsz, hlow⟩ := loopM_invariant
    (fun l (a : Arr ℝ) => a.size = S ∧
      ∀ l' < l, ∀ m : ℤ, |m| ≤ l' → a.val (lmIndex l' m).toNat = aSpec l' m)
    (fun l tbl =>
      loopM (2 * l + 1) (fun i (tbl : Arr ℝ) => do
        let m : ℤ := i - l
        let a ← aCoeff l m
        tbl.wrZ (lmIndex l m) a) tbl)
    (t.table.resize S) (2 * order + 1) ⟨rfl, by omega⟩
    (by
      rintro l hl a ⟨h1, h2⟩
      obtain ⟨a', ha', g1, g2, g3⟩ := loopM_invariant
        (fun i (b : Arr ℝ) => b.size = S ∧
          (∀ i' : ℕ, i' < i → b.val (lmIndex l ((i' : ℤ) - l)).toNat = aSpec l ((i' : ℤ) - l)) ∧
          ∀ l' ≠ l, ∀ m : ℤ, |m| ≤ l' → b.val (lmIndex l' m).toNat = a.val (lmIndex l' m).toNat)
        (fun i (tbl : Arr ℝ) => do
          let m : ℤ := i - l
          let a ← aCoeff l m
          tbl.wrZ (lmIndex l m) a) a (2 * l + 1) ⟨h1, by omega, fun _ _ _ _ => rfl⟩
        (by
          rintro i hi b ⟨b1, b2, b3⟩
          have habs : ∀ i' : ℕ, i' < 2 * l + 1 → |(i' : ℤ) - l| ≤ l := by
            intro i' hi'; rw [abs_le]; omega
          obtain ⟨k0, k1⟩ := lmIndex_bounds (habs i hi) (show l ≤ 2 * order by omega)
          refine ⟨⟨b.size, Function.update b.val (lmIndex l ((i : ℤ) - l)).toNat
            (aSpec l ((i : ℤ) - l))⟩, ?_, b1, ?_, ?_⟩
          · simp only [aCoeff_ok l _ (habs i hi) (by omega), bind, Except.bind]
            exact Arr.wrZ_ok b k0 (by rw [b1, hS]; exact k1) _
          · intro i' hi'
            simp only
            rcases eq_or_ne i' i with rfl | hne
            · rw [Function.update_self]
            · rw [Function.update_of_ne]
              · exact b2 i' (by omega)
              · intro he
                have := (lmIndex_toNat_injective (habs i' (by omega)) (habs i hi) he).2
                omega
          · intro l' hl' m hm
            simp only
            rw [Function.update_of_ne]
            · exact b3 l' hl' m hm
            · intro he; exact hl' (lmIndex_toNat_injective hm (habs i hi) he).1)
      refine ⟨a', ha', g1, ?_⟩
      intro l' hl' m hm
      rcases eq_or_ne l' l with rfl | hne
      · have := g2 (m + l').toNat (by rw [abs_le] at hm; omega)
        rw [abs_le] at hm
        rwa [show (((m + l').toNat : ℕ) : ℤ) - l' = m by omega] at this
      · rw [g3 l' hne m hm]; exact h2 l' (by omega) m hm)
  refine ⟨⟨order, tbl⟩, ?_, ⟨?_, ?_⟩, (max_eq_right h.le).symm⟩
  · unfold AlmTable.refresh
    rw [if_neg (by omega)]
    simp only [bind, Except.bind] at htbl ⊢
    rw [htbl]
  · simp only; rw [if_neg (by omega), hsz]
  · intro _ l hl m hm; exact hlow l (by simp only at hl; omega) m hm

theorem aCoeff_abort : aCoeff ((86 : ℕ) : ℤ) (((0 : ℕ) : ℤ) - ((86 : ℕ) : ℤ)) = .error .gslAbort := by
  have h : gslFact (((86 : ℕ) : ℤ) - (((0 : ℕ) : ℤ) - ((86 : ℕ) : ℤ))) = .error .gslAbort :=
    if_neg (by norm_num)
  unfold aCoeff
  rw [if_neg (by norm_num), h]
  rfl

/-- For orders above 42 the table cannot be filled: `gsl_sf_fact` overflows. -/
theorem AlmTable.refresh_abort (t : AlmTable) (ht : t.maxOrder ≤ 42) (order : ℕ) (ho : 43 ≤ order) :
    t.refresh order = .error .gslAbort := by
  have hsize : ∀ (l : ℕ), l ≤ 85 → l ≤ 2 * order → ∀ n ≤ 2 * l + 1, ∀ a : Arr ℝ,
      a.size = (2 * order + 1) * (2 * order + 1) → ∃ a',
      loopM n (fun i (tbl : Arr ℝ) => do
        let m : ℤ := i - l
        let c ← aCoeff l m
        tbl.wrZ (lmIndex l m) c) a = .ok a' ∧ a'.size = (2 * order + 1) * (2 * order + 1) := by
    intro l hl hlo n hn a ha
    refine loopM_invariant (fun _ b => b.size = (2 * order + 1) * (2 * order + 1)) _ a n ha ?_
    intro i hi b hb
    have habs : |(i : ℤ) - l| ≤ l := by rw [abs_le]; omega
    obtain ⟨k0, k1⟩ := lmIndex_bounds habs hlo
    refine ⟨⟨b.size, Function.update b.val (lmIndex l ((i : ℤ) - l)).toNat (aSpec l ((i : ℤ) - l))⟩, ?_, hb⟩
    simp only [aCoeff_ok l _ habs hl, bind, Except.bind]
    exact Arr.wrZ_ok b k0 (by rw [hb]; exact k1) _
  unfold AlmTable.refresh
  rw [if_neg (by omega)]
  set body := (fun (l : ℕ) (tbl : Arr ℝ) =>
      loopM (2 * l + 1) (fun i (tbl : Arr ℝ) => do
        let m : ℤ := i - l
        let a ← aCoeff l m
        tbl.wrZ (lmIndex l m) a) tbl) with hbody
  obtain ⟨s, hs, hsz⟩ := loopM_invariant (fun _ b => b.size = (2 * order + 1) * (2 * order + 1)) body
    (t.table.resize ((2 * order + 1) * (2 * order + 1))) 86 rfl
    (fun l hl b hb => hsize l (by omega) (by omega) _ le_rfl b hb)
  have hfail : loopM 87 body (t.table.resize ((2 * order + 1) * (2 * order + 1))) = .error .gslAbort := by
    rw [loopM_succ, hs]
    simp only [Except.bind, hbody]
    refine loopM_error _ _ _ 1 _ (by norm_num) ?_
    rw [loopM_succ, loopM_zero]
    simp only [Except.bind, bind]
    rw [aCoeff_abort]
  have := loopM_error body _ (2 * order + 1) 87 _ (by omega) hfail
  simp only [bind, Except.bind] at this ⊢
  rw [this]

/-! ## Sign functions and sign tables, fmm_general.hpp 29-74 and fmm_tables.hpp 225-263 -/

/-- the `switch(std::abs(exponent) % 4)` common to the three sign functions. -/
noncomputable def signSwitch (exponent : ℤ) : Outcome ℝ :=
  if exponent.natAbs % 4 = 0 then .ok 1
  else if exponent.natAbs % 4 = 2 then .ok (-1)
  else .error .logicError

/-- `sign_fun1`, fmm_general.hpp:30-43. -/
noncomputable def signFun1 (k m : ℤ) : Outcome ℝ := signSwitch (|k| - |m| - |k - m|)
/-- `sign_fun2`, fmm_general.hpp:46-59. -/
noncomputable def signFun2 (k m : ℤ) : Outcome ℝ := signSwitch (|k - m| - |k| - |m|)
/-- `sign_fun3`, fmm_general.hpp:62-74. -/
noncomputable def signFun3 (k m : ℤ) : Outcome ℝ := signSwitch (|m| - |m - k| - |k|)

/-- Specification of a sign function: the real number equal to `i^e`. -/
noncomputable def iPow (e : ℤ) : ℝ := (Complex.I ^ e).re

theorem signSwitch_even (h : ℤ) : signSwitch (2 * h) = .ok ((-1 : ℝ) ^ h) := by
  unfold signSwitch
  rcases Int.even_or_odd h with he | ho
  · rw [if_pos (by obtain ⟨k, rfl⟩ := he; omega), he.neg_one_zpow]
  · rw [if_neg (by obtain ⟨k, rfl⟩ := ho; omega), if_pos (by obtain ⟨k, rfl⟩ := ho; omega),
      ho.neg_one_zpow]

theorem I_zpow_two_mul (h : ℤ) : Complex.I ^ (2 * h) = (((-1 : ℝ) ^ h : ℝ) : ℂ) := by
  rw [zpow_mul]
  norm_num [zpow_ofNat, Complex.I_sq]

/-- `struct SignTable`, fmm_tables.hpp:225-231; `f` is the sign function. -/
structure SignTable where
  maxOrder : ℕ
  table : Arr ℝ
  offset : ℤ

namespace SignTable

/-- The static tables are constructed with order 0: empty vector, `offset` uninitialised
(series_expansion.hpp:130-132); the arbitrary value of `offset` is a parameter. -/
def init (offset : ℤ) : SignTable := ⟨0, ⟨0, fun _ => 0⟩, offset⟩

/-- `SignTable::getTableIndex`, fmm_tables.hpp:255-257. -/
def index (maxOrder : ℕ) (offset l m : ℤ) : ℤ := offset + l * (2 * maxOrder + 1) + m

/-- `SignTable::refresh`, fmm_tables.hpp:240-253; `l, m = -max .. max` are `i - max`. -/
noncomputable def refresh (f : ℤ → ℤ → Outcome ℝ) (t : SignTable) (order : ℕ) : Outcome SignTable :=
  if order ≤ t.maxOrder then .ok t
  else do
    let offset : ℤ := 2 * order * (order + 1)
    let tbl := t.table.resize ((2 * order + 1) * (2 * order + 1))
    let tbl ← loopM (2 * order + 1) (fun i tbl =>
      loopM (2 * order + 1) (fun j (tbl : Arr ℝ) => do
        let l : ℤ := i - order
        let m : ℤ := j - order
        let a ← f l m
        tbl.wrZ (index order offset l m) a) tbl) tbl
    .ok ⟨order, tbl, offset⟩

/-- `SignTable::operator()`, fmm_tables.hpp:259-261. -/
def get (t : SignTable) (l m : ℤ) : Outcome ℝ := t.table.rdZ (index t.maxOrder t.offset l m)

end SignTable

/-- With `offset = 2 M (M+1)` the index of `(l, m)` is `(l + M) (2M + 1) + (m + M)`. -/
theorem signIndex_eq (M : ℕ) (l m : ℤ) :
    SignTable.index M (2 * M * (M + 1)) l m = (l + M) * (2 * M + 1) + (m + M) := by
  unfold SignTable.index; ring

theorem signIndex_bounds {M : ℕ} {l m : ℤ} (hl : |l| ≤ M) (hm : |m| ≤ M) :
    0 ≤ SignTable.index M (2 * M * (M + 1)) l m ∧
      SignTable.index M (2 * M * (M + 1)) l m < ((2 * M + 1) * (2 * M + 1) : ℕ) := by
  rw [signIndex_eq]
  rw [abs_le] at hl hm
  push_cast
  constructor <;> nlinarith

theorem signIndex_injective {M : ℕ} {l m l' m' : ℤ} (hm : |m| ≤ M)
    (hm' : |m'| ≤ M) (h : SignTable.index M (2 * M * (M + 1)) l m
      = SignTable.index M (2 * M * (M + 1)) l' m') : l = l' ∧ m = m' := by
  rw [signIndex_eq, signIndex_eq] at h
  rw [abs_le] at hm hm'
  have hl : l = l' := by
    rcases lt_trichotomy l l' with hlt | heq | hgt
    · exfalso; nlinarith
    · exact heq
    · exfalso; nlinarith
  subst hl
  exact ⟨rfl, by linarith⟩

theorem signIndex_toNat_injective {M : ℕ} {l m l' m' : ℤ} (hl : |l| ≤ M) (hl' : |l'| ≤ M) (hm : |m| ≤ M)
    (hm' : |m'| ≤ M) (h : (SignTable.index M (2 * M * (M + 1)) l m).toNat
      = (SignTable.index M (2 * M * (M + 1)) l' m').toNat) : l = l' ∧ m = m' := by
  refine signIndex_injective hm hm' ?_
  have h1 := (signIndex_bounds hl hm).1
  have h2 := (signIndex_bounds hl' hm').1
  omega

/-- Contents of a sign table for the (total) sign function `g`. -/
structure SignTable.Good (g : ℤ → ℤ → ℝ) (t : SignTable) : Prop where
  size : t.table.size = if t.maxOrder = 0 then 0 else (2 * t.maxOrder + 1) * (2 * t.maxOrder + 1)
  off : 0 < t.maxOrder → t.offset = 2 * t.maxOrder * (t.maxOrder + 1)
  val : 0 < t.maxOrder → ∀ l m : ℤ, |l| ≤ t.maxOrder → |m| ≤ t.maxOrder →
    t.table.val (SignTable.index t.maxOrder t.offset l m).toNat = g l m

theorem SignTable.good_init (g : ℤ → ℤ → ℝ) (o : ℤ) : (SignTable.init o).Good g :=
  ⟨rfl, fun h => absurd h (lt_irrefl 0), fun h => absurd h (lt_irrefl 0)⟩

theorem SignTable.refresh_good (f : ℤ → ℤ → Outcome ℝ) (g : ℤ → ℤ → ℝ) (hf : ∀ l m, f l m = .ok (g l m))
    (t : SignTable) (ht : t.Good g) (order : ℕ) :
    ∃ t', t.refresh f order = .ok t' ∧ t'.Good g ∧ t'.maxOrder = max t.maxOrder order := by
  by_cases h : order ≤ t.maxOrder
  · exact ⟨t, if_pos h, ht, (max_eq_left h).symm⟩
  push Not at h
  set S := (2 * order + 1) * (2 * order + 1) with hS
  set off : ℤ := 2 * order * (order + 1) with hoff
  have habs : ∀ i : ℕ, i < 2 * order + 1 → |(i : ℤ) - order| ≤ order := by
    intro i hi; rw [abs_le]; omega
  obtain ⟨tbl, htbl, hsz, hlow⟩ := loopM_invariant
    (fun i (a : Arr ℝ) => a.size = S ∧ ∀ i' : ℕ, i' < i → ∀ j : ℕ, j < 2 * order + 1 →
      a.val (SignTable.index order off ((i' : ℤ) - order) ((j : ℤ) - order)).toNat
        = g ((i' : ℤ) - order) ((j : ℤ) - order))
    (fun i tbl =>
      loopM (2 * order + 1) (fun j (tbl : Arr ℝ) => do
        let l : ℤ := i - order
        let m : ℤ := j - order
        let a ← f l m
        tbl.wrZ (SignTable.index order off l m) a) tbl)
    (t.table.resize S) (2 * order + 1) ⟨rfl, by omega⟩
    (by
      rintro i hi a ⟨h1, h2⟩
      obtain ⟨a', ha', g1, g2, g3⟩ := loopM_invariant
        (fun j (b : Arr ℝ) => b.size = S ∧
          (∀ j' : ℕ, j' < j → b.val (SignTable.index order off ((i : ℤ) - order) ((j' : ℤ) - order)).toNat
            = g ((i : ℤ) - order) ((j' : ℤ) - order)) ∧
          ∀ i' : ℕ, i' < i → ∀ j : ℕ, j < 2 * order + 1 →
            b.val (SignTable.index order off ((i' : ℤ) - order) ((j : ℤ) - order)).toNat
              = a.val (SignTable.index order off ((i' : ℤ) - order) ((j : ℤ) - order)).toNat)
        (fun j (tbl : Arr ℝ) => do
          let l : ℤ := i - order
          let m : ℤ := j - order
          let a ← f l m
          tbl.wrZ (SignTable.index order off l m) a) a (2 * order + 1)
        ⟨h1, by omega, fun _ _ _ _ => rfl⟩
        (by
          rintro j hj b ⟨b1, b2, b3⟩
          obtain ⟨k0, k1⟩ := signIndex_bounds (habs i hi) (habs j hj)
          refine ⟨⟨b.size, Function.update b.val
            (SignTable.index order off ((i : ℤ) - order) ((j : ℤ) - order)).toNat
            (g ((i : ℤ) - order) ((j : ℤ) - order))⟩, ?_, b1, ?_, ?_⟩
          · simp only [hf, bind, Except.bind]
            exact Arr.wrZ_ok b k0 (by rw [b1, hS]; exact k1) _
          · intro j' hj'
            simp only
            rcases eq_or_ne j' j with rfl | hne
            · rw [Function.update_self]
            · rw [Function.update_of_ne]
              · exact b2 j' (by omega)
              · intro he
                have := (signIndex_toNat_injective (habs i hi) (habs i hi) (habs j' (by omega))
                  (habs j hj) he).2
                omega
          · intro i' hi' j' hj'
            simp only
            rw [Function.update_of_ne]
            · exact b3 i' hi' j' hj'
            · intro he
              have := (signIndex_toNat_injective (habs i' (by omega)) (habs i hi) (habs j' hj')
                (habs j hj) he).1
              omega)
      refine ⟨a', ha', g1, ?_⟩
      intro i' hi' j hj
      rcases eq_or_ne i' i with rfl | hne
      · exact g2 j hj
      · rw [g3 i' (by omega) j hj]; exact h2 i' (by omega) j hj)
  refine ⟨⟨order, tbl, off⟩, ?_, ⟨?_, fun _ => rfl, ?_⟩, (max_eq_right h.le).symm⟩
  · unfold SignTable.refresh
    rw [if_neg (by omega)]
    simp only [bind, Except.bind] at htbl ⊢
    rw [htbl]
  · simp only; rw [if_neg (by omega), hsz]
  · intro _ l m hl hm
    rw [abs_le] at hl hm
    simp only at hl hm ⊢
    have := hlow (l + order).toNat (by omega) (m + order).toNat (by omega)
    rwa [show (((l + order).toNat : ℕ) : ℤ) - order = l by omega,
      show (((m + order).toNat : ℕ) : ℤ) - order = m by omega] at this

end FMM
