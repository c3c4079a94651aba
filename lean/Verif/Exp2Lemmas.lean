import Verif.Exp2
import Verif.LoopLemmas
import Mathlib.Tactic.FieldSimp
import Mathlib.Algebra.BigOperators.Ring.Finset
import Mathlib.Algebra.BigOperators.Field
import Mathlib.Data.Nat.Choose.Sum

/-!
# Closed forms of the 2D expansion operations
-/

namespace FMM
open Finset

/-! ## Specification of the coefficients -/

/-- Coefficients of the multipole expansion of the sources about `c`:
`a_0 = ∑ q`, `a_k = -∑ q (z - c)^k / k`. -/
noncomputable def meCoeff (c : ℂ) (S : List (Source 2)) (k : ℕ) : ℂ :=
  if k = 0 then (S.map fun s => (s.q : ℂ)).sum
  else -(S.map fun s => (s.q : ℂ) * (toC s.pos - c) ^ k).sum / k

/-- Coefficients of the local expansion of the sources about `c`:
`b_0 = ∑ q log(c - z)`, `b_k = -∑ q / (k (z - c)^k)`. -/
noncomputable def leCoeff (c : ℂ) (S : List (Source 2)) (k : ℕ) : ℂ :=
  if k = 0 then (S.map fun s => (s.q : ℂ) * Complex.log (-(toC s.pos - c))).sum
  else -(S.map fun s => (s.q : ℂ) * ((toC s.pos - c)⁻¹) ^ k).sum / k

/-- `e` is an expansion of order `p` about `c` with coefficients `a 0, …, a p`. -/
structure Exp2.Is (e : Exp2) (c : ℂ) (p : ℕ) (a : ℕ → ℂ) : Prop where
  order : e.order = p
  center : e.center = c
  size : e.coeffs.size = p + 1
  val : ∀ k ≤ p, e.coeffs.val k = a k

theorem Exp2.Is.rd {e : Exp2} {c : ℂ} {p : ℕ} {a : ℕ → ℂ} (h : e.Is c p a) {k : ℕ} (hk : k ≤ p) :
    e.coeffs.rd k = .ok (a k) := by
  rw [Arr.rd_ok _ (by rw [h.size]; omega), h.val k hk]

theorem Exp2.Is.congr {e : Exp2} {c : ℂ} {p : ℕ} {a b : ℕ → ℂ} (h : e.Is c p a)
    (hab : ∀ k ≤ p, a k = b k) : e.Is c p b :=
  ⟨h.order, h.center, h.size, fun k hk => (h.val k hk).trans (hab k hk)⟩

theorem meCoeff_nil (c : ℂ) (k : ℕ) : meCoeff c [] k = 0 := by unfold meCoeff; simp
theorem leCoeff_nil (c : ℂ) (k : ℕ) : leCoeff c [] k = 0 := by unfold leCoeff; simp

theorem meCoeff_append (c : ℂ) (S T : List (Source 2)) (k : ℕ) :
    meCoeff c (S ++ T) k = meCoeff c S k + meCoeff c T k := by
  unfold meCoeff; split_ifs
  · simp
  · simp only [List.map_append, List.sum_append]; ring

theorem leCoeff_append (c : ℂ) (S T : List (Source 2)) (k : ℕ) :
    leCoeff c (S ++ T) k = leCoeff c S k + leCoeff c T k := by
  unfold leCoeff; split_ifs
  · simp
  · simp only [List.map_append, List.sum_append]; ring

theorem meCoeff_cons (c : ℂ) (s : Source 2) (S : List (Source 2)) (k : ℕ) :
    meCoeff c (s :: S) k = meCoeff c [s] k + meCoeff c S k := meCoeff_append c [s] S k

theorem leCoeff_cons (c : ℂ) (s : Source 2) (S : List (Source 2)) (k : ℕ) :
    leCoeff c (s :: S) k = leCoeff c [s] k + leCoeff c S k := leCoeff_append c [s] S k

theorem meCoeff_perm (c : ℂ) {S T : List (Source 2)} (h : S.Perm T) (k : ℕ) :
    meCoeff c S k = meCoeff c T k := by
  unfold meCoeff; split_ifs
  · exact (h.map _).sum_eq
  · rw [(h.map _).sum_eq]

theorem leCoeff_perm (c : ℂ) {S T : List (Source 2)} (h : S.Perm T) (k : ℕ) :
    leCoeff c S k = leCoeff c T k := by
  unfold leCoeff; split_ifs
  · exact (h.map _).sum_eq
  · rw [(h.map _).sum_eq]

theorem meCoeff_zero_im (c : ℂ) (S : List (Source 2)) : (meCoeff c S 0).im = 0 := by
  unfold meCoeff; rw [if_pos rfl]
  induction S with
  | nil => simp
  | cons s S ih => simp [ih]

theorem meCoeff_zero_re (c : ℂ) (S : List (Source 2)) : (((meCoeff c S 0).re : ℝ) : ℂ) = meCoeff c S 0 :=
  Complex.ext (by simp) (by simp [meCoeff_zero_im])

/-! ## Tables -/

/-- The entry `(n, k)` that the binomial table with maximal order `M` holds. -/
def binVal (M n k : ℕ) : ℕ := if n ≤ M then n.choose k else 0

theorem BinomialTable.get_ok {t : BinomialTable} (ht : t.Good) (h0 : 0 < t.maxOrder) {n k : ℕ} (hk : k ≤ n)
    (hn : n ≤ 2 * t.maxOrder) : t.get n k = .ok (binVal t.maxOrder n k : ℝ) := by
  unfold BinomialTable.get
  rw [Arr.rd_ok _ (by rw [ht.size, if_neg (by omega)]; exact binIndex_lt hk hn)]
  unfold binVal
  split_ifs with h
  · rw [ht.low h0 n h k hk]
  · rw [ht.high n (by omega) hn k hk]; simp

namespace Exp2

theorem new_ok (bt : BinomialTable) (hbt : bt.Good) (center : Vec 2) (p : ℕ) (hp : p ≤ 1029) :
    ∃ bt' e, new bt center p = .ok (bt', e) ∧ bt'.Good ∧ bt'.maxOrder = max bt.maxOrder p ∧
      (p ≤ bt.maxOrder → bt' = bt) ∧ e = ⟨p, toC center, Arr.new (p + 1)⟩ := by
  unfold new
  obtain ⟨t', h1, h2, h3⟩ := bt.refresh_good hbt p hp
  by_cases h : p > bt.maxOrder
  · refine ⟨t', _, ?_, h2, h3, fun hle => absurd hle (by omega), rfl⟩
    rw [if_pos h, h1]; rfl
  · refine ⟨bt, _, ?_, hbt, by omega, fun _ => rfl, rfl⟩
    rw [if_neg h]; rfl

/-! ## Expansions of sources -/

theorem meAddSource_ok (p : ℕ) (c : ℂ) (arr : Arr ℂ) (hs : arr.size = p + 1) (s : Source 2) :
    meAddSource p c arr s = .ok ⟨p + 1, fun k => if k = 0 then arr.val 0 + s.q else
      if k ≤ p then arr.val k - s.q * (toC s.pos - c) ^ k else arr.val k⟩ := by
  unfold meAddSource
  rw [Arr.rd_ok _ (by omega), ok_bind, Arr.wr_ok _ (by omega), ok_bind]
  rw [loopM_rmw p 1 _ (fun i y a => a - (s.q : ℂ) * y) (fun i => (toC s.pos - c) ^ (i + 1)) _ (by simp) _
    (by simp only; omega) ?_]
  · simp only [ok_bind, Except.ok.injEq]
    refine Arr.ext' hs fun k => ?_
    simp only
    rcases Nat.eq_zero_or_pos k with rfl | hk
    · simp
    · rw [if_neg (by omega : ¬ k = 0), Function.update_of_ne (by omega)]
      by_cases h : k ≤ p
      · rw [if_pos h, if_pos (by omega), Nat.sub_add_cancel hk]
      · rw [if_neg h, if_neg (by omega)]
  · intro i hi c' hc'
    simp only at hc'
    rw [Arr.rd_ok _ (by simp only; omega), ok_bind, Arr.wr_ok _ (by simp only; omega), ok_bind, ← pow_succ]

theorem meFold_ok (p : ℕ) (c : ℂ) (S : List (Source 2)) (arr : Arr ℂ) (hs : arr.size = p + 1) :
    ∃ arr', S.foldlM (meAddSource p c) arr = .ok arr' ∧ arr'.size = p + 1 ∧
      arr'.val 0 = arr.val 0 + (S.map fun s => (s.q : ℂ)).sum ∧
      ∀ k, 0 < k → k ≤ p → arr'.val k = arr.val k - (S.map fun s => (s.q : ℂ) * (toC s.pos - c) ^ k).sum := by
  induction S generalizing arr with
  | nil => exact ⟨arr, rfl, hs, by simp, by simp⟩
  | cons s S ih =>
    rw [List.foldlM_cons, meAddSource_ok p c arr hs s, ok_bind]
    obtain ⟨arr', h1, h2, h3, h4⟩ := ih ⟨p + 1, fun k => if k = 0 then arr.val 0 + s.q else
      if k ≤ p then arr.val k - s.q * (toC s.pos - c) ^ k else arr.val k⟩ rfl
    refine ⟨arr', h1, h2, ?_, fun k hk hkp => ?_⟩
    · rw [h3]; simp [add_assoc]
    · rw [h4 k hk hkp]; simp only [if_neg (by omega : ¬ k = 0), if_pos hkp, List.map_cons, List.sum_cons]
      ring

theorem divByIndex_ok (p : ℕ) (arr : Arr ℂ) (hs : arr.size = p + 1) :
    divByIndex p arr = .ok ⟨p + 1, fun k => if 0 < k ∧ k ≤ p then arr.val k / k else arr.val k⟩ := by
  unfold divByIndex
  rw [loopM_rmw1 p 1 _ (fun i a => a / ((i + 1 : ℕ) : ℂ)) _ (by omega) ?_]
  · simp only [Except.ok.injEq]
    refine Arr.ext' hs fun k => ?_
    simp only
    by_cases h : 0 < k ∧ k ≤ p
    · rw [if_pos h, if_pos (by omega), Nat.sub_add_cancel h.1]
    · rw [if_neg h, if_neg (by omega)]
  · intro i hi c' hc'
    rw [Arr.rd_ok _ (by omega), ok_bind, Arr.wr_ok _ (by omega)]

theorem meOfSources_ok (bt : BinomialTable) (hbt : bt.Good) (center : Vec 2) (p : ℕ) (hp : p ≤ 1029)
    (S : List (Source 2)) :
    ∃ bt' e, meOfSources bt center p S = .ok (bt', e) ∧ bt'.Good ∧ bt'.maxOrder = max bt.maxOrder p ∧
      (p ≤ bt.maxOrder → bt' = bt) ∧ e.Is (toC center) p (meCoeff (toC center) S) := by
  obtain ⟨bt', e, h1, h2, h3, h4, rfl⟩ := new_ok bt hbt center p hp
  obtain ⟨arr', h5, h6, h7, h8⟩ := meFold_ok p (toC center) S (Arr.new (p + 1)) rfl
  refine ⟨bt', ⟨p, toC center, ⟨p + 1, fun k => if 0 < k ∧ k ≤ p then arr'.val k / k else arr'.val k⟩⟩,
    ?_, h2, h3, h4, ?_⟩
  · unfold meOfSources
    rw [h1, ok_bind]
    simp only
    rw [h5, ok_bind, divByIndex_ok p arr' h6, ok_bind]
  · refine ⟨rfl, rfl, rfl, fun k hk => ?_⟩
    simp only
    unfold meCoeff
    rcases Nat.eq_zero_or_pos k with rfl | hk0
    · rw [if_neg (by omega), if_pos rfl, h7]; simp [Arr.new]
    · rw [if_pos ⟨hk0, hk⟩, if_neg (by omega), h8 k hk0 hk]; simp [Arr.new]

theorem leAddSource_ok (p : ℕ) (c : ℂ) (arr : Arr ℂ) (hs : arr.size = p + 1) (s : Source 2)
    (hne : toC s.pos - c ≠ 0) :
    leAddSource p c arr s = .ok ⟨p + 1, fun k => if k = 0 then
      arr.val 0 + s.q * Complex.log (-(toC s.pos - c)) else
      if k ≤ p then arr.val k - s.q * ((toC s.pos - c)⁻¹) ^ k else arr.val k⟩ := by
  unfold leAddSource
  simp only
  rw [if_neg hne, Arr.rd_ok _ (by omega), ok_bind, Arr.wr_ok _ (by omega), ok_bind]
  rw [loopM_rmw p 1 _ (fun i y a => a - (s.q : ℂ) * y) (fun i => (toC s.pos - c)⁻¹ ^ (i + 1)) _ (by simp) _
    (by simp only; omega) ?_]
  · simp only [ok_bind, Except.ok.injEq]
    refine Arr.ext' hs fun k => ?_
    simp only
    rcases Nat.eq_zero_or_pos k with rfl | hk
    · simp
    · rw [if_neg (by omega : ¬ k = 0), Function.update_of_ne (by omega)]
      by_cases h : k ≤ p
      · rw [if_pos h, if_pos (by omega), Nat.sub_add_cancel hk]
      · rw [if_neg h, if_neg (by omega)]
  · intro i hi c' hc'
    simp only at hc'
    rw [Arr.rd_ok _ (by simp only; omega), ok_bind, Arr.wr_ok _ (by simp only; omega), ok_bind,
      div_eq_mul_inv, ← pow_succ]

theorem leFold_ok (p : ℕ) (c : ℂ) (S : List (Source 2)) (arr : Arr ℂ) (hs : arr.size = p + 1)
    (hne : ∀ s ∈ S, toC s.pos - c ≠ 0) :
    ∃ arr', S.foldlM (leAddSource p c) arr = .ok arr' ∧ arr'.size = p + 1 ∧
      arr'.val 0 = arr.val 0 + (S.map fun s => (s.q : ℂ) * Complex.log (-(toC s.pos - c))).sum ∧
      ∀ k, 0 < k → k ≤ p →
        arr'.val k = arr.val k - (S.map fun s => (s.q : ℂ) * (toC s.pos - c)⁻¹ ^ k).sum := by
  induction S generalizing arr with
  | nil => exact ⟨arr, rfl, hs, by simp, by simp⟩
  | cons s S ih =>
    rw [List.foldlM_cons, leAddSource_ok p c arr hs s (hne s (by simp)), ok_bind]
    obtain ⟨arr', h1, h2, h3, h4⟩ := ih ⟨p + 1, fun k => if k = 0 then
      arr.val 0 + s.q * Complex.log (-(toC s.pos - c)) else
      if k ≤ p then arr.val k - s.q * ((toC s.pos - c)⁻¹) ^ k else arr.val k⟩ rfl
      fun t ht => hne t (by simp [ht])
    refine ⟨arr', h1, h2, ?_, fun k hk hkp => ?_⟩
    · rw [h3]; simp [add_assoc]
    · rw [h4 k hk hkp]; simp only [if_neg (by omega : ¬ k = 0), if_pos hkp, List.map_cons, List.sum_cons]
      ring

theorem leOfSources_ok (bt : BinomialTable) (hbt : bt.Good) (center : Vec 2) (p : ℕ) (hp : p ≤ 1029)
    (S : List (Source 2)) (hne : ∀ s ∈ S, toC s.pos ≠ toC center) :
    ∃ bt' e, leOfSources bt center p S = .ok (bt', e) ∧ bt'.Good ∧ bt'.maxOrder = max bt.maxOrder p ∧
      (p ≤ bt.maxOrder → bt' = bt) ∧ e.Is (toC center) p (leCoeff (toC center) S) := by
  obtain ⟨bt', e, h1, h2, h3, h4, rfl⟩ := new_ok bt hbt center p hp
  obtain ⟨arr', h5, h6, h7, h8⟩ := leFold_ok p (toC center) S (Arr.new (p + 1)) rfl
    fun s hs => sub_ne_zero.mpr (hne s hs)
  refine ⟨bt', ⟨p, toC center, ⟨p + 1, fun k => if 0 < k ∧ k ≤ p then arr'.val k / k else arr'.val k⟩⟩,
    ?_, h2, h3, h4, ?_⟩
  · unfold leOfSources
    rw [h1, ok_bind]
    simp only
    rw [h5, ok_bind, divByIndex_ok p arr' h6, ok_bind]
  · refine ⟨rfl, rfl, rfl, fun k hk => ?_⟩
    simp only
    unfold leCoeff
    rcases Nat.eq_zero_or_pos k with rfl | hk0
    · rw [if_neg (by omega), if_pos rfl, h7]; simp [Arr.new]
    · rw [if_pos ⟨hk0, hk⟩, if_neg (by omega), h8 k hk0 hk]; simp [Arr.new]

/-! ## Sums of expansions -/

theorem addEq_ok {e f : Exp2} {c : ℂ} {p : ℕ} {a b : ℕ → ℂ} (he : e.Is c p a) (hf : f.Is c p b) :
    ∃ g, addEq e f = .ok g ∧ g.Is c p (fun k => a k + b k) := by
  refine ⟨{ e with coeffs := ⟨e.coeffs.size, fun i =>
    if i < e.coeffs.size then e.coeffs.val i + f.coeffs.val i else e.coeffs.val i⟩ }, ?_, ?_⟩
  · unfold addEq
    rw [if_neg]
    rw [he.size, hf.size, he.center, hf.center]; simp
  · refine ⟨he.order, he.center, he.size, fun k hk => ?_⟩
    simp only
    rw [if_pos (by rw [he.size]; omega), he.val k hk, hf.val k hk]

theorem addCoeffs_ok (c other : Arr ℂ) (h : c.size ≤ other.size) :
    addCoeffs c other = .ok ⟨c.size, fun k => if k < c.size then c.val k + other.val k else c.val k⟩ := by
  unfold addCoeffs
  rw [loopM_rmw1 c.size 0 _ (fun i a => a + other.val i) _ (by omega) ?_]
  · simp
  · intro i hi c' hc'
    rw [Arr.rd_ok _ (by omega), ok_bind, Arr.rd_ok _ (by omega), ok_bind, Arr.wr_ok _ (by omega)]
    simp

/-! ## Multipole-to-multipole -/

/-- Coefficients of the shifted multipole expansion as computed. -/
noncomputable def shiftCoeff (a : ℕ → ℂ) (s : ℂ) (l : ℕ) : ℂ :=
  if l = 0 then a 0
  else -a 0 * s ^ l / l + ∑ i ∈ range l, a (i + 1) * s ^ (l - (i + 1)) * ((l - 1).choose i : ℂ)

theorem meShift_ok (bt : BinomialTable) (hbt : bt.Good) {e : Exp2} {c : ℂ} {p : ℕ} {a : ℕ → ℂ}
    (he : e.Is c p a) (ha : (a 0).im = 0) (hp : p ≤ bt.maxOrder) (s : ℂ) :
    ∃ arr, meShift bt e s = .ok arr ∧ arr.size = p + 1 ∧ ∀ l ≤ p, arr.val l = shiftCoeff a s l := by
  obtain ⟨pow, hpow, hpsz, hpv⟩ := powTable_spec s p
  have ha' : ((a 0).re : ℂ) = a 0 := Complex.ext (by simp) (by simp [ha])
  set arr0 : Arr ℂ := ⟨p + 1, Function.update (fun _ => 0) 0 (a 0)⟩ with harr0
  refine ⟨⟨arr0.size, fun k => if 1 ≤ k ∧ k < 1 + p then
    shiftCoeff a s (k - 1 + 1) else arr0.val k⟩, ?_, rfl, ?_⟩
  · unfold meShift
    rw [he.order, hpow, ok_bind, he.rd (by omega), ok_bind]
    simp only
    rw [Arr.wr_ok _ (by simp [Arr.new]), ok_bind, ha']
    refine (loopM_rmw1 p 1 _ (fun i _ => shiftCoeff a s (i + 1)) arr0 (by simp [harr0]; omega) ?_)
    intro i hi c' hc'
    have hsz : c'.size = p + 1 := hc'
    rw [Arr.rd_ok _ (by omega), ok_bind, Arr.wr_ok _ (by omega), ok_bind, hpv (i + 1) (by omega)]
    rw [loopM_cell (i + 1) (i + 1) _ (fun i' => a (i' + 1) * s ^ (i + 1 - (i' + 1)) * (i.choose i' : ℂ)) _ ?_]
    · simp only [Function.update_self, Function.update_idem]
      unfold shiftCoeff
      rw [if_neg (by omega)]
      simp
    · intro i' hi' c'' hc''
      simp only at hc''
      rw [Arr.rd_ok _ (by omega), ok_bind, he.rd (by omega), ok_bind, Arr.rd_ok _ (by omega), ok_bind,
        hpv _ (by omega), BinomialTable.get_ok hbt (by omega) (by omega) (by omega), ok_bind,
        Arr.wr_ok _ (by omega)]
      unfold binVal
      rw [if_pos (by omega)]
      simp
  · intro l hl
    simp only
    rcases Nat.eq_zero_or_pos l with rfl | h
    · simp [harr0, shiftCoeff]
    · rw [if_pos (by omega), Nat.sub_add_cancel h]

/-- The translation formula reproduces the coefficients about the new centre. -/
theorem shiftCoeff_meCoeff (c c' : ℂ) (S : List (Source 2)) (l : ℕ) :
    shiftCoeff (meCoeff c S) (c - c') l = meCoeff c' S l := by
  rcases Nat.eq_zero_or_pos l with rfl | hl
  · simp [shiftCoeff, meCoeff]
  have hlc : (l : ℂ) ≠ 0 := by exact_mod_cast (by omega : l ≠ 0)
  induction S with
  | nil => simp [shiftCoeff, meCoeff]
  | cons t S ih =>
    have hadd : shiftCoeff (meCoeff c (t :: S)) (c - c') l
        = shiftCoeff (meCoeff c [t]) (c - c') l + shiftCoeff (meCoeff c S) (c - c') l := by
      unfold shiftCoeff
      rw [if_neg (by omega), if_neg (by omega), if_neg (by omega)]
      simp only [meCoeff_cons c t S, add_mul, sum_add_distrib]
      ring
    rw [hadd, ih, meCoeff_cons c' t S, add_left_inj]
    have hl0 : l ≠ 0 := by omega
    unfold shiftCoeff meCoeff
    simp only [List.map_cons, List.map_nil, List.sum_cons, List.sum_nil, add_zero, if_true,
      Nat.add_one_ne_zero, if_false, hl0]
    set u := toC t.pos - c with hu
    have hus : toC t.pos - c' = u + (c - c') := by rw [hu]; ring
    set s := c - c'
    rw [hus, add_pow, sum_range_succ', neg_div (l : ℂ), mul_add, add_div, neg_add, add_comm]
    refine congr_arg₂ (· + ·) ?_ ?_
    · rw [mul_sum, sum_div, ← sum_neg_distrib]
      refine sum_congr rfl fun i hi => ?_
      have hi' : i < l := mem_range.mp hi
      have hch : (l : ℂ) * ((l - 1).choose i : ℂ) = (l.choose (i + 1) : ℂ) * ((i + 1 : ℕ) : ℂ) := by
        have := Nat.add_one_mul_choose_eq (l - 1) i
        rw [Nat.sub_add_cancel hl] at this
        exact_mod_cast this
      have hi1 : ((i + 1 : ℕ) : ℂ) ≠ 0 := by exact_mod_cast Nat.succ_ne_zero i
      have : ((l - 1).choose i : ℂ) = (l.choose (i + 1) : ℂ) * ((i + 1 : ℕ) : ℂ) / l := by
        field_simp; rw [mul_comm]; exact hch
      rw [this]
      field_simp
    · simp; ring

theorem meOfMes_ok (bt : BinomialTable) (hbt : bt.Good) (center : Vec 2) (p : ℕ) (hp : p ≤ 1029)
    (L : List (Exp2 × ℂ × List (Source 2))) (hne : L ≠ [])
    (hL : ∀ x ∈ L, x.1.Is x.2.1 p (meCoeff x.2.1 x.2.2)) :
    ∃ bt' e, meOfMes bt center (L.map (·.1)) = .ok (bt', e) ∧ bt'.Good ∧
      bt'.maxOrder = max bt.maxOrder p ∧ (p ≤ bt.maxOrder → bt' = bt) ∧
      e.Is (toC center) p (meCoeff (toC center) (L.flatMap (·.2.2))) := by
  obtain ⟨bt', e, h1, h2, h3, h4, rfl⟩ := new_ok bt hbt center p hp
  have hfold : ∀ (L : List (Exp2 × ℂ × List (Source 2))) (arr : Arr ℂ), arr.size = p + 1 →
      (∀ x ∈ L, x.1.Is x.2.1 p (meCoeff x.2.1 x.2.2)) →
      ∃ arr', (L.map (·.1)).foldlM (fun c me => do
        let sh ← meShift bt' me (me.center - toC center)
        addCoeffs c sh) arr = .ok arr' ∧ arr'.size = p + 1 ∧
        ∀ k ≤ p, arr'.val k = arr.val k + meCoeff (toC center) (L.flatMap (·.2.2)) k := by
    intro L
    induction L with
    | nil => intro arr ha _; exact ⟨arr, rfl, ha, fun k _ => by simp [meCoeff_nil]⟩
    | cons x L ih =>
      intro arr ha hx
      have hx0 := hx x (by simp)
      obtain ⟨sh, hs1, hs2, hs3⟩ := meShift_ok bt' h2 hx0 (meCoeff_zero_im _ _)
        (by omega) (x.1.center - toC center)
      obtain ⟨arr', ha1, ha2, ha3⟩ := ih ⟨arr.size, fun k => if k < arr.size then arr.val k + sh.val k
        else arr.val k⟩ ha fun y hy => hx y (by simp [hy])
      refine ⟨arr', ?_, ha2, fun k hk => ?_⟩
      · rw [List.map_cons, List.foldlM_cons, hs1, ok_bind, addCoeffs_ok _ _ (by omega), ok_bind, ha1]
      · rw [ha3 k hk, List.flatMap_cons, meCoeff_append]
        simp only
        rw [if_pos (by omega), hs3 k hk, hx0.center, shiftCoeff_meCoeff, add_assoc]
  obtain ⟨arr', ha1, ha2, ha3⟩ := hfold L (Arr.new (p + 1)) rfl hL
  refine ⟨bt', ⟨p, toC center, arr'⟩, ?_, h2, h3, h4, rfl, rfl, ha2, fun k hk => ?_⟩
  · cases L with
    | nil => exact absurd rfl hne
    | cons x L =>
      rw [List.map_cons] at ha1 ⊢
      unfold meOfMes
      simp only
      rw [(hL x (by simp)).order, h1, ok_bind]
      simp only
      rw [ha1, ok_bind]
  · rw [ha3 k hk]; simp [Arr.new]

/-! ## Evaluation -/

/-- Field `-∇ Re F` for `F' = f`. -/
def fieldOf (f : ℂ) : Vec 2 := ![-f.re, f.im]

theorem mePot_ok {e : Exp2} {c : ℂ} {p : ℕ} {a : ℕ → ℂ} (he : e.Is c p a) (ha : (a 0).im = 0) (x : Vec 2)
    (hx : toC x ≠ c) :
    mePot e x = .ok (a 0 * Complex.log (toC x - c)
      + ∑ i ∈ range p, a (i + 1) * ((toC x - c)⁻¹) ^ (i + 1)).re := by
  have ha' : ((a 0).re : ℂ) = a 0 := Complex.ext (by simp) (by simp [ha])
  unfold mePot
  simp only
  rw [he.rd (by omega), ok_bind, he.center, if_neg (sub_ne_zero.mpr hx), he.size, ha']
  rw [loopM_acc_pow _ _ (fun i => a (i + 1)) (toC x - c)⁻¹]
  · rw [ok_bind]
    simp only [Nat.add_sub_cancel, one_div, pow_succ']
  · intro i hi b
    rw [he.rd (by omega), ok_bind, div_eq_mul_inv]

theorem meForce_ok {e : Exp2} {c : ℂ} {p : ℕ} {a : ℕ → ℂ} (he : e.Is c p a) (ha : (a 0).im = 0) (x : Vec 2)
    (hx : toC x ≠ c) :
    meForce e x = .ok (fieldOf (a 0 / (toC x - c)
      - ∑ i ∈ range p, ((i + 1 : ℕ) : ℂ) * a (i + 1) * ((toC x - c)⁻¹) ^ (i + 2))) := by
  have ha' : ((a 0).re : ℂ) = a 0 := Complex.ext (by simp) (by simp [ha])
  unfold meForce
  simp only
  rw [he.rd (by omega), ok_bind, he.center, if_neg (sub_ne_zero.mpr hx), he.size, ha']
  rw [loopM_acc_pow _ _ (fun i => -(((i + 1 : ℕ) : ℂ) * a (i + 1))) (toC x - c)⁻¹]
  · rw [ok_bind]
    simp only
    have : a 0 / (toC x - c) + ∑ i ∈ range (p + 1 - 1), -(((i + 1 : ℕ) : ℂ) * a (i + 1)) *
        (1 / ((toC x - c) * (toC x - c)) * (toC x - c)⁻¹ ^ i)
        = a 0 / (toC x - c) - ∑ i ∈ range p, ((i + 1 : ℕ) : ℂ) * a (i + 1) * ((toC x - c)⁻¹) ^ (i + 2) := by
      rw [sub_eq_add_neg (a 0 / _), ← sum_neg_distrib, Nat.add_sub_cancel]
      congr 1
      refine sum_congr rfl fun i _ => ?_
      rw [one_div, mul_inv]; ring
    rw [this]; rfl
  · intro i hi b
    rw [he.rd (by omega), ok_bind, div_eq_mul_inv]
    congr 2; ring

theorem lePot_ok {e : Exp2} {c : ℂ} {p : ℕ} {a : ℕ → ℂ} (he : e.Is c p a) (x : Vec 2) :
    lePot e x = .ok (∑ k ∈ range (p + 1), a k * (toC x - c) ^ k).re := by
  unfold lePot
  simp only
  rw [he.center, he.size, loopM_acc_pow _ _ a (toC x - c)]
  · rw [ok_bind]; simp
  · intro i hi b
    rw [he.rd (by omega), ok_bind]

theorem leForce_ok {e : Exp2} {c : ℂ} {p : ℕ} {a : ℕ → ℂ} (he : e.Is c p a) (x : Vec 2) :
    leForce e x = .ok (fieldOf (∑ i ∈ range p, ((i + 1 : ℕ) : ℂ) * a (i + 1) * (toC x - c) ^ i)) := by
  unfold leForce
  simp only
  rw [he.center, he.size, loopM_acc_pow _ _ (fun i => ((i + 1 : ℕ) : ℂ) * a (i + 1)) (toC x - c)]
  · rw [ok_bind]; simp [fieldOf]
  · intro i hi b
    rw [he.rd (by omega), ok_bind]

/-! ## Multipole-to-local -/

/-- Coefficients computed by the conversion when the binomial table has maximal order `M`. -/
noncomputable def m2lCoeff (M p : ℕ) (a : ℕ → ℂ) (z0 : ℂ) (l : ℕ) : ℂ :=
  if l = 0 then a 0 * Complex.log (-z0) + ∑ i ∈ range p, (-1) ^ (i + 1) * a (i + 1) * (z0⁻¹) ^ (i + 1)
  else (-a 0 / l + ∑ i ∈ range (p - 1), (-1) ^ (i + 1) * a (i + 1) * (z0⁻¹) ^ (i + 1)
    * (binVal M (l + i) i : ℂ)) * (z0⁻¹) ^ l

theorem altSign_eq (k : ℕ) : ((altSign k : ℝ) : ℂ) = (-1) ^ k := by
  unfold altSign
  rcases Nat.even_or_odd k with h | h
  · rw [if_pos (Nat.even_iff.mp h), h.neg_one_pow]; simp
  · rw [if_neg (by rw [Nat.odd_iff.mp h]; simp), h.neg_one_pow]; simp

theorem m2l_ok (bt : BinomialTable) (hbt : bt.Good) {e : Exp2} {c : ℂ} {p : ℕ} {a : ℕ → ℂ}
    (he : e.Is c p a) (hp : p ≤ bt.maxOrder) (c' : ℂ) (hc : c ≠ c') :
    ∃ arr, m2l bt p c' e = .ok arr ∧ arr.size = p + 1 ∧
      ∀ l ≤ p, arr.val l = m2lCoeff bt.maxOrder p a (c - c') l := by
  set z0 := c - c' with hz0
  have hz : z0 ≠ 0 := sub_ne_zero.mpr hc
  obtain ⟨inv, hinv, hisz, hiv⟩ := powTable_spec (1 / z0) p
  set arr0 : Arr ℂ := ⟨p + 1, Function.update (fun _ => 0) 0 (m2lCoeff bt.maxOrder p a z0 0)⟩ with harr0
  refine ⟨⟨arr0.size, fun k => if 1 ≤ k ∧ k < 1 + p then
    m2lCoeff bt.maxOrder p a z0 (k - 1 + 1) else arr0.val k⟩, ?_, rfl, ?_⟩
  · unfold m2l
    simp only
    rw [he.center, ← hz0, if_neg hz, hinv, ok_bind, he.rd (by omega), ok_bind]
    rw [loopM_acc _ _ (fun i => (-1) ^ (i + 1) * a (i + 1) * (z0⁻¹) ^ (i + 1)), ok_bind]
    rotate_left
    · intro i hi b
      rw [he.rd (by omega), ok_bind, Arr.rd_ok _ (by omega), ok_bind, hiv _ (by omega), altSign_eq, one_div]
    rw [Arr.wr_ok _ (by simp [Arr.new]), ok_bind]
    have : a 0 * Complex.log (-z0) + ∑ i ∈ range p, (-1) ^ (i + 1) * a (i + 1) * (z0⁻¹) ^ (i + 1)
        = m2lCoeff bt.maxOrder p a z0 0 := by unfold m2lCoeff; rw [if_pos rfl]
    rw [this]
    refine loopM_rmw1 p 1 _ (fun i _ => m2lCoeff bt.maxOrder p a z0 (i + 1)) arr0 (by simp [harr0]; omega) ?_
    intro i hi c'' hc''
    have hsz : c''.size = p + 1 := hc''
    rw [loopM_acc _ _ (fun i' => (-1) ^ (i' + 1) * a (i' + 1) * (z0⁻¹) ^ (i' + 1)
      * (binVal bt.maxOrder (i + 1 + i') i' : ℂ)), ok_bind, Arr.rd_ok _ (by omega), ok_bind,
      Arr.wr_ok _ (by omega), hiv _ (by omega)]
    · unfold m2lCoeff
      rw [if_neg (by omega), one_div]
    · intro i' hi' b
      rw [he.rd (by omega), ok_bind, Arr.rd_ok _ (by omega), ok_bind,
        BinomialTable.get_ok hbt (by omega) (by omega) (by omega), ok_bind, hiv _ (by omega), altSign_eq,
        one_div]
      have e1 : i + 1 + (i' + 1) - 1 = i + 1 + i' := by omega
      rw [e1]
      simp
  · intro l hl
    simp only
    rcases Nat.eq_zero_or_pos l with rfl | h
    · simp [harr0]
    · rw [if_pos (by omega), Nat.sub_add_cancel h]

theorem leOfMe_ok (bt : BinomialTable) (hbt : bt.Good) {e : Exp2} {c : ℂ} {p : ℕ} {a : ℕ → ℂ}
    (he : e.Is c p a) (hp : p ≤ 1029) (hp0 : 0 < p) (center : Vec 2) (hc : c ≠ toC center) :
    ∃ bt' f, leOfMe bt center e = .ok (bt', f) ∧ bt'.Good ∧ bt'.maxOrder = max bt.maxOrder p ∧
      (p ≤ bt.maxOrder → bt' = bt) ∧
      f.Is (toC center) p (m2lCoeff bt'.maxOrder p a (c - toC center)) := by
  obtain ⟨bt', f, h1, h2, h3, h4, rfl⟩ := new_ok bt hbt center p hp
  obtain ⟨arr, h5, h6, h7⟩ := m2l_ok bt' h2 he (by omega) (toC center) hc
  refine ⟨bt', ⟨p, toC center, arr⟩, ?_, h2, h3, h4, rfl, rfl, h6, h7⟩
  unfold leOfMe
  rw [he.order, h1, ok_bind]
  simp only
  rw [if_pos hp0, h5, ok_bind]

theorem leOfMe_order0 (bt : BinomialTable) (hbt : bt.Good) (e : Exp2) (he : e.order = 0) (center : Vec 2) :
    leOfMe bt center e = .error .assertFail := by
  obtain ⟨bt', f, h1, -⟩ := new_ok bt hbt center 0 (by omega)
  unfold leOfMe
  rw [he, h1, ok_bind]
  simp

theorem leOfMes_ok (bt : BinomialTable) (hbt : bt.Good) (center : Vec 2) (p : ℕ) (hp : p ≤ 1029) (hp0 : 0 < p)
    (L : List (Exp2 × ℂ × (ℕ → ℂ))) (hne : L ≠ [])
    (hL : ∀ x ∈ L, x.1.Is x.2.1 p x.2.2 ∧ x.2.1 ≠ toC center) :
    ∃ bt' e, leOfMes bt center (L.map (·.1)) = .ok (bt', e) ∧ bt'.Good ∧
      bt'.maxOrder = max bt.maxOrder p ∧ (p ≤ bt.maxOrder → bt' = bt) ∧
      e.Is (toC center) p (fun k =>
        (L.map fun x => m2lCoeff bt'.maxOrder p x.2.2 (x.2.1 - toC center) k).sum) := by
  obtain ⟨bt', e, h1, h2, h3, h4, rfl⟩ := new_ok bt hbt center p hp
  have hfold : ∀ (L : List (Exp2 × ℂ × (ℕ → ℂ))) (e : Exp2) (a : ℕ → ℂ), e.Is (toC center) p a →
      (∀ x ∈ L, x.1.Is x.2.1 p x.2.2 ∧ x.2.1 ≠ toC center) →
      ∃ e', (L.map (·.1)).foldlM (fun (s : BinomialTable × Exp2) me => do
        let (bt, le) ← leOfMe s.1 center me
        let e ← addEq s.2 le
        .ok (bt, e)) (bt', e) = .ok (bt', e') ∧ e'.Is (toC center) p (fun k => a k +
          (L.map fun x => m2lCoeff bt'.maxOrder p x.2.2 (x.2.1 - toC center) k).sum) := by
    intro L
    induction L with
    | nil => intro e a he _; exact ⟨e, rfl, he.congr fun k _ => by simp⟩
    | cons x L ih =>
      intro e a he hx
      obtain ⟨hx0, hx1⟩ := hx x (by simp)
      obtain ⟨bt2, le, hl1, hl2, hl3, hl4, hl5⟩ := leOfMe_ok bt' h2 hx0 hp hp0 center hx1
      obtain rfl := hl4 (by omega)
      obtain ⟨g, hg1, hg2⟩ := addEq_ok he hl5
      obtain ⟨e', he1, he2⟩ := ih g _ hg2 fun y hy => hx y (by simp [hy])
      refine ⟨e', ?_, he2.congr fun k _ => ?_⟩
      · rw [List.map_cons, List.foldlM_cons, hl1, ok_bind]
        simp only
        rw [hg1, ok_bind, ok_bind, he1]
      · simp [add_assoc]
  obtain ⟨e', he1, he2⟩ := hfold L ⟨p, toC center, Arr.new (p + 1)⟩ (fun _ => 0)
    ⟨rfl, rfl, rfl, fun k _ => rfl⟩ hL
  refine ⟨bt', e', ?_, h2, h3, h4, he2.congr fun k _ => by simp⟩
  cases L with
  | nil => exact absurd rfl hne
  | cons x L =>
    rw [List.map_cons] at he1 ⊢
    unfold leOfMes
    simp only
    rw [(hL x (by simp)).1.order, h1, ok_bind]
    exact he1

/-! ## Local-to-local -/

theorem leShift_inner (p j : ℕ) (s : ℂ) (c : Arr ℂ) (hs : c.size = p + 1) (hj : j < p) :
    loopM (j + 1) (fun i (c : Arr ℂ) => (do
      let k := p - j - 1 + i
      let a ← c.rd k
      let b ← c.rd (k + 1)
      c.wr k (a - s * b) : Outcome (Arr ℂ))) c
    = .ok ⟨p + 1, fun k => if p - j - 1 ≤ k ∧ k < p then c.val k - s * c.val (k + 1) else c.val k⟩ := by
  have key : ∀ n ≤ j + 1, loopM n (fun i (c : Arr ℂ) => (do
      let k := p - j - 1 + i
      let a ← c.rd k
      let b ← c.rd (k + 1)
      c.wr k (a - s * b) : Outcome (Arr ℂ))) c
      = .ok ⟨p + 1, fun k => if p - j - 1 ≤ k ∧ k < p - j - 1 + n then c.val k - s * c.val (k + 1)
        else c.val k⟩ := by
    intro n
    induction n with
    | zero =>
      intro _
      rw [loopM_zero]; congr 1
      refine Arr.ext' hs fun k => ?_
      simp only
      rw [if_neg (by omega)]
    | succ n ih =>
      intro hn
      rw [loopM_succ, ih (by omega), ok_bind']
      simp only
      rw [Arr.rd_ok _ (by simp only; omega), ok_bind, Arr.rd_ok _ (by simp only; omega), ok_bind,
        Arr.wr_ok _ (by simp only; omega)]
      congr 1
      refine Arr.ext' (by rfl) fun k => ?_
      simp only
      rcases eq_or_ne k (p - j - 1 + n) with rfl | hk
      · rw [Function.update_self, if_neg (by omega), if_neg (by omega), if_pos (by omega)]
      · rw [Function.update_of_ne hk]
        by_cases h1 : p - j - 1 ≤ k ∧ k < p - j - 1 + n
        · rw [if_pos h1, if_pos (by omega)]
        · rw [if_neg h1, if_neg (by omega)]
  rw [key (j + 1) le_rfl]
  have : p - j - 1 + (j + 1) = p := by omega
  rw [this]

theorem leShift_ok {e : Exp2} {c : ℂ} {p : ℕ} {a : ℕ → ℂ} (he : e.Is c p a) (s : ℂ) :
    ∃ arr, leShift e s = .ok arr ∧ arr.size = p + 1 ∧
      ∀ w, ∑ k ∈ range (p + 1), arr.val k * w ^ k = ∑ k ∈ range (p + 1), a k * (w - s) ^ k := by
  unfold leShift
  rw [he.order]
  obtain ⟨arr, h1, h2, h3⟩ := loopM_invariant (fun j (c : Arr ℂ) => c.size = p + 1 ∧
      ∀ w, ∑ k ∈ range (p - j), c.val k * (w - s) ^ k
        + (w - s) ^ (p - j) * ∑ i ∈ range (j + 1), c.val (p - j + i) * w ^ i
        = ∑ k ∈ range (p + 1), a k * (w - s) ^ k)
    (fun j c => loopM (j + 1) (fun i (c : Arr ℂ) => (do
      let k := p - j - 1 + i
      let a ← c.rd k
      let b ← c.rd (k + 1)
      c.wr k (a - s * b) : Outcome (Arr ℂ))) c) e.coeffs p
    ⟨he.size, fun w => by
      simp only [Nat.sub_zero, zero_add, range_one, sum_singleton, add_zero, pow_zero, mul_one]
      rw [sum_range_succ, he.val p le_rfl, mul_comm (a p)]
      congr 1
      exact sum_congr rfl fun k hk => by rw [he.val k (by have := mem_range.mp hk; omega)]⟩
    (by
      rintro j hj t ⟨ht1, ht2⟩
      refine ⟨_, leShift_inner p j s t ht1 hj, rfl, fun w => ?_⟩
      rw [← ht2 w]
      simp only
      obtain ⟨m, hm⟩ : ∃ m, p - j = m + 1 := ⟨p - j - 1, by omega⟩
      have hm' : p - (j + 1) = m := by omega
      have hm'' : p - j - 1 = m := by omega
      simp only [hm', hm]
      rw [sum_range_succ (fun k => t.val k * (w - s) ^ k) m, pow_succ (w - s) m, mul_assoc,
        add_assoc (∑ k ∈ range m, t.val k * (w - s) ^ k)]
      refine congr_arg₂ (· + ·) ?_ ?_
      · refine Finset.sum_congr rfl fun k hk => ?_
        rw [if_neg (by have := mem_range.mp hk; omega)]
      · rw [mul_comm (t.val m), ← mul_add]
        refine congr_arg₂ (· * ·) rfl ?_
        rw [sum_range_succ _ (j + 1), if_neg (by omega)]
        rw [sum_congr rfl (g := fun i => t.val (m + i) * w ^ i - s * (t.val (m + 1 + i) * w ^ i))
          (fun i hi => by
            rw [if_pos (by have := mem_range.mp hi; omega)]
            have : m + i + 1 = m + 1 + i := by ring
            rw [this]; ring)]
        rw [sum_sub_distrib, ← mul_sum, sum_range_succ' (fun i => t.val (m + i) * w ^ i) j, sub_mul, Finset.mul_sum _ _ w]
        rw [sum_range_succ (fun i => w * (t.val (m + 1 + i) * w ^ i)) j]
        have e1 : ∑ i ∈ range j, t.val (m + (i + 1)) * w ^ (i + 1)
            = ∑ i ∈ range j, w * (t.val (m + 1 + i) * w ^ i) :=
          sum_congr rfl fun i _ => by
            have : m + (i + 1) = m + 1 + i := by ring
            rw [this]; ring
        have e2 : m + (j + 1) = m + 1 + j := by ring
        rw [e1, e2]
        simp only [add_zero, pow_zero, mul_one]
        ring)
  refine ⟨arr, h1, h2, fun w => ?_⟩
  rw [← h3 w]
  simp

theorem leOfLe_ok (bt : BinomialTable) (hbt : bt.Good) {e : Exp2} {c : ℂ} {p : ℕ} {a : ℕ → ℂ}
    (he : e.Is c p a) (hp : p ≤ 1029) (hp0 : 0 < p) (center : Vec 2) :
    ∃ bt' f b, leOfLe bt center e = .ok (bt', f) ∧ bt'.Good ∧ bt'.maxOrder = max bt.maxOrder p ∧
      (p ≤ bt.maxOrder → bt' = bt) ∧ f.Is (toC center) p b ∧
      ∀ z, ∑ k ∈ range (p + 1), b k * (z - toC center) ^ k = ∑ k ∈ range (p + 1), a k * (z - c) ^ k := by
  obtain ⟨bt', f, h1, h2, h3, h4, rfl⟩ := new_ok bt hbt center p hp
  obtain ⟨arr, h5, h6, h7⟩ := leShift_ok he (c - toC center)
  refine ⟨bt', ⟨p, toC center, arr⟩, arr.val, ?_, h2, h3, h4, ⟨rfl, rfl, h6, fun _ _ => rfl⟩, fun z => ?_⟩
  · unfold leOfLe
    rw [he.order, h1, ok_bind]
    simp only
    rw [if_pos hp0, he.center, h5, ok_bind]
  · rw [h7]; congr 1; funext k; congr 2; ring

theorem leOfLe_order0 (bt : BinomialTable) (hbt : bt.Good) (e : Exp2) (he : e.order = 0) (center : Vec 2) :
    leOfLe bt center e = .error .assertFail := by
  obtain ⟨bt', f, h1, -⟩ := new_ok bt hbt center 0 (by omega)
  unfold leOfLe
  rw [he, h1, ok_bind]
  simp

end Exp2
end FMM
