import Verif.HighCalc3

/-!
# The operations on the expansions in space do not overflow

Bounds for the coefficients of all operations of `DoubleExp3.lean`.  `K` is the exponent of the radius of a box, `T` a bound for `|K| + 1`;
coefficients of multipole expansions are below `2^(a + K n)`, coefficients of local expansions below `2^(a + (1 - K) n)`.
-/

namespace FMM.Hi3
open FMM D64 Rounded

/-- The tables: `A_n^m`, their reciprocals and quotients. -/
structure AlmOk (L : Lib) (p G : ℕ) : Prop where
  up : ∀ (n : ℕ) (m : ℤ), n ≤ 2 * p → |m| ≤ n → N 1 1 (L.alm n m)
  lo : ∀ (n : ℕ) (m : ℤ), n ≤ p → |m| ≤ n → ∃ y, L.alm n m = .fin y ∧ y ≠ 0 ∧ |y|⁻¹ ≤ 2 ^ (G : ℤ)
  quot : ∀ (s : ℝ) (n j : ℕ) (m k : ℤ), |s| = 1 → n ≤ p → j ≤ p → |m| ≤ n → |k| ≤ j →
    N 1 (G + 1) (div (mul (.fin s) (L.alm n m)) (L.alm (j + n) (m - k)))
  s1 : ∀ k m, ∃ s : ℝ, |s| = 1 ∧ L.sign1 k m = .fin s
  s2 : ∀ k m, ∃ s : ℝ, |s| = 1 ∧ L.sign2 k m = .fin s
  s3 : ∀ k m, ∃ s : ℝ, |s| = 1 ∧ L.sign3 k m = .fin s

/-- The harmonics in the direction `d`. -/
def YOk (L : Lib) (lmax : ℕ) (d : DVec 3) : Prop := ∀ (n : ℕ) (m : ℤ), n ≤ lmax → |m| ≤ n → NC 1 1 (L.ylm lmax (L.ang d) n m)

/-- Bounds for the coefficients of an expansion. -/
def CB (p k : ℕ) (b : ℕ → ℤ) (e : Coeffs) : Prop := ∀ n ≤ p, ∀ m : ℤ, |m| ≤ n → NC k (b n) (e n m)

variable {L : Lib} {p G : ℕ} {K T a B : ℤ} {v : DVec 3} {e : Coeffs}

theorem kb {K T : ℤ} {n p : ℕ} (h : |K| ≤ T) (hn : n ≤ p) : -(T * p) ≤ K * n ∧ K * n ≤ T * p := by
  rw [← abs_le, abs_mul, Nat.abs_cast]
  exact mul_le_mul h (by exact_mod_cast hn) (by positivity) ((abs_nonneg K).trans h)

theorem up_T (h : |K| + 1 ≤ T) : |K + 1| ≤ T := (abs_add_le _ _).trans (by rw [abs_one]; exact h)
theorem dn_T (h : |K| + 1 ≤ T) : |1 - K| ≤ T := (abs_sub _ _).trans (by rw [abs_one]; omega)

theorem CB.mono {k k' : ℕ} {b b' : ℕ → ℤ} (h : CB p k b e) (hk : k ≤ k') (hb : ∀ n ≤ p, b n ≤ b' n) : CB p k' b' e :=
  fun n hn m hm => (h n hn m hm).mono hk (hb n hn)

theorem CB.add {k k' : ℕ} {e' : Coeffs} (h : CB p k (fun _ => B) e) (h' : CB p k' (fun _ => B) e') (hk : k + k' ≤ 2 ^ 50) (h0 : -1000 ≤ B) (hB : B ≤ 950) :
    CB p (k + k') (fun _ => B) fun n m => cadd (e n m) (e' n m) :=
  fun n hn m hm => (h n hn m hm).add (h' n hn m hm) hk h0 hB

/-- Sums of expansions. -/
theorem CB.foldl {ι : Type} (l : List ι) (t : ι → Coeffs) (k : ℕ) (h : ∀ i ∈ l, CB p 1 (fun _ => B) (t i)) {e : Coeffs} (h0 : CB p k (fun _ => B) e)
    (hk : k + l.length ≤ 2 ^ 50) (hl : -1000 ≤ B) (hB : B ≤ 950) :
    CB p (k + l.length) (fun _ => B) (l.foldl (fun c i => fun n m => cadd (c n m) (t i n m)) e) := by
  induction l generalizing k e with
  | nil => exact h0
  | cons i l ih =>
    rw [List.length_cons] at hk
    have := ih (k + 1) (fun i hi => h i (by simp [hi])) (h0.add (h i (by simp)) (by omega) hl hB) (by omega)
    rw [List.foldl_cons, List.length_cons, show k + (l.length + 1) = k + 1 + l.length by ring]
    exact this

theorem cb_zero {b : ℕ → ℤ} {k : ℕ} : CB p k b fun _ _ => czero := fun _ _ _ _ => .zero

theorem N.sign {s : ℝ} (h : |s| = 1) : N 1 0 (.fin s) := .fin (by rw [h]; simp)

theorem parity_N (n : ℕ) : N 1 0 (parity n) := by
  unfold parity
  refine N.sign ?_
  by_cases h : n % 2 = 0
  · rw [if_pos h, abs_one]
  · rw [if_neg h, abs_neg, abs_one]

/-! ## Sources -/

section
variable {c : Vec 3} {S : List (Source 3)} {α : ℤ}

theorem p2m_fin (hT : |K| + 1 ≤ T) (h0 : 0 ≤ α) (hTp : T * p ≤ 900) (hB : α + T * p + 1 ≤ B) (hB' : B ≤ 950) (hS : S.length ≤ 2 ^ 48)
    (h : ∀ s ∈ S, |s.q| ≤ 2 ^ α ∧ N 1 (K + 1) (norm3 (vsub s.pos c)) ∧ YOk L p (vsub s.pos c)) :
    CB p S.length (fun _ => B) (p2m L p c S) := by
  have key := CB.foldl (p := p) (B := B) S (fun s n m => rsc (mul (.fin s.q) (pows (norm3 (vsub s.pos c)) n)) (L.ylm p (L.ang (vsub s.pos c)) n (-m))) 0
    (fun s hs n hn m hm => by
      obtain ⟨h1, h2, h3⟩ := h s hs
      obtain ⟨k1, k2⟩ := kb (up_T hT) hn
      have q := (N.fin h1).mul1 (pows_N h2 n (by linarith) (by linarith)) (c := α + T * p) (by norm_num) (by linarith) (by linarith) (by linarith)
      exact NC.rsc q (h3 n (-m) hn (by rwa [abs_neg])) (by norm_num) hB (by linarith) hB')
    cb_zero (by omega) (by have := (kb (up_T hT) (Nat.zero_le p)); simp at this; linarith) hB'
  rwa [zero_add] at key

theorem p2l_fin (hT : |K| + 1 ≤ T) (h0 : 0 ≤ α) (hTp : T * (p + 1) ≤ 900) (hB : α + T * (p + 1) + 1 ≤ B) (hB' : B ≤ 950) (hS : S.length ≤ 2 ^ 48)
    (h : ∀ s ∈ S, |s.q| ≤ 2 ^ α ∧ (∃ y, norm3 (vsub s.pos c) = .fin y ∧ y ≠ 0 ∧ |y|⁻¹ ≤ 2 ^ (1 - K)) ∧ YOk L p (vsub s.pos c)) :
    CB p S.length (fun _ => B) (p2l L p c S) := by
  have hT0 : 0 ≤ T * (p + 1) := by
    have := abs_nonneg K
    have : 0 ≤ T := by linarith
    positivity
  have key := CB.foldl (p := p) (B := B) S (fun s n m => rsc (mul (.fin s.q) (ipows (div (.fin 1) (norm3 (vsub s.pos c))) (norm3 (vsub s.pos c)) n))
    (L.ylm p (L.ang (vsub s.pos c)) n (-m))) 0
    (fun s hs n hn m hm => by
      obtain ⟨h1, ⟨y, h2, h4, h5⟩, h3⟩ := h s hs
      obtain ⟨k1, k2⟩ := kb (dn_T hT) (Nat.succ_le_succ hn)
      push_cast at k1 k2
      have k3 := kb (dn_T hT) (n := 1) (p := p + 1) (by omega)
      push_cast at k3
      rw [h2]
      have f : N 1 (1 - K) (div (.fin 1) (.fin y)) :=
        (N.fin (b := 0) (by simp)).div h4 h5 (by norm_num) (by linarith) (by linarith) (by linarith)
      have q := (N.fin h1).mul1 (ipows_N f h4 h5 n (by linarith) (by linarith)) (c := α + T * (p + 1)) (by norm_num) (by linarith) (by linarith) (by linarith)
      exact NC.rsc q (h3 n (-m) hn (by rwa [abs_neg])) (by norm_num) hB (by linarith) hB')
    cb_zero (by omega) (by linarith) hB'
  rwa [zero_add] at key

end

/-! ## Translations -/

section
variable (hA : AlmOk L p G) (hp : p ≤ 42) (hT : |K| + 1 ≤ T) (h0 : 0 ≤ a)
include hA hp hT h0

theorem meShift_fin (he : CB p 1 (fun n => a + K * n) e) (hr : N 1 (K + 1) (norm3 v)) (hY : YOk L p v) (hTp : T * p ≤ 900)
    (hB : a + T * p + G + 17 ≤ B) (hB' : B ≤ 950) : CB p 1 (fun _ => B) (meShift L p e v) := by
  have hK : |K| ≤ T := by linarith
  have hTp0 : 0 ≤ T * p := by have := kb hK (Nat.zero_le p); simp at this; exact this
  intro j hj k hk
  rw [abs_le] at hk
  obtain ⟨y, hy, hy0, hy1⟩ := hA.lo j k hj (abs_le.mpr hk)
  unfold meShift
  dsimp only
  rw [hy]
  refine NC.cdr (a := a + T * p + 17) ?_ hy0 hy1 (by norm_num) (by linarith) (by linarith) hB'
  refine NC.lift (m := 4096) (b := a + T * p + 5) ?_ 12 (by norm_num) (by push_cast; linarith)
  refine NC.sum (k := 85) _ _ (fun n hn => ?_) (by rw [List.length_range]; omega) (by norm_num) (by linarith) (by linarith)
  have hn : n ≤ j := by have := List.mem_range.mp hn; omega
  obtain ⟨k1, k2⟩ := kb (up_T hT) (hn.trans hj)
  obtain ⟨k3, k4⟩ := kb hK (n := j - n) (p := p) (by omega)
  have k5 := kb (up_T hT) hj
  have e1 : ((j - n : ℕ) : ℤ) = j - n := by omega
  have hnj : (n : ℤ) ≤ j := by exact_mod_cast hn
  refine NC.rsc (b := a + K * (j - n : ℕ) + 5) (pows_N hr n (by linarith) (by linarith)) ?_ (by norm_num) (by rw [e1]; linarith [k5.2]) (by linarith)
    (by linarith)
  refine NC.sum (k := 1) _ _ (fun m hm => ?_) (by rw [zrange_length]; omega) (by norm_num) (by linarith) (by linarith)
  have hm := mem_zrange hm
  obtain ⟨s, s1, s2⟩ := hA.s1 k m
  rw [s2]
  have c1 := (N.sign s1).mul1 (hA.up n m (by omega) (by rw [abs_le]; omega)) (c := 1) (by norm_num) (by norm_num) (by norm_num) (by norm_num)
  have c2 := c1.mul1 (hA.up (j - n) (k - m) (by omega) (by rw [abs_le, e1]; omega)) (c := 2) (by norm_num) (by norm_num) (by norm_num) (by norm_num)
  have c3 := NC.mul (he (j - n) (by omega) (k - m) (by rw [abs_le, e1]; omega)) (hY n (-m) (by omega) (by rw [abs_neg, abs_le]; omega))
    (c := a + K * (j - n : ℕ) + 2) (by linarith) (by linarith) (by linarith)
  exact NC.rsc c2 c3 (by norm_num) (by linarith) (by linarith) (by linarith)

theorem m2l_fin {c d : Vec 3} (he : CB p 1 (fun n => a + K * n) e) (hr : N 1 (1 - K) (div (.fin 1) (norm3 (vsub d c))))
    (hY : YOk L (2 * p) (vsub d c)) (hTp : T * (2 * p + 1) ≤ 900) (hB : a + T * (p + 1) + p + G + 16 ≤ B) (hB' : B ≤ 950) :
    CB p 1 (fun _ => B) (m2l L p c (d, e)) := by
  have hK : |K| ≤ T := by linarith
  have hT0 : 0 ≤ T := (abs_nonneg K).trans hK
  have hTp0 : 0 ≤ T * p := by positivity
  have hG : (0 : ℤ) ≤ G := by positivity
  have hp0 : (0 : ℤ) ≤ p := by positivity
  intro j hj k hk
  rw [abs_le] at hk
  unfold m2l
  dsimp only
  refine NC.rsc (b := a + T * (p + 1) + p + G + 15) (hA.up j k (by omega) (by rw [abs_le]; omega)) ?_ (by norm_num) (by linarith) (by linarith) hB'
  refine NC.lift (m := 4096) (b := a + T * (p + 1) + p + G + 3) ?_ 12 (by norm_num) (by push_cast; linarith)
  refine NC.sum (k := 85) _ _ (fun n hn => ?_) (by rw [List.length_range]; omega) (by norm_num) (by linarith) (by linarith)
  have hn : n ≤ p := by have := List.mem_range.mp hn; omega
  obtain ⟨k1, k2⟩ := kb (dn_T hT) (n := j + n + 1) (p := 2 * p + 1) (by omega)
  obtain ⟨k3, k4⟩ := kb hK hn
  obtain ⟨k5, k6⟩ := kb (dn_T hT) (n := j + 1) (p := p + 1) (by omega)
  have hnp : (n : ℤ) ≤ p := by exact_mod_cast hn
  push_cast at k1 k2 k5 k6
  have hw := pows_N hr (j + n + 1) (by push_cast; linarith) (by push_cast; linarith)
  have hw' := (parity_N n).mul1 hw (c := (1 - K) * (j + n + 1 : ℕ)) (by norm_num) (by linarith) (by push_cast; linarith) (by push_cast; linarith)
  refine NC.rsc (b := a + K * n + G + 3) hw' ?_ (by norm_num) (by push_cast; linarith) (by linarith) (by linarith)
  refine NC.sum (k := 1) _ _ (fun m hm => ?_) (by rw [zrange_length]; omega) (by norm_num) (by linarith) (by linarith)
  have hm := mem_zrange hm
  have hm' : |m| ≤ n := abs_le.mpr hm
  obtain ⟨s, s1, s2⟩ := hA.s2 k m
  rw [s2]
  have c1 := hA.quot s n j m k s1 hn hj hm' (abs_le.mpr hk)
  have c3 := NC.mul (he n hn m hm') (hY (j + n) (m - k) (by omega) (by rw [abs_le]; push_cast; omega)) (c := a + K * n + 2) (by linarith) (by linarith) (by linarith)
  exact NC.rsc c1 c3 (by norm_num) (by linarith) (by linarith) (by linarith)

theorem leShift_fin (he : CB p 1 (fun n => a + (1 - K) * n) e) (hr : N 1 (K + 1) (norm3 v)) (hY : YOk L (2 * p) v) (hTp : T * p ≤ 900)
    (hB : a + T * p + 2 * p + G + 16 ≤ B) (hB' : B ≤ 950) : CB p 1 (fun _ => B) (leShift L p e v) := by
  have hK : |K| ≤ T := by linarith
  have hT0 : 0 ≤ T := (abs_nonneg K).trans hK
  have hTp0 : 0 ≤ T * p := by positivity
  have hG : (0 : ℤ) ≤ G := by positivity
  have hp0 : (0 : ℤ) ≤ p := by positivity
  intro j hj k hk
  rw [abs_le] at hk
  unfold leShift
  dsimp only
  refine NC.rsc (b := a + T * p + 2 * p + G + 15) (hA.up j k (by omega) (by rw [abs_le]; omega)) ?_ (by norm_num) (by linarith) (by linarith) hB'
  refine NC.lift (m := 4096) (b := a + T * p + 2 * p + G + 3) ?_ 12 (by norm_num) (by push_cast; linarith)
  refine NC.sum (k := 85) _ _ (fun n hn => ?_) (by rw [List.length_map, List.length_range]; omega) (by norm_num) (by linarith) (by linarith)
  obtain ⟨i, hi, rfl⟩ := List.mem_map.mp hn
  have hi : j + i ≤ p := by have := List.mem_range.mp hi; omega
  have e1 : j + i - j = i := by omega
  obtain ⟨k1, k2⟩ := kb (up_T hT) (n := i) (p := p) (by omega)
  obtain ⟨k3, k4⟩ := kb (dn_T hT) hi
  obtain ⟨k5, k6⟩ := kb (up_T hT) (n := j) (p := p) (by omega)
  have hip : (j : ℤ) + i ≤ p := by exact_mod_cast hi
  push_cast at k3 k4
  have hw := pows_N hr i (by linarith) (by linarith)
  have hw' := (parity_N (j + i + j)).mul1 hw (c := (K + 1) * i) (by norm_num) (by linarith) (by linarith) (by linarith)
  rw [e1]
  refine NC.rsc (b := a + (1 - K) * (j + i : ℕ) + G + 3) hw' ?_ (by norm_num) (by push_cast; linarith) (by linarith) (by linarith)
  refine NC.sum (k := 1) _ _ (fun m hm => ?_) (by rw [zrange_length]; omega) (by norm_num) (by push_cast; linarith) (by push_cast; linarith)
  have hm := mem_zrange hm
  push_cast at hm
  obtain ⟨s, s1, s2⟩ := hA.s3 k m
  rw [s2]
  have hmk : |m - k| ≤ i := by rw [abs_le]; omega
  have c1 := hA.quot s i j (m - k) (-k) s1 (by omega) hj hmk (by rw [abs_neg, abs_le]; omega)
  rw [sub_neg_eq_add, sub_add_cancel] at c1
  have c3 := NC.mul (he (j + i) hi m (by rw [abs_le]; push_cast; omega)) (hY i (m - k) (by omega) hmk) (c := a + (1 - K) * (j + i : ℕ) + 2) (by linarith)
    (by push_cast; linarith) (by push_cast; linarith)
  exact NC.rsc c1 c3 (by norm_num) (by linarith) (by push_cast; linarith) (by push_cast; linarith)

end

/-! ## Evaluation -/

theorem indices_length (p : ℕ) : (indices p).length = (p + 1) * (p + 1) := by
  unfold indices
  rw [List.length_flatMap]
  induction p with
  | zero => rfl
  | succ p ih =>
    rw [List.range_succ, List.map_append, List.sum_append, ih]
    simp only [List.map_cons, List.map_nil, List.sum_cons, List.sum_nil, List.length_map, zrange_length]
    push_cast
    have : ((p : ℤ) + 1 + 1 - (-((p : ℤ) + 1))).toNat = 2 * p + 3 := by omega
    rw [this]
    ring

theorem mem_indices {p : ℕ} {x : ℕ × ℤ} (h : x ∈ indices p) : x.1 ≤ p ∧ |x.2| ≤ x.1 := by
  unfold indices at h
  obtain ⟨n, hn, hx⟩ := List.mem_flatMap.mp h
  obtain ⟨m, hm, rfl⟩ := List.mem_map.mp hx
  have := List.mem_range.mp hn
  exact ⟨by simp only; omega, abs_le.mpr (mem_zrange hm)⟩

theorem sq_le (hp : p ≤ 42) : (p + 1) * (p + 1) ≤ 2048 := (Nat.mul_le_mul (by omega : p + 1 ≤ 43) (by omega : p + 1 ≤ 43)).trans (by norm_num)

theorem lePot_fin (hp : p ≤ 42) (hT : |K| + 1 ≤ T) (h0 : 0 ≤ a) {c x : Vec 3} (he : CB p 1 (fun n => a + (1 - K) * n) e)
    (hr : N 1 (K + 1) (norm3 (vsub x c))) (hY : YOk L p (vsub x c)) (hTp : T * p ≤ 900) (hB : a + 2 * p + 13 ≤ B) (hB' : B ≤ 950) :
    N 1 B (lePot L p c e x) := by
  have hp0 : (0 : ℤ) ≤ p := by positivity
  unfold lePot
  dsimp only
  refine N.neg ?_
  have key : NC 2048 (a + 2 * p + 2) ((indices p).foldl (fun pot nm =>
      cadd pot (cmul (rsc (pows (norm3 (vsub x c)) nm.1) (e nm.1 nm.2)) (L.ylm p (L.ang (vsub x c)) nm.1 nm.2))) czero) := by
    refine NC.sum (k := 1) _ _ (fun nm hnm => ?_) (by rw [indices_length, mul_one]; exact sq_le hp) (by norm_num) (by linarith) (by linarith)
    obtain ⟨h1, h2⟩ := mem_indices hnm
    obtain ⟨k1, k2⟩ := kb (up_T hT) h1
    have hnp : (nm.1 : ℤ) ≤ p := by exact_mod_cast h1
    have q := NC.rsc (pows_N hr nm.1 (by linarith) (by linarith)) (he nm.1 h1 nm.2 h2) (c := a + 2 * p) (by norm_num) (by linarith) (by linarith) (by linarith)
    exact q.mul (hY nm.1 nm.2 h1 h2) (by linarith) (by linarith) (by linarith)
  exact key.1.lift 11 (by norm_num) (by push_cast; linarith)

theorem mePot_fin (hp : p ≤ 42) (hT : |K| + 1 ≤ T) (h0 : 0 ≤ a) {c x : Vec 3} (he : CB p 1 (fun n => a + K * n) e)
    {y : ℝ} (hy : norm3 (vsub x c) = .fin y) (hy0 : y ≠ 0) (hy1 : |y|⁻¹ ≤ 2 ^ (1 - K)) (hY : YOk L p (vsub x c)) (hTp : T * (p + 1) ≤ 900)
    (hB : a + p + T + 13 ≤ B) (hB' : B ≤ 950) :
    N 1 B (mePot L p c e x) := by
  have hp0 : (0 : ℤ) ≤ p := by positivity
  have hT0 : 0 ≤ T := (abs_nonneg K).trans (by linarith)
  have hTp0 : 0 ≤ T * p := by positivity
  unfold mePot
  dsimp only
  rw [hy]
  refine N.neg ?_
  have key : NC 2048 (a + p + T + 2) ((indices p).foldl (fun pot nm =>
      cadd pot (cmul (rsc (ipows (div (.fin 1) (.fin y)) (.fin y) nm.1) (e nm.1 nm.2)) (L.ylm p (L.ang (vsub x c)) nm.1 nm.2))) czero) := by
    refine NC.sum (k := 1) _ _ (fun nm hnm => ?_) (by rw [indices_length, mul_one]; exact sq_le hp) (by norm_num) (by linarith) (by linarith)
    obtain ⟨h1, h2⟩ := mem_indices hnm
    obtain ⟨k1, k2⟩ := kb (dn_T hT) (Nat.succ_le_succ h1)
    have k3 := abs_le.mp (dn_T hT)
    push_cast at k1 k2
    have hnp : (nm.1 : ℤ) ≤ p := by exact_mod_cast h1
    have f : N 1 (1 - K) (div (.fin 1) (.fin y)) :=
      (N.fin (b := 0) (by simp)).div hy0 hy1 (by norm_num) (by linarith) (by linarith) (by linarith)
    have q := NC.rsc (ipows_N f hy0 hy1 nm.1 (by linarith) (by linarith)) (he nm.1 h1 nm.2 h2) (c := a + p + T) (by norm_num) (by linarith)
      (by linarith) (by linarith)
    exact q.mul (hY nm.1 nm.2 h1 h2) (by linarith) (by linarith) (by linarith)
  exact key.1.lift 11 (by norm_num) (by push_cast; linarith)

end FMM.Hi3
