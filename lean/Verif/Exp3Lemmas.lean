import Verif.Exp3Tables
import Verif.Exp2Lemmas

/-!
# The operations of the 3D expansions in closed form
-/

namespace FMM
open Finset

/-! ## Loops over cells -/

theorem grid_rmw1 {p : ℕ} (f : ℕ → Arr ℂ → Outcome (Arr ℂ)) (g : ℕ → ℤ → ℂ → ℂ) (c : Arr ℂ)
    (hc : c.size = (p + 1) * (p + 1))
    (h : ∀ n ≤ p, ∀ c' : Arr ℂ, c'.size = (p + 1) * (p + 1) → ∃ c'' : Arr ℂ, f n c' = .ok c'' ∧
      c''.size = (p + 1) * (p + 1) ∧ ∀ (n' : ℕ) (m' : ℤ), |m'| ≤ n' →
        c''.val (cell n' m') = if n' = n then g n m' (c'.val (cell n m')) else c'.val (cell n' m')) :
    ∃ c' : Arr ℂ, loopM (p + 1) f c = .ok c' ∧ c'.size = (p + 1) * (p + 1) ∧
      ∀ n ≤ p, ∀ m : ℤ, |m| ≤ n → c'.val (cell n m) = g n m (c.val (cell n m)) := by
  obtain ⟨t, h1, h3, h4⟩ := loopM_invariant
    (fun i (t : Arr ℂ) => t.size = (p + 1) * (p + 1) ∧ ∀ (n' : ℕ) (m' : ℤ), |m'| ≤ n' →
      t.val (cell n' m') = if n' < i then g n' m' (c.val (cell n' m')) else c.val (cell n' m'))
    f c (p + 1) ⟨hc, fun n' m' _ => by rw [if_neg (by omega)]⟩
    (by
      rintro i hi t ⟨ht, hv⟩
      obtain ⟨c'', h1, h2, h3⟩ := h i (by omega) t ht
      refine ⟨_, h1, h2, fun n' m' hm' => ?_⟩
      rw [h3 n' m' hm']
      by_cases hb : n' = i
      · subst hb
        rw [if_pos rfl, if_pos (by omega), hv _ _ hm', if_neg (by omega)]
      · rw [if_neg hb, hv _ _ hm']
        by_cases hlt : n' < i
        · rw [if_pos hlt, if_pos (by omega)]
        · rw [if_neg hlt, if_neg (by omega)])
  exact ⟨t, h1, h3, fun n hn m hm => by rw [h4 n m hm, if_pos (by omega)]⟩

theorem cell_pos (n : ℕ) {i : ℕ} : cell n (-(n : ℤ) + i) = n * n + i := by
  unfold cell lmIndex
  have : (n : ℤ) * (n + 1) + (-(n : ℤ) + i) = ((n * n + i : ℕ) : ℤ) := by push_cast; ring
  rw [this, Int.toNat_natCast]

/-- One row of cells written in order through a running position. -/
theorem row_pos {p n : ℕ} (hn : n ≤ p) (f : ℤ → Arr ℂ × ℕ → Outcome (Arr ℂ × ℕ)) (g : ℤ → ℂ) (c : Arr ℂ)
    (hc : c.size = (p + 1) * (p + 1))
    (h : ∀ m : ℤ, |m| ≤ n → ∀ s : Arr ℂ × ℕ, f m s = (do let c ← s.1.wr s.2 (g m); .ok (c, s.2 + 1))) :
    ∃ c', loopZ (-(n : ℤ)) n f (c, n * n) = .ok (c', (n + 1) * (n + 1)) ∧ c'.size = (p + 1) * (p + 1) ∧
      ∀ (n' : ℕ) (m' : ℤ), |m'| ≤ n' → c'.val (cell n' m') = if n' = n then g m' else c.val (cell n' m') := by
  have hlen : ((n : ℤ) + 1 - -(n : ℤ)).toNat = 2 * n + 1 := by omega
  unfold loopZ
  rw [hlen]
  obtain ⟨⟨c', b⟩, h1, h2, h3, h4⟩ := loopM_invariant
    (fun i (s : Arr ℂ × ℕ) => s.2 = n * n + i ∧ s.1.size = (p + 1) * (p + 1) ∧ ∀ (n' : ℕ) (m' : ℤ), |m'| ≤ n' →
      s.1.val (cell n' m') = if n' = n ∧ m' < -(n : ℤ) + i then g m' else c.val (cell n' m'))
    (fun i => f (-(n : ℤ) + i)) (c, n * n) (2 * n + 1)
    ⟨rfl, hc, fun n' m' hm' => by
      rw [if_neg]; rintro ⟨rfl, h⟩
      rw [abs_le] at hm'; push_cast at h; omega⟩
    (by
      rintro i hi ⟨t, b⟩ ⟨hb, ht, hv⟩
      simp only at hb ht hv
      have hm : |-(n : ℤ) + i| ≤ n := by rw [abs_le]; omega
      have hlt : b < t.size := by rw [hb, ht]; nlinarith
      refine ⟨(⟨t.size, Function.update t.val b (g (-(n : ℤ) + i))⟩, b + 1), ?_, by simp only; omega, ht, ?_⟩
      · rw [h _ hm, Arr.wr_ok _ hlt]; rfl
      intro n' m' hm'
      simp only
      rw [hb, ← cell_pos]
      by_cases he : cell n' m' = cell n (-(n : ℤ) + i)
      · obtain ⟨rfl, rfl⟩ := cell_inj hm' hm he
        rw [Function.update_self, if_pos ⟨rfl, by push_cast; omega⟩]
      · rw [Function.update_of_ne he, hv n' m' hm']
        by_cases hb : n' = n ∧ m' < -(n : ℤ) + i
        · rw [if_pos hb, if_pos ⟨hb.1, by push_cast; omega⟩]
        · rw [if_neg hb, if_neg]
          rintro ⟨rfl, h'⟩
          push_cast at h'
          have : m' = -(n' : ℤ) + i := by
            by_contra hne
            exact hb ⟨rfl, by omega⟩
          exact he (by rw [this]))
  simp only at h2 h3 h4
  refine ⟨c', ?_, h3, fun n' m' hm' => ?_⟩
  · rw [h1, h2]; congr 2; ring
  rw [h4 n' m' hm']
  by_cases hb : n' = n
  · subst hb
    rw [abs_le] at hm'
    rw [if_pos ⟨rfl, by push_cast; omega⟩, if_pos rfl]
  · rw [if_neg (fun h => hb h.1), if_neg hb]

/-- Accumulation of a list into the cells. -/
theorem fold_cells {α : Type} {p : ℕ} (f : Arr ℂ → α → Outcome (Arr ℂ)) (g : α → ℕ → ℤ → ℂ) (S : List α)
    (h : ∀ s ∈ S, ∀ c : Arr ℂ, c.size = (p + 1) * (p + 1) → ∃ c', f c s = .ok c' ∧ c'.size = (p + 1) * (p + 1) ∧
      ∀ n ≤ p, ∀ m : ℤ, |m| ≤ n → c'.val (cell n m) = c.val (cell n m) + g s n m) :
    ∀ c : Arr ℂ, c.size = (p + 1) * (p + 1) → ∃ c', S.foldlM f c = .ok c' ∧ c'.size = (p + 1) * (p + 1) ∧
      ∀ n ≤ p, ∀ m : ℤ, |m| ≤ n → c'.val (cell n m) = c.val (cell n m) + (S.map fun s => g s n m).sum := by
  induction S with
  | nil => exact fun c hc => ⟨c, rfl, hc, fun n hn m hm => by simp⟩
  | cons s S ih =>
    intro c hc
    obtain ⟨c1, h1, h2, h3⟩ := h s (by simp) c hc
    obtain ⟨c2, h4, h5, h6⟩ := ih (fun t ht => h t (by simp [ht])) c1 h2
    refine ⟨c2, ?_, h5, fun n hn m hm => ?_⟩
    · rw [List.foldlM_cons, h1, ok_bind, h4]
    · rw [h6 n hn m hm, h3 n hn m hm, List.map_cons, List.sum_cons, add_assoc]

/-! ## Expansions -/

/-- The expansion `e` has centre `c`, order `p` and coefficients `a`. -/
structure Exp3.Is (e : Exp3) (c : Vec 3) (p : ℕ) (a : ℕ → ℤ → ℂ) : Prop where
  order : e.order = p
  center : e.center = c
  size : e.coeffs.size = (p + 1) * (p + 1)
  val : ∀ n ≤ p, ∀ m : ℤ, |m| ≤ n → e.coeffs.val (cell n m) = a n m

theorem Exp3.Is.get {e : Exp3} {c : Vec 3} {p : ℕ} {a : ℕ → ℤ → ℂ} (h : e.Is c p a) {n : ℕ} {m : ℤ} (hn : n ≤ p)
    (hm : |m| ≤ n) : e.get n m = .ok (a n m) := by
  unfold Exp3.get; rw [rdZ_cell h.size hn hm, h.val n hn m hm]

theorem Exp3.Is.congr {e : Exp3} {c : Vec 3} {p : ℕ} {a b : ℕ → ℤ → ℂ} (h : e.Is c p a)
    (hab : ∀ n ≤ p, ∀ m : ℤ, |m| ≤ n → a n m = b n m) : e.Is c p b :=
  ⟨h.order, h.center, h.size, fun n hn m hm => (h.val n hn m hm).trans (hab n hn m hm)⟩

/-- Multipole coefficients of a list of sources about `c`. -/
noncomputable def meCoeff3 (c : Vec 3) (S : List (Source 3)) (n : ℕ) (m : ℤ) : ℂ :=
  (S.map fun s => (s.q : ℂ) * rY (s.pos - c) n (-m)).sum

/-- Local coefficients of a list of sources about `c`. -/
noncomputable def leCoeff3 (c : Vec 3) (S : List (Source 3)) (n : ℕ) (m : ℤ) : ℂ :=
  (S.map fun s => (s.q : ℂ) * (rY (s.pos - c) n (-m) / (len3 (s.pos - c) : ℂ) ^ (2 * n + 1))).sum

/-- Value of a local expansion at the displacement `v`. -/
noncomputable def leSum3 (a : ℕ → ℤ → ℂ) (p : ℕ) (v : Vec 3) : ℂ :=
  ∑ n ∈ range (p + 1), ∑ m ∈ Icc (-(n : ℤ)) n, a n m * rY v n m

/-- Value of a multipole expansion at the displacement `v`. -/
noncomputable def meSum3 (a : ℕ → ℤ → ℂ) (p : ℕ) (v : Vec 3) : ℂ :=
  ∑ n ∈ range (p + 1), ∑ m ∈ Icc (-(n : ℤ)) n, a n m * (rY v n m / (len3 v : ℂ) ^ (2 * n + 1))

/-- Coefficients of the shifted multipole expansion. -/
noncomputable def m2mC (a : ℕ → ℤ → ℂ) (h : Vec 3) (j : ℕ) (k : ℤ) : ℂ :=
  (∑ n ∈ range (j + 1), ∑ m ∈ Icc (max (-(n : ℤ)) (n + k - j)) (min (n : ℤ) (j + k - n)),
    ((sg1 k m * aSpec n m * aSpec (j - n) (k - m) : ℝ) : ℂ) * (a (j - n) (k - m) * rY h n (-m))) / (aSpec j k : ℂ)

/-- Coefficients of a multipole expansion converted to a local expansion. -/
noncomputable def m2lC (p : ℕ) (a : ℕ → ℤ → ℂ) (h : Vec 3) (j : ℕ) (k : ℤ) : ℂ :=
  (∑ n ∈ range (p + 1), (-1) ^ n * ∑ m ∈ Icc (-(n : ℤ)) n,
    ((sg2 k m * aSpec n m / aSpec (j + n) (m - k) : ℝ) : ℂ) * (a n m * (rY h (j + n) (m - k)
      / (len3 h : ℂ) ^ (2 * (j + n) + 1)))) * (aSpec j k : ℂ)

/-- Coefficients of the shifted local expansion. -/
noncomputable def l2lC (p : ℕ) (a : ℕ → ℤ → ℂ) (h : Vec 3) (j : ℕ) (k : ℤ) : ℂ :=
  (aSpec j k : ℂ) * ∑ n ∈ Ico j (p + 1), (-1) ^ (n + j) * ∑ m ∈ Icc (max (-(n : ℤ)) (k + j - n)) (min (n : ℤ) (k + n - j)),
    ((sg3 k m * aSpec (n - j) (m - k) / aSpec n m : ℝ) : ℂ) * (a n m * rY h (n - j) (m - k))

namespace Exp3

theorem parSign_eq (n : ℕ) : parSign n = (-1) ^ n := by
  unfold parSign
  rcases Nat.even_or_odd n with h | h
  · rw [if_pos (Nat.even_iff.mp h), h.neg_one_pow]
  · rw [if_neg (by rw [Nat.odd_iff] at h; omega), h.neg_one_pow]

theorem sf1 (k m : ℤ) : signFun1 k m = .ok (sg1 k m) := (signSwitch_iPow (even_exponent k m)).1
theorem sf2 (k m : ℤ) : signFun2 k m = .ok (sg2 k m) := by
  refine (signSwitch_iPow ?_).1
  have := even_exponent k m
  rw [Int.even_iff] at this ⊢; omega
theorem sf3 (k m : ℤ) : signFun3 k m = .ok (sg3 k m) := by
  refine (signSwitch_iPow ?_).1
  have := even_exponent m k
  rw [Int.even_iff] at this ⊢; omega

theorem new_ok (st : Stat3) (hst : st.Good) (c : Vec 3) (p : ℕ) (hp : p ≤ 42) :
    ∃ st' e, new st c p = .ok (st', e) ∧ st'.Good ∧ p ≤ st'.alm.maxOrder ∧ (p ≤ st.alm.maxOrder → st' = st) ∧
      e.Is c p (fun _ _ => 0) := by
  have hIs : (⟨p, c, Arr.new ((1 + p) * (1 + p))⟩ : Exp3).Is c p (fun _ _ => 0) :=
    ⟨rfl, rfl, by show (1 + p) * (1 + p) = _; ring, fun n _ m _ => rfl⟩
  unfold new
  by_cases h : p > st.alm.maxOrder
  · rw [if_pos h]
    obtain ⟨a, ha, ha1, ha2⟩ := st.alm.refresh_good hst.alm p hp
    obtain ⟨s1, h1, h1a, h1b⟩ := st.s1.refresh_good signFun1 sg1 sf1 hst.s1 p
    obtain ⟨s2, h2, h2a, h2b⟩ := st.s2.refresh_good signFun2 sg2 sf2 hst.s2 p
    obtain ⟨s3, h3, h3a, h3b⟩ := st.s3.refresh_good signFun3 sg3 sf3 hst.s3 p
    rw [ha, ok_bind, h1, ok_bind, h2, ok_bind, h3]
    refine ⟨⟨a, s1, s2, s3⟩, _, rfl, ⟨ha1, h1a, h2a, h3a, ?_, ?_, ?_⟩, ?_, fun h' => by omega, hIs⟩
    · show s1.maxOrder = a.maxOrder
      rw [h1b, ha2, hst.m1]
    · show s2.maxOrder = a.maxOrder
      rw [h2b, ha2, hst.m2]
    · show s3.maxOrder = a.maxOrder
      rw [h3b, ha2, hst.m3]
    · show p ≤ a.maxOrder
      rw [ha2]; exact le_max_right _ _
  · rw [if_neg h]
    exact ⟨st, _, rfl, hst, by omega, fun _ => rfl, hIs⟩

/-! ### From sources -/

theorem rY_dir {v : Vec 3} (hv : v ≠ 0) (n : ℕ) (m : ℤ) :
    ((1 / len3 v / len3 v ^ n : ℝ) : ℂ) * rY (dirV (v.toSpherical3 1) (v.toSpherical3 2)) n m
      = rY v n m / (len3 v : ℂ) ^ (2 * n + 1) := by
  have h0 : (len3 v : ℂ) ≠ 0 := by exact_mod_cast (len3_pos hv).ne'
  rw [rY_sph v n m]
  push_cast
  field_simp
  ring

theorem meAddSource_ok (p : ℕ) (c : Vec 3) (s : Source 3) (a : Arr ℂ) (ha : a.size = (p + 1) * (p + 1)) :
    ∃ a', meAddSource p c a s = .ok a' ∧ a'.size = (p + 1) * (p + 1) ∧
      ∀ n ≤ p, ∀ m : ℤ, |m| ≤ n → a'.val (cell n m) = a.val (cell n m) + (s.q : ℂ) * rY (s.pos - c) n (-m) := by
  unfold meAddSource
  simp only [Vec.sub_eq]
  set v := s.pos - c with hv
  obtain ⟨Y, hY, hYv⟩ := YlmTable.make_ok p (v.toSpherical3 2) (sph_sin_nonneg v)
  rw [hY, ok_bind]
  obtain ⟨a', h1, h2, h3⟩ := grid_rmw (p := p) (fun n (s' : Arr ℂ × ℝ) => do
      let c ← loopZ (-(n : ℤ)) n (fun m c => do
        let a ← c.rdZ (lmIndex n m)
        let y ← Y.get n (-m)
        c.wrZ (lmIndex n m) (a + ((s.q * s'.2 : ℝ) : ℂ) * y)) s'.1
      .ok (c, s'.2 * v.toSpherical3 0))
    (fun n m x => x + (s.q : ℂ) * rY v n (-m)) (fun n => len3 v ^ n) a ha
    (by
      intro n hn c' hc'
      obtain ⟨c'', h1, h2, h3⟩ := row_rmw hn (fun m c => do
          let a ← c.rdZ (lmIndex n m)
          let y ← Y.get n (-m)
          c.wrZ (lmIndex n m) (a + ((s.q * len3 v ^ n : ℝ) : ℂ) * y))
        (fun m x => x + (s.q : ℂ) * rY v n (-m)) c' hc' (by
          intro m hm d hd
          rw [rdZ_cell hd hn hm, ok_bind, hYv n hn (-m) (by rwa [abs_neg]), ok_bind, wrZ_cell hd hn hm]
          congr 4
          rw [rY_sph v n (-m)]; push_cast; ring)
      refine ⟨c'', ?_, h2, h3⟩
      simp only
      rw [h1, ok_bind, sph_r, pow_succ])
  rw [pow_zero] at h1
  rw [h1]
  exact ⟨a', rfl, h2, h3⟩

theorem leAddSource_ok (p : ℕ) (c : Vec 3) (s : Source 3) (hs : s.pos ≠ c) (a : Arr ℂ) (ha : a.size = (p + 1) * (p + 1)) :
    ∃ a', leAddSource p c a s = .ok a' ∧ a'.size = (p + 1) * (p + 1) ∧
      ∀ n ≤ p, ∀ m : ℤ, |m| ≤ n → a'.val (cell n m) = a.val (cell n m)
        + (s.q : ℂ) * (rY (s.pos - c) n (-m) / (len3 (s.pos - c) : ℂ) ^ (2 * n + 1)) := by
  unfold leAddSource
  simp only [Vec.sub_eq]
  have hv0 : s.pos - c ≠ 0 := sub_ne_zero.mpr hs
  set v := s.pos - c with hv
  have hr0 : len3 v ≠ 0 := (len3_pos hv0).ne'
  obtain ⟨Y, hY, hYv⟩ := YlmTable.make_ok p (v.toSpherical3 2) (sph_sin_nonneg v)
  rw [hY, ok_bind]
  simp only [sph_r]
  rw [divR, if_neg hr0, ok_bind]
  obtain ⟨a', h1, h2, h3⟩ := grid_rmw (p := p) (fun n (s' : Arr ℂ × ℝ) => do
      let c ← loopZ (-(n : ℤ)) n (fun m c => do
        let a ← c.rdZ (lmIndex n m)
        let y ← Y.get n (-m)
        c.wrZ (lmIndex n m) (a + ((s.q * s'.2 : ℝ) : ℂ) * y)) s'.1
      let rp ← divR s'.2 (len3 v)
      .ok (c, rp))
    (fun n m x => x + (s.q : ℂ) * (rY v n (-m) / (len3 v : ℂ) ^ (2 * n + 1))) (fun n => 1 / len3 v / len3 v ^ n) a ha
    (by
      intro n hn c' hc'
      obtain ⟨c'', h1, h2, h3⟩ := row_rmw hn (fun m c => do
          let a ← c.rdZ (lmIndex n m)
          let y ← Y.get n (-m)
          c.wrZ (lmIndex n m) (a + ((s.q * (1 / len3 v / len3 v ^ n) : ℝ) : ℂ) * y))
        (fun m x => x + (s.q : ℂ) * (rY v n (-m) / (len3 v : ℂ) ^ (2 * n + 1))) c' hc' (by
          intro m hm d hd
          rw [rdZ_cell hd hn hm, ok_bind, hYv n hn (-m) (by rwa [abs_neg]), ok_bind, wrZ_cell hd hn hm]
          congr 4
          rw [← rY_dir hv0 n (-m)]; push_cast; ring)
      refine ⟨c'', ?_, h2, h3⟩
      simp only
      rw [h1, ok_bind, divR, if_neg hr0, ok_bind, pow_succ, div_div])
  rw [pow_zero, div_one] at h1
  rw [h1]
  exact ⟨a', rfl, h2, h3⟩

theorem meOfSources_ok (st : Stat3) (hst : st.Good) (c : Vec 3) (p : ℕ) (hp : p ≤ 42) (S : List (Source 3)) :
    ∃ st' e, meOfSources st c p S = .ok (st', e) ∧ st'.Good ∧ p ≤ st'.alm.maxOrder ∧ (p ≤ st.alm.maxOrder → st' = st) ∧
      e.Is c p (meCoeff3 c S) := by
  obtain ⟨st', e, h1, h2, h3, h4, h5⟩ := new_ok st hst c p hp
  unfold meOfSources
  rw [h1, ok_bind]
  simp only [h5.center]
  obtain ⟨a, g1, g2, g3⟩ := fold_cells (meAddSource p c) _ S (fun s _ a ha => meAddSource_ok p c s a ha) e.coeffs h5.size
  rw [g1, ok_bind]
  refine ⟨st', _, rfl, h2, h3, h4, h5.order, rfl, g2, fun n hn m hm => ?_⟩
  simp only
  rw [g3 n hn m hm, h5.val n hn m hm, zero_add]; rfl

theorem leOfSources_ok (st : Stat3) (hst : st.Good) (c : Vec 3) (p : ℕ) (hp : p ≤ 42) (S : List (Source 3))
    (hS : ∀ s ∈ S, s.pos ≠ c) :
    ∃ st' e, leOfSources st c p S = .ok (st', e) ∧ st'.Good ∧ p ≤ st'.alm.maxOrder ∧ (p ≤ st.alm.maxOrder → st' = st) ∧
      e.Is c p (leCoeff3 c S) := by
  obtain ⟨st', e, h1, h2, h3, h4, h5⟩ := new_ok st hst c p hp
  unfold leOfSources
  rw [h1, ok_bind]
  simp only [h5.center]
  obtain ⟨a, g1, g2, g3⟩ := fold_cells (leAddSource p c) _ S (fun s hs a ha => leAddSource_ok p c s (hS s hs) a ha) e.coeffs h5.size
  rw [g1, ok_bind]
  refine ⟨st', _, rfl, h2, h3, h4, h5.order, rfl, g2, fun n hn m hm => ?_⟩
  simp only
  rw [g3 n hn m hm, h5.val n hn m hm, zero_add]; rfl

/-! ### Evaluation -/

theorem lePot_ok {e : Exp3} {c : Vec 3} {p : ℕ} {a : ℕ → ℤ → ℂ} (he : e.Is c p a) (x : Vec 3) :
    lePot e x = .ok (-(leSum3 a p (x - c)).re) := by
  unfold lePot
  simp only [Vec.sub_eq, he.center, he.order]
  set v := x - c with hv
  obtain ⟨Y, hY, hYv⟩ := YlmTable.make_ok p (v.toSpherical3 2) (sph_sin_nonneg v)
  rw [hY, ok_bind]
  simp only [sph_r]
  obtain ⟨⟨z, r⟩, h1, h2, h3⟩ := loopM_invariant
    (fun i (s : ℂ × ℝ) => s.1 = ∑ n ∈ range i, ∑ m ∈ Icc (-(n : ℤ)) n, a n m * rY v n m ∧ s.2 = len3 v ^ i)
    (fun n (s : ℂ × ℝ) => do
      let pot ← loopZ (-(n : ℤ)) n (fun m pot => do
        let a ← e.get n m
        let y ← Y.get n m
        .ok (pot + a * (s.2 : ℂ) * y)) s.1
      .ok (pot, s.2 * len3 v)) (0, 1) (p + 1) ⟨by simp, by simp⟩
    (by
      rintro n hn ⟨z, r⟩ ⟨rfl, rfl⟩
      simp only
      rw [loopZ_acc _ _ _ (fun m => a n m * rY v n m)]
      · exact ⟨_, rfl, (sum_range_succ _ _).symm, (pow_succ _ _).symm⟩
      · intro m hm1 hm2 b
        rw [he.get (by omega) (by rw [abs_le]; omega), ok_bind, hYv n (by omega) m (by rw [abs_le]; omega), ok_bind,
          rY_sph v n m]
        push_cast
        congr 2; ring)
  rw [h1, ok_bind]
  simp only at h2
  rw [h2]; rfl

theorem mePot_ok {e : Exp3} {c : Vec 3} {p : ℕ} {a : ℕ → ℤ → ℂ} (he : e.Is c p a) (x : Vec 3) (hx : x ≠ c) :
    mePot e x = .ok (-(meSum3 a p (x - c)).re) := by
  unfold mePot
  simp only [Vec.sub_eq, he.center, he.order]
  have hv0 : x - c ≠ 0 := sub_ne_zero.mpr hx
  set v := x - c with hv
  have hr0 : len3 v ≠ 0 := (len3_pos hv0).ne'
  obtain ⟨Y, hY, hYv⟩ := YlmTable.make_ok p (v.toSpherical3 2) (sph_sin_nonneg v)
  rw [hY, ok_bind]
  simp only [sph_r]
  rw [divR, if_neg hr0, ok_bind]
  obtain ⟨⟨z, r⟩, h1, h2, h3⟩ := loopM_invariant
    (fun i (s : ℂ × ℝ) => s.1 = ∑ n ∈ range i, ∑ m ∈ Icc (-(n : ℤ)) n, a n m * (rY v n m / (len3 v : ℂ) ^ (2 * n + 1))
      ∧ s.2 = 1 / len3 v / len3 v ^ i)
    (fun n (s : ℂ × ℝ) => do
      let pot ← loopZ (-(n : ℤ)) n (fun m pot => do
        let a ← e.get n m
        let y ← Y.get n m
        .ok (pot + a * (s.2 : ℂ) * y)) s.1
      let rp ← divR s.2 (len3 v)
      .ok (pot, rp)) (0, 1 / len3 v) (p + 1) ⟨by simp, by simp⟩
    (by
      rintro n hn ⟨z, r⟩ ⟨rfl, rfl⟩
      simp only
      rw [loopZ_acc _ _ _ (fun m => a n m * (rY v n m / (len3 v : ℂ) ^ (2 * n + 1)))]
      · rw [ok_bind, divR, if_neg hr0, ok_bind]
        refine ⟨_, rfl, (sum_range_succ _ _).symm, ?_⟩
        simp only
        rw [pow_succ, div_div]
      · intro m hm1 hm2 b
        rw [he.get (by omega) (by rw [abs_le]; omega), ok_bind, hYv n (by omega) m (by rw [abs_le]; omega), ok_bind,
          ← rY_dir hv0 n m]
        congr 2; ring)
  rw [h1, ok_bind]
  simp only at h2
  rw [h2]; rfl

/-! ### Shifts and conversions -/

theorem pos_of {st st' : Stat3} {p : ℕ} (h1 : p ≤ st'.alm.maxOrder) (h2 : p ≤ st.alm.maxOrder → st' = st)
    (h : 0 < p ∨ 0 < st.alm.maxOrder) : 0 < st'.alm.maxOrder := by
  rcases Nat.eq_zero_or_pos p with rfl | h0
  · rw [h2 (Nat.zero_le _)]; omega
  · omega

theorem meShiftCoeff_ok {st : Stat3} (hst : st.Good) {e : Exp3} {c : Vec 3} {p : ℕ} {a : ℕ → ℤ → ℂ} (he : e.Is c p a)
    (h0 : 0 < st.alm.maxOrder) (hM : p ≤ st.alm.maxOrder) (v : Vec 3) {Y : YlmTable}
    (hY : ∀ l ≤ p, ∀ m : ℤ, |m| ≤ l → Y.get l m = .ok (rY (dirV (v.toSpherical3 1) (v.toSpherical3 2)) l m))
    {pow : Arr ℝ} (hpow : pow.size = p + 1) (hpv : ∀ k ≤ p, pow.val k = len3 v ^ k) {j : ℕ} {k : ℤ} (hj : j ≤ p) (hk : |k| ≤ j) :
    meShiftCoeff st e Y pow j k = .ok (m2mC a v j k) := by
  unfold meShiftCoeff m2mC
  have hk' := hk
  rw [abs_le] at hk'
  rw [loopM_acc _ _ (fun n => ∑ m ∈ Icc (max (-(n : ℤ)) (n + k - j)) (min (n : ℤ) (j + k - n)),
    ((sg1 k m * aSpec n m * aSpec (j - n) (k - m) : ℝ) : ℂ) * (a (j - n) (k - m) * rY v n (-m)))]
  · rw [ok_bind, AlmTable.get_ok hst.alm (by omega) (by omega) hk, ok_bind, zero_add, divC, if_neg (aSpec_ne_zero j k)]
  · intro n hn b
    rw [loopZ_acc _ _ _ (fun m => ((sg1 k m * aSpec n m * aSpec (j - n) (k - m) : ℝ) : ℂ)
      * (a (j - n) (k - m) * rY (dirV (v.toSpherical3 1) (v.toSpherical3 2)) n (-m)))]
    · rw [ok_bind, Arr.rd_ok _ (by rw [hpow]; omega), ok_bind, hpv n (by omega), zero_add, sum_mul]
      congr 2
      refine sum_congr rfl fun m _ => ?_
      rw [rY_sph v n (-m)]; push_cast; ring
    · intro m hm1 hm2 b
      have hm : |m| ≤ n := by rw [abs_le]; omega
      have hkm : |k - m| ≤ ((j - n : ℕ) : ℤ) := by rw [abs_le]; omega
      rw [SignTable.get_ok hst.s1 (by rw [hst.m1]; omega) (by rw [hst.m1]; omega) (by rw [hst.m1]; omega), ok_bind,
        AlmTable.get_ok hst.alm (by omega) (by omega) hm, ok_bind,
        AlmTable.get_ok hst.alm (by omega) (by omega) hkm, ok_bind,
        he.get (by omega) hkm, ok_bind, hY n (by omega) (-m) (by rwa [abs_neg]), ok_bind]

theorem meShift_ok {st : Stat3} (hst : st.Good) {e : Exp3} {c : Vec 3} {p : ℕ} {a : ℕ → ℤ → ℂ} (he : e.Is c p a)
    (h0 : 0 < st.alm.maxOrder) (hM : p ≤ st.alm.maxOrder) (v : Vec 3) :
    ∃ d, meShift st e v = .ok d ∧ d.size = (p + 1) * (p + 1) ∧ ∀ n ≤ p, ∀ m : ℤ, |m| ≤ n → d.val (cell n m) = m2mC a v n m := by
  unfold meShift
  simp only [he.order, sph_r]
  obtain ⟨Y, hY, hYv⟩ := YlmTable.make_ok p (v.toSpherical3 2) (sph_sin_nonneg v)
  obtain ⟨pw, hpw, hps, hpv⟩ := powTable_spec (len3 v) p
  rw [hY, ok_bind, hpw, ok_bind]
  obtain ⟨d, h1, h2, h3⟩ := grid_rmw (p := p) (fun j (s : Arr ℂ × ℕ) =>
    loopZ (-(j : ℤ)) j (fun k (s : Arr ℂ × ℕ) => do
      let M ← meShiftCoeff st e Y pw j k
      let c ← s.1.wr s.2 M
      .ok (c, s.2 + 1)) s) (fun n m _ => m2mC a v n m) (fun n => n * n) (Arr.new e.coeffs.size) he.size
    (by
      intro n hn c' hc'
      obtain ⟨c'', g1, g2, g3⟩ := row_pos hn (fun k (s : Arr ℂ × ℕ) => do
        let M ← meShiftCoeff st e Y pw n k
        let c ← s.1.wr s.2 M
        .ok (c, s.2 + 1)) (fun m => m2mC a v n m) c' hc' (by
          intro m hm s
          rw [meShiftCoeff_ok hst he h0 hM v hYv hps hpv hn hm]; rfl)
      exact ⟨c'', g1, g2, g3⟩)
  refine ⟨d, ?_, h2, h3⟩
  have : ((Arr.new e.coeffs.size : Arr ℂ), 0 * 0) = (Arr.new e.coeffs.size, 0) := by simp
  rw [this] at h1
  rw [h1]; rfl

theorem meOfMes_ok (st : Stat3) (hst : st.Good) (c : Vec 3) (p : ℕ) (hp : p ≤ 42) (hp0 : 0 < p ∨ 0 < st.alm.maxOrder)
    (L : List (Exp3 × Vec 3 × (ℕ → ℤ → ℂ))) (hne : L ≠ []) (hL : ∀ x ∈ L, x.1.Is x.2.1 p x.2.2) :
    ∃ st' e, meOfMes st c (L.map (·.1)) = .ok (st', e) ∧ st'.Good ∧ p ≤ st'.alm.maxOrder ∧
      (p ≤ st.alm.maxOrder → st' = st) ∧
      e.Is c p (fun n m => (L.map fun x => m2mC x.2.2 (x.2.1 - c) n m).sum) := by
  obtain ⟨x0, L', rfl⟩ := List.exists_cons_of_ne_nil hne
  obtain ⟨st', e, h1, h2, h3, h4, h5⟩ := new_ok st hst c p hp
  unfold meOfMes
  rw [List.map_cons]
  simp only
  rw [(hL x0 (by simp)).order, h1, ok_bind, ← List.map_cons (f := Prod.fst), List.foldlM_map]
  simp only [h5.center, Vec.sub_eq]
  obtain ⟨d, g1, g2, g3⟩ := fold_cells (p := p) (fun (c' : Arr ℂ) (x : Exp3 × Vec 3 × (ℕ → ℤ → ℂ)) => do
      let sh ← meShift st' x.1 (x.1.center - c)
      Exp2.addCoeffs c' sh) (fun x n m => m2mC x.2.2 (x.2.1 - c) n m) (x0 :: L') (by
      intro x hx d hd
      obtain ⟨d', k1, k2, k3⟩ := meShift_ok h2 (hL x hx) (pos_of h3 h4 hp0) h3 (x.2.1 - c)
      rw [(hL x hx).center, k1, ok_bind, Exp2.addCoeffs_ok _ _ (by rw [hd, k2])]
      refine ⟨_, rfl, hd, fun n hn m hm => ?_⟩
      have : cell n m < d.size := by
        obtain ⟨b0, b1⟩ := lmIndex_bounds hm hn
        rw [hd]; unfold cell; omega
      simp only
      rw [if_pos this, k3 n hn m hm]) e.coeffs h5.size
  rw [g1, ok_bind]
  refine ⟨st', _, rfl, h2, h3, h4, h5.order, rfl, g2, fun n hn m hm => ?_⟩
  simp only
  rw [g3 n hn m hm, h5.val n hn m hm, zero_add]

theorem m2lCoeff_ok {st : Stat3} (hst : st.Good) {e : Exp3} {c : Vec 3} {p : ℕ} {a : ℕ → ℤ → ℂ} (he : e.Is c p a)
    (h0 : 0 < st.alm.maxOrder) (hM : p ≤ st.alm.maxOrder) {v : Vec 3} (hv : v ≠ 0) {Y : YlmTable}
    (hY : ∀ l ≤ 2 * p, ∀ m : ℤ, |m| ≤ l → Y.get l m = .ok (rY (dirV (v.toSpherical3 1) (v.toSpherical3 2)) l m))
    {pow : Arr ℝ} (hpow : pow.size = 2 * p + 1 + 1) (hpv : ∀ k ≤ 2 * p + 1, pow.val k = (1 / len3 v) ^ k) {j : ℕ} {k : ℤ}
    (hj : j ≤ p) (hk : |k| ≤ j) :
    m2lCoeff st p e Y pow j k = .ok (m2lC p a v j k) := by
  unfold m2lCoeff m2lC
  have hk' := hk
  rw [abs_le] at hk'
  rw [loopM_acc _ _ (fun n => (-1) ^ n * ∑ m ∈ Icc (-(n : ℤ)) n,
    ((sg2 k m * aSpec n m / aSpec (j + n) (m - k) : ℝ) : ℂ) * (a n m * (rY v (j + n) (m - k)
      / (len3 v : ℂ) ^ (2 * (j + n) + 1))))]
  · rw [ok_bind, AlmTable.get_ok hst.alm (by omega) (by omega) hk, ok_bind, zero_add]
  · intro n hn b
    rw [loopZ_acc _ _ _ (fun m => ((sg2 k m * aSpec n m / aSpec (j + n) (m - k) : ℝ) : ℂ)
      * (a n m * rY (dirV (v.toSpherical3 1) (v.toSpherical3 2)) (j + n) (m - k)))]
    · rw [ok_bind, Arr.rd_ok _ (by rw [hpow]; omega), ok_bind, hpv (j + n + 1) (by omega), zero_add, parSign_eq, mul_sum, mul_sum]
      congr 2
      refine sum_congr rfl fun m _ => ?_
      rw [← rY_dir hv (j + n) (m - k)]
      have e1 : (1 / len3 v) ^ (j + n + 1) = 1 / len3 v / len3 v ^ (j + n) := by
        rw [pow_succ, one_div_pow, div_div, mul_comm, ← div_eq_mul_one_div, div_div]
      rw [e1]; push_cast; ring
    · intro m hm1 hm2 b
      have hm : |m| ≤ n := by rw [abs_le]; omega
      have hkm : |m - k| ≤ ((j + n : ℕ) : ℤ) := by rw [abs_le]; push_cast; omega
      rw [SignTable.get_ok hst.s2 (by rw [hst.m2]; omega) (by rw [hst.m2]; omega) (by rw [hst.m2]; omega), ok_bind,
        AlmTable.get_ok hst.alm (by omega) (by omega) hm, ok_bind,
        AlmTable.get_ok hst.alm (by omega) (by omega) hkm, ok_bind, divR, if_neg (aSpec_ne_zero _ _), ok_bind,
        he.get (by omega) hm, ok_bind, hY (j + n) (by omega) (m - k) hkm, ok_bind]

theorem leOfMe_ok (st : Stat3) (hst : st.Good) {e : Exp3} {c : Vec 3} {p : ℕ} {a : ℕ → ℤ → ℂ} (he : e.Is c p a)
    (hp : p ≤ 42) (hp0 : 0 < p ∨ 0 < st.alm.maxOrder) (c' : Vec 3) (hc : c ≠ c') :
    ∃ st' f, leOfMe st c' e = .ok (st', f) ∧ st'.Good ∧ p ≤ st'.alm.maxOrder ∧ (p ≤ st.alm.maxOrder → st' = st) ∧
      f.Is c' p (m2lC p a (c - c')) := by
  obtain ⟨st', f, h1, h2, h3, h4, h5⟩ := new_ok st hst c' p hp
  unfold leOfMe
  rw [he.order, h1, ok_bind]
  simp only [h5.center, h5.order, he.center, Vec.sub_eq, sph_r]
  have hv0 : c - c' ≠ 0 := sub_ne_zero.mpr hc
  set v := c - c' with hv
  have hr0 : len3 v ≠ 0 := (len3_pos hv0).ne'
  obtain ⟨Y, hY, hYv⟩ := YlmTable.make_ok (2 * p) (v.toSpherical3 2) (sph_sin_nonneg v)
  obtain ⟨pw, hpw, hps, hpv⟩ := powTable_spec (1 / len3 v) (2 * p + 1)
  rw [hY, ok_bind, divR, if_neg hr0, ok_bind, hpw, ok_bind]
  obtain ⟨d, g1, g2, g3⟩ := grid_rmw1 (p := p) (fun j c =>
    loopZ (-(j : ℤ)) j (fun k c => do
      let L ← m2lCoeff st' p e Y pw j k
      c.wrZ (lmIndex j k) L) c) (fun n m _ => m2lC p a v n m) f.coeffs h5.size (by
      intro n hn c' hc'
      exact row_rmw hn _ (fun m _ => m2lC p a v n m) c' hc' fun m hm d hd => by
        rw [m2lCoeff_ok h2 he (pos_of h3 h4 hp0) h3 hv0 hYv hps hpv hn hm, ok_bind, wrZ_cell hd hn hm])
  rw [g1, ok_bind]
  exact ⟨st', _, rfl, h2, h3, h4, rfl, rfl, g2, g3⟩

theorem addEq_ok {e f : Exp3} {c : Vec 3} {p : ℕ} {a b : ℕ → ℤ → ℂ} (he : e.Is c p a) (hf : f.Is c p b) :
    ∃ g, addEq e f = .ok g ∧ g.Is c p (fun n m => a n m + b n m) := by
  unfold addEq
  rw [if_neg (by rw [he.size, hf.size, he.center, hf.center]; simp)]
  refine ⟨_, rfl, he.order, he.center, he.size, fun n hn m hm => ?_⟩
  have : cell n m < e.coeffs.size := by
    obtain ⟨b0, b1⟩ := lmIndex_bounds hm hn
    rw [he.size]; unfold cell; omega
  simp only
  rw [if_pos this, he.val n hn m hm, hf.val n hn m hm]

theorem leOfMes_ok (st : Stat3) (hst : st.Good) (c : Vec 3) (p : ℕ) (hp : p ≤ 42) (hp0 : 0 < p ∨ 0 < st.alm.maxOrder)
    (L : List (Exp3 × Vec 3 × (ℕ → ℤ → ℂ))) (hne : L ≠ []) (hL : ∀ x ∈ L, x.1.Is x.2.1 p x.2.2 ∧ x.2.1 ≠ c) :
    ∃ st' e, leOfMes st c (L.map (·.1)) = .ok (st', e) ∧ st'.Good ∧ p ≤ st'.alm.maxOrder ∧
      (p ≤ st.alm.maxOrder → st' = st) ∧
      e.Is c p (fun n m => (L.map fun x => m2lC p x.2.2 (x.2.1 - c) n m).sum) := by
  obtain ⟨x0, L', rfl⟩ := List.exists_cons_of_ne_nil hne
  obtain ⟨st', e, h1, h2, h3, h4, h5⟩ := new_ok st hst c p hp
  unfold leOfMes
  rw [List.map_cons]
  simp only
  rw [(hL x0 (by simp)).1.order, h1, ok_bind, ← List.map_cons (f := Prod.fst), List.foldlM_map]
  have key : ∀ (M : List (Exp3 × Vec 3 × (ℕ → ℤ → ℂ))), (∀ x ∈ M, x.1.Is x.2.1 p x.2.2 ∧ x.2.1 ≠ c) →
      ∀ (e : Exp3) (a : ℕ → ℤ → ℂ), e.Is c p a → ∃ f : Exp3,
      M.foldlM (fun (s : Stat3 × Exp3) (x : Exp3 × Vec 3 × (ℕ → ℤ → ℂ)) => do
        let (st, le) ← leOfMe s.1 c x.1
        let e ← addEq s.2 le
        .ok (st, e)) (st', e) = .ok (st', f) ∧
        f.Is c p (fun n m => a n m + (M.map fun x => m2lC p x.2.2 (x.2.1 - c) n m).sum) := by
    intro M hM
    induction M with
    | nil => exact fun e a he => ⟨e, rfl, he.congr fun n _ m _ => by simp⟩
    | cons x M ih =>
      intro e a he
      obtain ⟨st2, f, k1, -, -, k4, k5⟩ := leOfMe_ok st' h2 (hM x (by simp)).1 hp (Or.inr (pos_of h3 h4 hp0)) c (hM x (by simp)).2
      obtain rfl := k4 h3
      obtain ⟨g, k6, k7⟩ := addEq_ok he k5
      obtain ⟨f', k8, k9⟩ := ih (fun y hy => hM y (by simp [hy])) g _ k7
      refine ⟨f', ?_, k9.congr fun n _ m _ => ?_⟩
      · rw [List.foldlM_cons]
        simp only
        rw [k1, ok_bind]
        simp only
        rw [k6, ok_bind, ok_bind, k8]
      · rw [List.map_cons, List.sum_cons]; ring
  obtain ⟨f, g1, g2⟩ := key (x0 :: L') hL e _ h5
  exact ⟨st', f, g1, h2, h3, h4, g2.congr fun n _ m _ => zero_add _⟩

theorem leShiftCoeff_ok {st : Stat3} (hst : st.Good) {e : Exp3} {c : Vec 3} {p : ℕ} {a : ℕ → ℤ → ℂ} (he : e.Is c p a)
    (h0 : 0 < st.alm.maxOrder) (hM : p ≤ st.alm.maxOrder) (v : Vec 3) {Y : YlmTable}
    (hY : ∀ l ≤ 2 * p, ∀ m : ℤ, |m| ≤ l → Y.get l m = .ok (rY (dirV (v.toSpherical3 1) (v.toSpherical3 2)) l m))
    {pow : Arr ℝ} (hpow : pow.size = p + 1) (hpv : ∀ k ≤ p, pow.val k = len3 v ^ k) {j : ℕ} {k : ℤ} (hj : j ≤ p) (hk : |k| ≤ j) :
    leShiftCoeff st e Y pow j k = .ok (l2lC p a v j k) := by
  unfold leShiftCoeff l2lC
  have hk' := hk
  rw [abs_le] at hk'
  rw [he.order, sum_Ico_eq_sum_range]
  rw [loopM_acc _ _ (fun i => (-1) ^ (j + i + j) * ∑ m ∈ Icc (max (-((j + i : ℕ) : ℤ)) (k + j - (j + i : ℕ)))
      (min ((j + i : ℕ) : ℤ) (k + (j + i : ℕ) - j)),
    ((sg3 k m * aSpec (j + i - j) (m - k) / aSpec (j + i) m : ℝ) : ℂ) * (a (j + i) m * rY v (j + i - j) (m - k)))]
  · rw [ok_bind, AlmTable.get_ok hst.alm (by omega) (by omega) hk, ok_bind, zero_add]
  · intro i hi b
    simp only
    generalize hn : j + i = n
    rw [loopZ_acc _ _ _ (fun m => ((sg3 k m * aSpec (n - j) (m - k) / aSpec n m : ℝ) : ℂ)
      * (a n m * rY (dirV (v.toSpherical3 1) (v.toSpherical3 2)) (n - j) (m - k)))]
    · rw [ok_bind, Arr.rd_ok _ (by rw [hpow]; omega), ok_bind, hpv (n - j) (by omega), zero_add, parSign_eq, mul_sum, mul_sum]
      congr 2
      refine sum_congr rfl fun m _ => ?_
      rw [rY_sph v (n - j) (m - k)]; push_cast; ring
    · intro m hm1 hm2 b
      have hm : |m| ≤ n := by rw [abs_le]; omega
      have hkm : |m - k| ≤ ((n - j : ℕ) : ℤ) := by rw [abs_le]; omega
      rw [SignTable.get_ok hst.s3 (by rw [hst.m3]; omega) (by rw [hst.m3]; omega) (by rw [hst.m3]; omega), ok_bind,
        AlmTable.get_ok hst.alm (by omega) (by omega) hkm, ok_bind,
        AlmTable.get_ok hst.alm (by omega) (by omega) hm, ok_bind, divR, if_neg (aSpec_ne_zero _ _), ok_bind,
        he.get (by omega) hm, ok_bind, hY (n - j) (by omega) (m - k) hkm, ok_bind]

theorem leShift_ok {st : Stat3} (hst : st.Good) {e : Exp3} {c : Vec 3} {p : ℕ} {a : ℕ → ℤ → ℂ} (he : e.Is c p a)
    (h0 : 0 < st.alm.maxOrder) (hM : p ≤ st.alm.maxOrder) (v : Vec 3) :
    ∃ d, leShift st e v = .ok d ∧ d.size = (p + 1) * (p + 1) ∧ ∀ n ≤ p, ∀ m : ℤ, |m| ≤ n → d.val (cell n m) = l2lC p a v n m := by
  unfold leShift
  simp only [he.order, sph_r]
  obtain ⟨Y, hY, hYv⟩ := YlmTable.make_ok (2 * p) (v.toSpherical3 2) (sph_sin_nonneg v)
  obtain ⟨pw, hpw, hps, hpv⟩ := powTable_spec (len3 v) p
  rw [hY, ok_bind, hpw, ok_bind]
  obtain ⟨d, h1, h2, h3⟩ := grid_rmw (p := p) (fun j (s : Arr ℂ × ℕ) =>
    loopZ (-(j : ℤ)) j (fun k (s : Arr ℂ × ℕ) => do
      let M ← leShiftCoeff st e Y pw j k
      let c ← s.1.wr s.2 M
      .ok (c, s.2 + 1)) s) (fun n m _ => l2lC p a v n m) (fun n => n * n) (Arr.new e.coeffs.size) he.size
    (by
      intro n hn c' hc'
      obtain ⟨c'', g1, g2, g3⟩ := row_pos hn (fun k (s : Arr ℂ × ℕ) => do
        let M ← leShiftCoeff st e Y pw n k
        let c ← s.1.wr s.2 M
        .ok (c, s.2 + 1)) (fun m => l2lC p a v n m) c' hc' (by
          intro m hm s
          rw [leShiftCoeff_ok hst he h0 hM v hYv hps hpv hn hm]; rfl)
      exact ⟨c'', g1, g2, g3⟩)
  refine ⟨d, ?_, h2, h3⟩
  have : ((Arr.new e.coeffs.size : Arr ℂ), 0 * 0) = (Arr.new e.coeffs.size, 0) := by simp
  rw [this] at h1
  rw [h1]; rfl

theorem leOfLe_ok (st : Stat3) (hst : st.Good) {e : Exp3} {c : Vec 3} {p : ℕ} {a : ℕ → ℤ → ℂ} (he : e.Is c p a)
    (hp : p ≤ 42) (hp0 : 0 < p ∨ 0 < st.alm.maxOrder) (c' : Vec 3) :
    ∃ st' f, leOfLe st c' e = .ok (st', f) ∧ st'.Good ∧ p ≤ st'.alm.maxOrder ∧ (p ≤ st.alm.maxOrder → st' = st) ∧
      f.Is c' p (l2lC p a (c - c')) := by
  obtain ⟨st', f, h1, h2, h3, h4, h5⟩ := new_ok st hst c' p hp
  obtain ⟨d, g1, g2, g3⟩ := leShift_ok h2 he (pos_of h3 h4 hp0) h3 (c - c')
  unfold leOfLe
  rw [he.order, h1, ok_bind]
  simp only [h5.center, he.center, Vec.sub_eq]
  rw [g1, ok_bind]
  exact ⟨st', _, rfl, h2, h3, h4, h5.order, rfl, g2, g3⟩

end Exp3

/-! ## Meaning of the coefficients -/

theorem sum_Icc_neg {M : Type*} [AddCommMonoid M] (N : ℤ) (f : ℤ → M) : ∑ m ∈ Icc (-N) N, f (-m) = ∑ m ∈ Icc (-N) N, f m := by
  refine sum_bij' (fun m _ => -m) (fun m _ => -m) ?_ ?_ ?_ ?_ ?_
  · intro m hm; rw [mem_Icc] at hm ⊢; omega
  · intro m hm; rw [mem_Icc] at hm ⊢; omega
  · intro m _; exact neg_neg m
  · intro m _; exact neg_neg m
  · intro m _; rfl

theorem list_sum_mul {α : Type} (L : List α) (f : α → ℂ) (z : ℂ) : (L.map f).sum * z = (L.map fun x => f x * z).sum := by
  induction L with
  | nil => simp
  | cons x L ih => simp [add_mul, ih]

theorem mul_list_sum {α : Type} (L : List α) (f : α → ℂ) (z : ℂ) : z * (L.map f).sum = (L.map fun x => z * f x).sum := by
  induction L with
  | nil => simp
  | cons x L ih => simp [mul_add, ih]

theorem sum_list_sum {α ι : Type} (I : Finset ι) (L : List α) (f : ι → α → ℂ) :
    ∑ i ∈ I, (L.map (f i)).sum = (L.map fun x => ∑ i ∈ I, f i x).sum := by
  induction L with
  | nil => simp
  | cons x L ih => simp [sum_add_distrib, ih]

theorem rY_pair (n : ℕ) (s x : Vec 3) : ∑ m ∈ Icc (-(n : ℤ)) n, rY s n (-m) * rY x n m = sK n x s := by
  unfold sK
  refine sum_congr rfl fun m _ => ?_
  unfold rY
  rw [cN_neg, ← cN_sq]
  have h : (eS m : ℂ) * eS (-m) = (-1) ^ m := by
    rw [← Complex.ofReal_mul, eS_mul_neg]; push_cast; rfl
  linear_combination (cN n m : ℂ) * cN n m * sR s n (-m) * sR x n m * h

theorem meSum3_sources (c : Vec 3) (S : List (Source 3)) (p : ℕ) (v : Vec 3) :
    meSum3 (meCoeff3 c S) p v
      = (S.map fun s => (s.q : ℂ) * ∑ n ∈ range (p + 1), sK n v (s.pos - c) / (len3 v : ℂ) ^ (2 * n + 1)).sum := by
  unfold meSum3 meCoeff3
  simp only [list_sum_mul, sum_list_sum]
  congr 1
  refine List.map_congr_left fun s _ => ?_
  rw [mul_sum]
  refine sum_congr rfl fun n _ => ?_
  rw [← rY_pair, sum_div, mul_sum]
  exact sum_congr rfl fun m _ => by ring

theorem leSum3_sources (c : Vec 3) (S : List (Source 3)) (p : ℕ) (v : Vec 3) :
    leSum3 (leCoeff3 c S) p v = (S.map fun s => (s.q : ℂ) *
      ∑ n ∈ range (p + 1), sK n (s.pos - c) v / (len3 (s.pos - c) : ℂ) ^ (2 * n + 1)).sum := by
  unfold leSum3 leCoeff3
  simp only [list_sum_mul, sum_list_sum]
  congr 1
  refine List.map_congr_left fun s _ => ?_
  rw [mul_sum]
  refine sum_congr rfl fun n _ => ?_
  rw [sK_symm, ← rY_pair, sum_div, mul_sum]
  exact sum_congr rfl fun m _ => by ring

theorem cN_ne (n : ℕ) (m : ℤ) : (cN n m : ℂ) ≠ 0 := by exact_mod_cast (cN_pos n m).ne'

theorem neg_one_pow_ne (n : ℕ) : ((-1 : ℂ)) ^ n ≠ 0 := pow_ne_zero _ (by norm_num)

/-- The shift of a multipole expansion is exact: it yields the coefficients of the same sources about the new centre. -/
theorem m2mC_exact (h s : Vec 3) (q : ℝ) (j : ℕ) {k : ℤ} (hk : |k| ≤ j) :
    m2mC (fun n m => (q : ℂ) * rY s n (-m)) h j k = (q : ℂ) * rY (h + s) j (-k) := by
  unfold m2mC
  rw [div_eq_iff (by exact_mod_cast aSpec_ne_zero j k)]
  have hR : rY (h + s) j (-k) = (eS (-k) : ℂ) * cN j k * ∑ n ∈ range (j + 1), ∑ m ∈ Icc (-(j : ℤ)) j,
      sR h n (-m) * sR s (j - n) (m - k) := by
    unfold rY
    rw [cN_neg, sR_add h s j (-k) j le_rfl]
    congr 1
    refine sum_congr rfl fun n _ => ?_
    rw [← sum_Icc_neg]
    exact sum_congr rfl fun m _ => by rw [show -k - -m = m - k by ring]
  rw [hR, mul_sum, mul_sum, sum_mul]
  refine sum_congr rfl fun n hn => ?_
  rw [mem_range] at hn
  rw [mul_sum, mul_sum, sum_mul]
  have hk' := hk
  rw [abs_le] at hk'
  have hsub : Icc (max (-(n : ℤ)) (n + k - j)) (min (n : ℤ) (j + k - n)) ⊆ Icc (-(j : ℤ)) j := by
    intro m hm; rw [mem_Icc] at hm ⊢; omega
  rw [← sum_subset hsub]
  · refine sum_congr rfl fun m hm => ?_
    have hs1 : ((sg1 k m : ℝ) : ℂ) * eS (-m) * eS (m - k) = eS (-k) := by
      rw [← sg1_eq k m]; push_cast; rfl
    unfold rY
    simp only
    rw [show -(k - m) = m - k by ring, aSpec_eq, aSpec_eq, aSpec_eq, cN_neg, ← cN_neg (j - n) (m - k),
      show -(m - k) = k - m by ring]
    push_cast
    have e1 := cN_ne n m
    have e2 := cN_ne (j - n) (k - m)
    have e3 := cN_ne j k
    have e4 : ((-1 : ℂ)) ^ n * (-1) ^ (j - n) = (-1) ^ j := by rw [← pow_add]; congr 1; omega
    field_simp
    rw [← e4, ← hs1]
    ring
  · intro m hm1 hm2
    rw [mem_Icc] at hm1 hm2
    by_cases hmn : (n : ℤ) < |m|
    · rw [sR_out h n (-m) (by rwa [abs_neg])]; ring
    · rw [sR_out s (j - n) (m - k)]
      · ring
      · push Not at hmn
        rw [abs_le] at hmn
        rw [lt_abs]
        omega

theorem m2mC_sources (h c c' : Vec 3) (hh : h = c - c') (S : List (Source 3)) (j : ℕ) {k : ℤ} (hk : |k| ≤ j) :
    m2mC (meCoeff3 c S) h j k = meCoeff3 c' S j k := by
  have hlin : m2mC (meCoeff3 c S) h j k = (S.map fun s => m2mC (fun n m => (s.q : ℂ) * rY (s.pos - c) n (-m)) h j k).sum := by
    unfold m2mC meCoeff3
    simp only [list_sum_mul, mul_list_sum, sum_list_sum, div_eq_mul_inv]
  rw [hlin]
  unfold meCoeff3
  congr 1
  refine List.map_congr_left fun s _ => ?_
  rw [m2mC_exact _ _ _ _ hk, hh]
  congr 2
  abel

/-- The shift of a local expansion is exact: the polynomial is the same. -/
theorem l2lC_exact (p : ℕ) (a : ℕ → ℤ → ℂ) (h y : Vec 3) : leSum3 (l2lC p a h) p y = leSum3 a p (y - h) := by
  have hL : ∀ j ∈ range (p + 1), ∑ k ∈ Icc (-(j : ℤ)) j, l2lC p a h j k * rY y j k
      = ∑ n ∈ Ico j (p + 1), ∑ k ∈ Icc (-(p : ℤ)) p, ∑ m ∈ Icc (-(n : ℤ)) n,
        a n m * ((eS m : ℂ) * cN n m) * (sR y j k * sR (-h) (n - j) (m - k)) := by
    intro j hj
    rw [mem_range] at hj
    rw [sum_comm, ← sum_Icc_ext (N := (j : ℤ)) (M := (p : ℤ))]
    rotate_left
    · intro k hk; rw [rY_out y j k hk, mul_zero]
    · omega
    refine sum_congr rfl fun k _ => ?_
    by_cases hkj : (j : ℤ) < |k|
    · rw [rY_out y j k hkj, mul_zero]
      symm
      refine sum_eq_zero fun n _ => sum_eq_zero fun m _ => ?_
      rw [sR_out y j k hkj]; ring
    push Not at hkj
    rw [abs_le] at hkj
    unfold l2lC
    rw [mul_assoc, sum_mul, mul_sum]
    refine sum_congr rfl fun n hn => ?_
    rw [mem_Ico] at hn
    have hsub : Icc (max (-(n : ℤ)) (k + j - n)) (min (n : ℤ) (k + n - j)) ⊆ Icc (-(n : ℤ)) n := by
      intro m hm; rw [mem_Icc] at hm ⊢; omega
    rw [← sum_subset hsub]
    · rw [mul_sum, sum_mul, mul_sum]
      refine sum_congr rfl fun m _ => ?_
      have hs3 : ((sg3 k m : ℝ) : ℂ) * eS k * eS (m - k) * eS m = 1 := by
        have := sg3_eq k m
        exact_mod_cast this
      have hsq : (eS m : ℂ) * eS m = 1 := by
        have := eS_sq m
        exact_mod_cast this
      have hs3' : ((sg3 k m : ℝ) : ℂ) * eS k * eS (m - k) = eS m := by
        linear_combination (eS m : ℂ) * hs3 - ((sg3 k m : ℝ) : ℂ) * eS k * eS (m - k) * hsq
      rw [sR_neg]
      unfold rY
      rw [aSpec_eq, aSpec_eq, aSpec_eq]
      push_cast
      have e1 := cN_ne n m
      have e2 := cN_ne (n - j) (m - k)
      have e3 := cN_ne j k
      have e4 : ((-1 : ℂ)) ^ (n + j) = (-1) ^ (n - j) := by
        rw [show n + j = n - j + 2 * j by omega, pow_add, pow_mul]; simp
      have e5 : ((-1 : ℂ)) ^ n = (-1) ^ j * (-1) ^ (n - j) := by rw [← pow_add]; congr 1; omega
      have e6 : ((-1 : ℂ)) ^ j * (-1) ^ j = 1 := by rw [← pow_add, ← two_mul, pow_mul]; simp
      have e7 : ((-1 : ℂ)) ^ (n - j) * (-1) ^ (n - j) = 1 := by rw [← pow_add, ← two_mul, pow_mul]; simp
      have e8 := neg_one_pow_ne j
      have e9 := neg_one_pow_ne (n - j)
      rw [e4, e5, ← hs3']
      field_simp
    · intro m hm1 hm2
      rw [mem_Icc] at hm1 hm2
      rw [sR_out (-h) (n - j) (m - k)]
      · ring
      · rw [lt_abs]; omega
  unfold leSum3
  rw [sum_congr rfl hL, range_eq_Ico, sum_Ico_Ico_comm]
  refine sum_congr rfl fun n hn => ?_
  rw [mem_Ico] at hn
  have hx : ∀ m : ℤ, rY (y - h) n m = (eS m : ℂ) * cN n m * ∑ j ∈ range (n + 1), ∑ k ∈ Icc (-(p : ℤ)) p,
      sR y j k * sR (-h) (n - j) (m - k) := by
    intro m
    unfold rY
    rw [sub_eq_add_neg, sR_add y (-h) n m p (by omega)]
  simp only [hx]
  rw [← range_eq_Ico]
  simp only [mul_sum]
  rw [sum_comm (s := Icc (-(n : ℤ)) n)]
  refine sum_congr rfl fun j _ => ?_
  rw [sum_comm]
  exact sum_congr rfl fun k _ => sum_congr rfl fun m _ => by ring

/-- The conversion of the expansion of one source. -/
theorem m2lC_source (p : ℕ) (h s y : Vec 3) (q : ℝ) :
    leSum3 (m2lC p (fun n m => (q : ℂ) * rY s n (-m)) h) p y
      = (q : ℂ) * ∑ x ∈ range (p + 1) ×ˢ range (p + 1), sT (x.1 + x.2) x.1 y (-s) h / (len3 h : ℂ) ^ (2 * (x.1 + x.2) + 1) := by
  unfold leSum3
  rw [sum_product, mul_sum]
  refine sum_congr rfl fun j _ => ?_
  have hT : ∀ n : ℕ, sT (j + n) j y (-s) h = ∑ k ∈ Icc (-(j : ℤ)) j, ∑ m ∈ Icc (-(n : ℤ)) n,
      (-1) ^ (k - m) * fF (j + n) (k - m) * (sR y j k * sR (-s) n (-m)) * sR h (j + n) (m - k) := by
    intro n
    unfold sT
    rw [Nat.add_sub_cancel_left]
    have : ∀ μ ∈ Icc (-((j + n : ℕ) : ℤ)) ((j + n : ℕ) : ℤ),
        (-1 : ℂ) ^ μ * fF (j + n) μ * (∑ k ∈ Icc (-((j + n : ℕ) : ℤ)) ((j + n : ℕ) : ℤ), sR y j k * sR (-s) n (μ - k)) * sR h (j + n) (-μ)
        = ∑ k ∈ Icc (-(j : ℤ)) j, (-1 : ℂ) ^ μ * fF (j + n) μ * (sR y j k * sR (-s) n (μ - k)) * sR h (j + n) (-μ) := by
      intro μ _
      rw [sum_Icc_ext (N := (j : ℤ)) (fun k hk => by rw [sR_out y j k hk, zero_mul]) (by push_cast; omega), mul_sum, sum_mul]
    rw [sum_congr rfl this, sum_comm]
    refine sum_congr rfl fun k hk => ?_
    rw [mem_Icc] at hk
    have hsub : Icc (k - n) (k + n) ⊆ Icc (-((j + n : ℕ) : ℤ)) ((j + n : ℕ) : ℤ) := by
      intro μ hμ; rw [mem_Icc] at hμ ⊢; push_cast; omega
    rw [← sum_subset hsub]
    · refine sum_bij' (fun μ _ => k - μ) (fun m _ => k - m) ?_ ?_ ?_ ?_ ?_
      · intro μ hμ; rw [mem_Icc] at hμ ⊢; omega
      · intro μ hμ; rw [mem_Icc] at hμ ⊢; omega
      · intro μ _; ring
      · intro μ _; ring
      · intro μ _
        rw [show k - (k - μ) = μ by ring, show -(k - μ) = μ - k by ring, show k - μ - k = -μ by ring]
    · intro μ _ hμ
      rw [mem_Icc] at hμ
      rw [sR_out (-s) n (μ - k)]
      · ring
      · rw [lt_abs]; omega
  simp only [hT]
  rw [mul_sum]
  simp only [sum_div, mul_sum]
  rw [sum_comm (s := range (p + 1))]
  refine sum_congr rfl fun k _ => ?_
  unfold m2lC
  rw [sum_mul, sum_mul]
  refine sum_congr rfl fun n _ => ?_
  rw [mul_sum, sum_mul, sum_mul]
  refine sum_congr rfl fun m _ => ?_
  have hs2 : ((sg2 k m : ℝ) : ℂ) * eS k * eS (-m) * eS (m - k) = (-1) ^ (k - m) := by
    have h1 := congrArg (fun r : ℝ => (r : ℂ)) (sg2_eq k m)
    push_cast at h1
    exact h1
  rw [sR_neg]
  unfold rY
  simp only
  rw [aSpec_eq, aSpec_eq, aSpec_eq, ← hs2, cN_neg, ← fF_neg, show -(k - m) = m - k by ring, ← cN_sq]
  push_cast
  have e1 := cN_ne n m
  have e2 := cN_ne (j + n) (m - k)
  have e3 := cN_ne j k
  have e5 : ((-1 : ℂ)) ^ (j + n) = (-1) ^ j * (-1) ^ n := pow_add _ _ _
  have e8 := neg_one_pow_ne j
  have e9 := neg_one_pow_ne n
  rw [e5]
  generalize (len3 h : ℂ) ^ (2 * (j + n) + 1) = w
  by_cases hw : w = 0
  · simp [hw]
  field_simp

theorem m2lC_sources (p : ℕ) (c h : Vec 3) (S : List (Source 3)) (y : Vec 3) :
    leSum3 (m2lC p (meCoeff3 c S) h) p y = (S.map fun s => (s.q : ℂ) * ∑ x ∈ range (p + 1) ×ˢ range (p + 1),
      sT (x.1 + x.2) x.1 y (-(s.pos - c)) h / (len3 h : ℂ) ^ (2 * (x.1 + x.2) + 1)).sum := by
  have hlin : ∀ j k, m2lC p (meCoeff3 c S) h j k
      = (S.map fun s => m2lC p (fun n m => (s.q : ℂ) * rY (s.pos - c) n (-m)) h j k).sum := by
    intro j k
    unfold m2lC meCoeff3
    simp only [list_sum_mul, mul_list_sum, sum_list_sum]
  simp only [← m2lC_source]
  unfold leSum3
  simp only [hlin, list_sum_mul, sum_list_sum]

end FMM
