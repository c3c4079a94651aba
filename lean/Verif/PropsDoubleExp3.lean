import Verif.DoubleExp3

/-!
# C96: overflow of the powers of distances in the three-dimensional expansions

`double`s with infinities and NaN.  The library functions (spherical harmonics, sine, cosine, arc tangent) and the static tables are arbitrary: no
statement of this file depends on their values.
-/

namespace FMM.D64
open FMM Rounded
variable {L : Lib} {order : ℕ}

/-- Multipole expansions computed from `e0` and arbitrary others by translations. -/
inductive MFrom (L : Lib) (order : ℕ) (e0 : Coeffs) : Coeffs → Prop
  | refl : MFrom L order e0 e0
  | m2m (center : Vec 3) (E : List (Vec 3 × Coeffs)) (me : Vec 3 × Coeffs) : me ∈ E → MFrom L order e0 me.2 → MFrom L order e0 (m2m L order center E)

/-- Local expansions computed from `e0` and arbitrary others by translations and additions. -/
inductive LFrom (L : Lib) (order : ℕ) (e0 : Coeffs) : Coeffs → Prop
  | refl : LFrom L order e0 e0
  | l2l (e : Coeffs) (v : DVec 3) : LFrom L order e0 e → LFrom L order e0 (leShift L order e v)
  | add_left (e f : Coeffs) : LFrom L order e0 e → LFrom L order e0 (fun n m => cadd (e n m) (f n m))
  | add_right (e f : Coeffs) : LFrom L order e0 e → LFrom L order e0 (fun n m => cadd (f n m) (e n m))

theorem MFrom.bad {e0 e : Coeffs} (h : MFrom L order e0 e) {n : ℕ} (h0 : BadAt n e0) : BadAt n e := by
  induction h with
  | refl => exact h0
  | m2m center E me hme _ ih => exact sum_bad _ me hme (meShift_bad ih _)

theorem LFrom.bad {e0 e : Coeffs} (h : LFrom L order e0 e) {n : ℕ} (hn : n ≤ order) (h0 : BadAt n e0) : BadAt n e := by
  induction h with
  | refl => exact h0
  | l2l e v _ ih => exact leShift_bad ih hn v
  | add_left e f _ ih => exact fun m hm => (ih m hm).add_left _
  | add_right e f _ ih => exact fun m hm => (ih m hm).add_right _

/-- **C96** A source (whatever its strength) at a distance of at least `2^k` in some coordinate from the centre of its box, with `k n ≥ 1024` for an
`n ≤ order`: at every point, potential and force of the multipole expansion of the box and of all expansions translated from it are infinite or NaN; so are,
if the order is positive, those of every local expansion computed from one of these. -/
theorem C96_far_source {S : List (Source 3)} {s : Source 3} (hs : s ∈ S) {center : Vec 3} {i : Fin 3} {k n : ℕ}
    (h : (2 : ℝ) ^ (k : ℤ) ≤ |s.pos i - center i|) (hn : n ≤ order) (hk : 1024 ≤ k * n) {e : Coeffs}
    (he : MFrom L order (p2m L order center S) e) (c x : Vec 3) :
    NF (mePot L order c e x) ∧ (∀ j, NF (meForce L order c e x j)) ∧
    ∀ (E : List (Vec 3 × Coeffs)) (c' : Vec 3), (c', e) ∈ E → ∀ (center' : Vec 3) (f : Coeffs),
      LFrom L order (m2ls L order center' E) f → NF (lePot L order c f x) ∧ ∀ j, NF (leForce L order c f x j) := by
  have hb : BadAt n e := he.bad (p2m_bad hs (far_pow h hk))
  have hn1 : 1 ≤ n := by
    rcases Nat.eq_zero_or_pos n with h0 | h0
    · subst h0; omega
    · exact h0
  refine ⟨mePot_nf hn (Or.inl hb), meForce_nf hn (Or.inl hb), fun E c' hE center' f hf => ?_⟩
  have hl := hf.bad hn (sum_bad _ _ hE (m2l_bad hb hn n))
  exact ⟨lePot_nf hn (Or.inl hl), leForce_nf hn hn1 (Or.inl hl)⟩

/-- **C96** Conversion of a multipole expansion (whatever its coefficients) about a centre closer than `2^(-k-1)` in every coordinate,
`k (2 order + 1) ≥ 1024`: potential and force of the local expansion are infinite or NaN at every point, also after further translations and additions. -/
theorem C96_close_boxes {E : List (Vec 3 × Coeffs)} {me : Vec 3 × Coeffs} (hme : me ∈ E) {center : Vec 3} {k : ℕ} (hk : k ≤ 1021)
    (h : ∀ i, |me.1 i - center i| ≤ 2 ^ (-(k : ℤ) - 1)) (hp : 1 ≤ order) (hk' : 1024 ≤ k * (2 * order + 1)) {f : Coeffs}
    (hf : LFrom L order (m2ls L order center E) f) (c x : Vec 3) :
    NF (lePot L order c f x) ∧ ∀ j, NF (leForce L order c f x j) := by
  have hb : BadAt order f := hf.bad le_rfl (sum_bad _ me hme (m2l_close (n := order) (close_pow hk h (by
    rw [show order + order + 1 = 2 * order + 1 by ring]; exact hk')) le_rfl))
  exact ⟨lePot_nf le_rfl (Or.inl hb), leForce_nf le_rfl hp (Or.inl hb)⟩

/-- **C96** A source of a local expansion closer than `2^(-k-1)` to its centre in every coordinate, `k (order + 1) ≥ 1024`. -/
theorem C96_close_source {S : List (Source 3)} {s : Source 3} (hs : s ∈ S) {center : Vec 3} {k : ℕ} (hk : k ≤ 1021)
    (h : ∀ i, |s.pos i - center i| ≤ 2 ^ (-(k : ℤ) - 1)) (hp : 1 ≤ order) (hk' : 1024 ≤ k * (order + 1)) {f : Coeffs}
    (hf : LFrom L order (p2l L order center S) f) (c x : Vec 3) :
    NF (lePot L order c f x) ∧ ∀ j, NF (leForce L order c f x j) := by
  have hb : BadAt order f := hf.bad le_rfl (p2l_bad hs (close_ipow hk h hk'))
  exact ⟨lePot_nf le_rfl (Or.inl hb), leForce_nf le_rfl hp (Or.inl hb)⟩

/-- **C96** Translation by at least `2^k` in some coordinate: a multipole expansion if `k order ≥ 1024`, a local expansion if `k (order - 1) ≥ 1024`
(for the potential also if `k order ≥ 1024`), whatever its coefficients, all of them zero for example. -/
theorem C96_far_translation {c c' : Vec 3} {i : Fin 3} {k : ℕ} (h : (2 : ℝ) ^ (k : ℤ) ≤ |c i - c' i|) (e : Coeffs) (x : Vec 3) :
    (1024 ≤ k * order → ∀ y, NF (mePot L order y (m2m L order c' [(c, e)]) x) ∧ ∀ j, NF (meForce L order y (m2m L order c' [(c, e)]) x j)) ∧
    (1024 ≤ k * order → ∀ f, LFrom L order (leShift L order e (vsub c c')) f → ∀ y, NF (lePot L order y f x)) ∧
    (1024 ≤ k * (order - 1) → ∀ f, LFrom L order (leShift L order e (vsub c c')) f → ∀ y j, NF (leForce L order y f x j)) := by
  refine ⟨fun hk y => ?_, fun hk f hf y => ?_, fun hk f hf y j => ?_⟩
  · have hb : BadAt order (m2m L order c' [(c, e)]) := sum_bad _ (c, e) (by simp) (meShift_far (far_pow h hk) le_rfl)
    exact ⟨mePot_nf le_rfl (Or.inl hb), meForce_nf le_rfl (Or.inl hb)⟩
  · exact lePot_nf (Nat.zero_le _) (Or.inl (hf.bad (Nat.zero_le _) (leShift_far (far_pow h hk) (by omega))))
  · have : 2 ≤ order := by
      by_contra h0
      have : order - 1 = 0 := by omega
      rw [this] at hk; omega
    exact leForce_nf (n := 1) (by omega) le_rfl (Or.inl (hf.bad (by omega) (leShift_far (far_pow h hk) (by omega)))) j

/-- **C96** Evaluation of a multipole expansion closer than `2^(-k-1)` to its centre in every coordinate, and of a local expansion further than `2^k` in some
coordinate from its centre. -/
theorem C96_evaluation {c x : Vec 3} {k : ℕ} (e : Coeffs) :
    (k ≤ 1021 → (∀ i, |x i - c i| ≤ 2 ^ (-(k : ℤ) - 1)) → 1024 ≤ k * (order + 1) → NF (mePot L order c e x)) ∧
    (∀ i, (2 : ℝ) ^ (k : ℤ) ≤ |x i - c i| → (1024 ≤ k * order → NF (lePot L order c e x)) ∧
      (1024 ≤ k * (order - 1) → ∀ j, NF (leForce L order c e x j))) := by
  refine ⟨fun hk h hk' => mePot_nf le_rfl (Or.inr (close_ipow hk h hk')), fun i h => ⟨fun hk => lePot_nf le_rfl (Or.inr (far_pow h hk)), fun hk j => ?_⟩⟩
  have : 1 ≤ order := by
    by_contra h0
    have : order - 1 = 0 := by omega
    rw [this] at hk; omega
  exact leForce_nf le_rfl this (Or.inr (far_pow h hk)) j

/-- Order 42, the largest for which the tables are finite, a unit charge at a distance of `2^25` (of 33554 km, say): no value of its multipole expansion is
finite. -/
example (x v : Vec 3) (hv : v 0 = 2 ^ 25) (order : ℕ) (ho : order = 42) : NF (mePot L order 0 (p2m L order 0 [⟨v, 1⟩]) x) :=
  (C96_far_source (s := ⟨v, 1⟩) (by simp) (i := 0) (k := 25) (n := 41) (by norm_num [hv]) (by omega) (by norm_num) .refl 0 x).1

/-- Order 20, boxes at a distance of `2^(-26)` (15 nm, say): no value of the local expansion is finite. -/
example (e : Coeffs) (x v : Vec 3) (hv : v = ![1 / 2 ^ 26, 0, 0]) (order : ℕ) (ho : order = 20) (j : Fin 3) :
    NF (lePot L order 0 (m2ls L order 0 [(v, e)]) x) ∧ NF (leForce L order 0 (m2ls L order 0 [(v, e)]) x j) := by
  have := C96_close_boxes (L := L) (order := order) (E := [(v, e)]) (me := (v, e)) (by simp) (center := 0) (k := 25)
    (by norm_num) (by intro i; rw [hv]; fin_cases i <;> norm_num) (by omega) (by omega) .refl 0 x
  exact ⟨this.1, this.2 j⟩

end FMM.D64
