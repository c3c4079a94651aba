import Verif.Double

/-!
# The three-dimensional expansions in binary64 with infinities and NaN

The arithmetic of `multipole_expansion.hpp` and `local_expansion.hpp`, coefficient by coefficient, with the operations of `Double.lean`.
Index computations are the subject of `Exp3.lean`; here a coefficient array is a function of `(n, m)`, `|m| ≤ n ≤ order`.
The library functions and the static tables are arbitrary functions (`Lib`).
-/

namespace FMM.D64
open FMM Rounded

/-- `std::complex<double>`. -/
structure DC where
  re : Dbl
  im : Dbl

/-- `z + w` -/
noncomputable def cadd (z w : DC) : DC := ⟨add z.re w.re, add z.im w.im⟩

/-- `a * z` and `z * a` for a `double` `a` -/
noncomputable def rsc (a : Dbl) (z : DC) : DC := ⟨mul a z.re, mul a z.im⟩

/-- `z / a` for a `double` `a` -/
noncomputable def cdr (z : DC) (a : Dbl) : DC := ⟨div z.re a, div z.im a⟩

/-- `z * w` by the textbook formula, as with `-ffast-math`; without this option NaN results are replaced by infinities in some cases. -/
noncomputable def cmul (z w : DC) : DC :=
  ⟨add (mul z.re w.re) (neg (mul z.im w.im)), add (mul z.re w.im) (mul z.im w.re)⟩

noncomputable def czero : DC := ⟨.fin 0, .fin 0⟩

/-- Library functions and static tables. -/
structure Lib where
  /-- `θ` and `φ` of `toSpherical` -/
  ang : DVec 3 → Dbl × Dbl
  /-- `YlmTable(lmax, θ, φ)` -/
  ylm : ℕ → Dbl × Dbl → ℕ → ℤ → DC
  /-- `YlmDerivTable(lmax, θ, φ)`: `Y`, `dYdtheta`, `dYdphi` -/
  ylmD : ℕ → Dbl × Dbl → ℕ → ℤ → DC × DC × DC
  /-- `std::sin`, `std::cos` -/
  sin : Dbl → Dbl
  cos : Dbl → Dbl
  /-- the table of the `A_n^m` -/
  alm : ℕ → ℤ → Dbl
  /-- the three tables of signs -/
  sign1 : ℤ → ℤ → Dbl
  sign2 : ℤ → ℤ → Dbl
  sign3 : ℤ → ℤ → Dbl

/-- Coefficients of an expansion. -/
abbrev Coeffs := ℕ → ℤ → DC

/-- `PowTable<double>(x, nmax)` (fmm_tables.hpp:22-29) and the variables `r_pow` of the constructors and of local expansions. -/
noncomputable def pows (x : Dbl) : ℕ → Dbl
  | 0 => .fin 1
  | n + 1 => mul (pows x n) x

/-- `r_pow = first; ...; r_pow /= r`. -/
noncomputable def ipows (first r : Dbl) : ℕ → Dbl
  | 0 => first
  | n + 1 => div (ipows first r n) r

/-- `lo, …, hi`. -/
def zrange (lo hi : ℤ) : List ℤ := (List.range (hi + 1 - lo).toNat).map fun (i : ℕ) => lo + i

/-- `1` or `-1`: `n % 2 ? -1 : 1`. -/
noncomputable def parity (n : ℕ) : Dbl := .fin (if n % 2 = 0 then 1 else -1)

/-- The indices of a coefficient array. -/
def indices (order : ℕ) : List (ℕ × ℤ) := (List.range (order + 1)).flatMap fun (n : ℕ) => (zrange (-n) n).map fun m => (n, m)

variable (L : Lib)

/-- One source in the constructor, multipole_expansion.hpp:168-185. -/
noncomputable def p2mAdd (order : ℕ) (center : Vec 3) (c : Coeffs) (src : Source 3) : Coeffs :=
  let d := vsub src.pos center
  let r := norm3 d
  fun n m => cadd (c n m) (rsc (mul (.fin src.q) (pows r n)) (L.ylm order (L.ang d) n (-m)))

/-- `MultipoleExpansion(center, order, sources)`, multipole_expansion.hpp:163-186. -/
noncomputable def p2m (order : ℕ) (center : Vec 3) (sources : List (Source 3)) : Coeffs :=
  sources.foldl (p2mAdd L order center) fun _ _ => czero

/-- `MultipoleExpansion::shift`, multipole_expansion.hpp:209-245. -/
noncomputable def meShift (order : ℕ) (e : Coeffs) (shift : DVec 3) : Coeffs := fun j k =>
  let Y := L.ylm order (L.ang shift)
  let pow := pows (norm3 shift)
  cdr ((List.range (j + 1)).foldl (fun M n =>
    cadd M (rsc (pow n) ((zrange (max (-(n : ℤ)) (n + k - j)) (min (n : ℤ) (j + k - n))).foldl (fun acc m =>
      cadd acc (rsc (mul (mul (L.sign1 k m) (L.alm n m)) (L.alm (j - n) (k - m))) (cmul (e (j - n) (k - m)) (Y n (-m))))) czero))) czero) (L.alm j k)

/-- `MultipoleExpansion(center, expansions)`, multipole_expansion.hpp:188-201. -/
noncomputable def m2m (order : ℕ) (center : Vec 3) (expansions : List (Vec 3 × Coeffs)) : Coeffs :=
  expansions.foldl (fun c me => fun j k => cadd (c j k) (meShift L order me.2 (vsub me.1 center) j k)) fun _ _ => czero

/-- `MultipoleExpansion::evaluatePotential`, multipole_expansion.hpp:247-268. -/
noncomputable def mePot (order : ℕ) (center : Vec 3) (e : Coeffs) (x : Vec 3) : Dbl :=
  let d := vsub x center
  let r := norm3 d
  let Y := L.ylm order (L.ang d)
  neg ((indices order).foldl (fun pot nm =>
    cadd pot (cmul (rsc (ipows (div (.fin 1) r) r nm.1) (e nm.1 nm.2)) (Y nm.1 nm.2))) czero).re

/-- `toCartesianBasis`, vector.hpp:158-174. -/
noncomputable def toBasis (v : DVec 3) (a : Dbl × Dbl) : DVec 3 :=
  let st := L.sin a.1
  let ct := L.cos a.1
  let sp := L.sin a.2
  let cp := L.cos a.2
  ![add (mul cp (add (mul st (v 0)) (mul ct (v 1)))) (neg (mul sp (v 2))),
    add (mul sp (add (mul st (v 0)) (mul ct (v 1)))) (mul cp (v 2)),
    add (mul ct (v 0)) (neg (mul st (v 1)))]

/-- One summand of the three components of the force, multipole_expansion.hpp:288-297 and local_expansion.hpp:371-378. -/
noncomputable def forceTerm (Y : DC × DC × DC) (theta rpow : Dbl) (sub : Bool) (k : ℕ) (a : DC) (f : DVec 3) : DVec 3 :=
  let t := mul (mul rpow (.fin k)) (cmul a Y.1).re
  ![add (f 0) (if sub then neg t else t), add (f 1) (mul rpow (cmul a Y.2.1).re),
    add (f 2) (div (mul rpow (cmul a Y.2.2).re) (L.sin theta))]

/-- `MultipoleExpansion::evaluateForcefield`, multipole_expansion.hpp:270-304, for directions that GSL accepts. -/
noncomputable def meForce (order : ℕ) (center : Vec 3) (e : Coeffs) (x : Vec 3) : DVec 3 :=
  let d := vsub x center
  let r := norm3 d
  let Y := L.ylmD order (L.ang d)
  toBasis L ((indices order).foldl (fun f nm =>
    forceTerm L (Y nm.1 nm.2) (L.ang d).1 (ipows (div (.fin 1) (mul r r)) r nm.1) true (nm.1 + 1) (e nm.1 nm.2) f) (vzero 3)) (L.ang d)

/-- One source in the constructor of a local expansion, local_expansion.hpp:215-232. -/
noncomputable def p2lAdd (order : ℕ) (center : Vec 3) (c : Coeffs) (src : Source 3) : Coeffs :=
  let d := vsub src.pos center
  let r := norm3 d
  fun n m => cadd (c n m) (rsc (mul (.fin src.q) (ipows (div (.fin 1) r) r n)) (L.ylm order (L.ang d) n (-m)))

/-- `LocalExpansion(center, order, sources)`, local_expansion.hpp:210-233. -/
noncomputable def p2l (order : ℕ) (center : Vec 3) (sources : List (Source 3)) : Coeffs :=
  sources.foldl (p2lAdd L order center) fun _ _ => czero

/-- `LocalExpansion(center, const ME& incoming)`, local_expansion.hpp:244-279. -/
noncomputable def m2l (order : ℕ) (center : Vec 3) (incoming : Vec 3 × Coeffs) : Coeffs := fun j k =>
  let d := vsub incoming.1 center
  let Y := L.ylm (2 * order) (L.ang d)
  let pow := pows (div (.fin 1) (norm3 d))
  rsc (L.alm j k) ((List.range (order + 1)).foldl (fun Ljk n =>
    cadd Ljk (rsc (mul (parity n) (pow (j + n + 1))) ((zrange (-(n : ℤ)) n).foldl (fun acc m =>
      cadd acc (rsc (div (mul (L.sign2 k m) (L.alm n m)) (L.alm (j + n) (m - k))) (cmul (incoming.2 n m) (Y (j + n) (m - k))))) czero))) czero)

/-- `LocalExpansion(center, expansions)`, local_expansion.hpp:235-242: the sum of the conversions. -/
noncomputable def m2ls (order : ℕ) (center : Vec 3) (expansions : List (Vec 3 × Coeffs)) : Coeffs :=
  expansions.foldl (fun c me => fun j k => cadd (c j k) (m2l L order center me j k)) fun _ _ => czero

/-- `LocalExpansion::shift`, local_expansion.hpp:295-333. -/
noncomputable def leShift (order : ℕ) (e : Coeffs) (shift : DVec 3) : Coeffs := fun j k =>
  let Y := L.ylm (2 * order) (L.ang shift)
  let pow := pows (norm3 shift)
  rsc (L.alm j k) (((List.range (order + 1 - j)).map (j + ·)).foldl (fun Ljk n =>
    cadd Ljk (rsc (mul (parity (n + j)) (pow (n - j))) ((zrange (max (-(n : ℤ)) (k + j - n)) (min (n : ℤ) (k + n - j))).foldl (fun acc m =>
      cadd acc (rsc (div (mul (L.sign3 k m) (L.alm (n - j) (m - k))) (L.alm n m)) (cmul (e n m) (Y (n - j) (m - k))))) czero))) czero)

/-- `LocalExpansion::evaluatePotential`, local_expansion.hpp:335-357. -/
noncomputable def lePot (order : ℕ) (center : Vec 3) (e : Coeffs) (x : Vec 3) : Dbl :=
  let d := vsub x center
  let Y := L.ylm order (L.ang d)
  neg ((indices order).foldl (fun pot nm =>
    cadd pot (cmul (rsc (pows (norm3 d) nm.1) (e nm.1 nm.2)) (Y nm.1 nm.2))) czero).re

/-- `LocalExpansion::evaluateForcefield`, local_expansion.hpp:359-393, for directions that GSL accepts. -/
noncomputable def leForce (order : ℕ) (center : Vec 3) (e : Coeffs) (x : Vec 3) : DVec 3 :=
  let d := vsub x center
  let Y := L.ylmD order (L.ang d)
  toBasis L (((indices order).filter fun nm => 1 ≤ nm.1).foldl (fun f nm =>
    forceTerm L (Y nm.1 nm.2) (L.ang d).1 (pows (norm3 d) (nm.1 - 1)) false nm.1 (e nm.1 nm.2) f) (vzero 3)) (L.ang d)

/-! ## Values that are not finite -/

/-- Infinite or NaN. -/
def NF : Dbl → Prop
  | .fin _ => False
  | _ => True

/-- Neither part is finite. -/
def CNF (z : DC) : Prop := NF z.re ∧ NF z.im

theorem nf_iff {a : Dbl} : NF a ↔ ∀ y, a ≠ .fin y := by
  cases a <;> simp [NF]

theorem NF.add_left {a : Dbl} (h : NF a) (b : Dbl) : NF (add a b) := by
  cases a with
  | fin _ => exact absurd h id
  | inf s => cases b with
    | fin _ => trivial
    | inf t => unfold add; by_cases h : s = t <;> simp [h, NF]
    | nan => trivial
  | nan => cases b <;> trivial

theorem NF.add_right {b : Dbl} (h : NF b) (a : Dbl) : NF (add a b) := by
  cases b with
  | fin _ => exact absurd h id
  | inf s => cases a with
    | fin _ => trivial
    | inf t => unfold add; by_cases h : t = s <;> simp [h, NF]
    | nan => trivial
  | nan => cases a <;> trivial

theorem NF.neg {a : Dbl} (h : NF a) : NF (neg a) := by
  cases a with
  | fin _ => exact absurd h id
  | inf s => trivial
  | nan => trivial

theorem NF.mul_left {a : Dbl} (h : NF a) (b : Dbl) : NF (mul a b) := by
  cases a with
  | fin _ => exact absurd h id
  | inf s => cases b with
    | fin y => unfold mul; by_cases h : y = 0 <;> simp [h, NF]
    | inf t => trivial
    | nan => trivial
  | nan => cases b <;> trivial

theorem NF.mul_right {b : Dbl} (h : NF b) (a : Dbl) : NF (mul a b) := by
  cases b with
  | fin _ => exact absurd h id
  | inf s => cases a with
    | fin y => unfold mul; by_cases h : y = 0 <;> simp [h, NF]
    | inf t => trivial
    | nan => trivial
  | nan => cases a <;> trivial

theorem NF.div {a : Dbl} (h : NF a) (b : Dbl) : NF (div a b) := by
  cases a with
  | fin _ => exact absurd h id
  | inf s => cases b <;> trivial
  | nan => cases b <;> trivial

theorem CNF.add_left {z : DC} (h : CNF z) (w : DC) : CNF (cadd z w) := ⟨h.1.add_left _, h.2.add_left _⟩

theorem CNF.add_right {w : DC} (h : CNF w) (z : DC) : CNF (cadd z w) := ⟨h.1.add_right _, h.2.add_right _⟩

theorem CNF.rsc {z : DC} (h : CNF z) (a : Dbl) : CNF (rsc a z) := ⟨h.1.mul_right _, h.2.mul_right _⟩

theorem NF.rsc {a : Dbl} (h : NF a) (z : DC) : CNF (D64.rsc a z) := ⟨h.mul_left _, h.mul_left _⟩

theorem CNF.cdr {z : DC} (h : CNF z) (a : Dbl) : CNF (cdr z a) := ⟨h.1.div _, h.2.div _⟩

theorem CNF.cmul {z : DC} (h : CNF z) (w : DC) : CNF (cmul z w) := ⟨(h.1.mul_left _).add_left _, (h.1.mul_left _).add_left _⟩

/-- Once a sum is not finite, it remains so. -/
theorem foldl_keeps {α β : Type} (P : β → Prop) (f : β → α → β) (h : ∀ b a, P b → P (f b a)) (l : List α) (b : β) (hb : P b) : P (l.foldl f b) := by
  induction l generalizing b with
  | nil => exact hb
  | cons a l ih => exact ih _ (h b a hb)

/-- One bad summand is enough. -/
theorem foldl_hits {α β : Type} (P : β → Prop) (f : β → α → β) (h : ∀ b a, P b → P (f b a)) (l : List α) (a : α) (ha : a ∈ l)
    (hit : ∀ b, P (f b a)) (b : β) : P (l.foldl f b) := by
  induction l generalizing b with
  | nil => simp at ha
  | cons c l ih =>
    rcases List.mem_cons.mp ha with rfl | ha
    · exact foldl_keeps P f h l _ (hit b)
    · exact ih ha _

theorem csum_hit {α : Type} (f : α → DC) (l : List α) (a : α) (ha : a ∈ l) (h : CNF (f a)) (b : DC) : CNF (l.foldl (fun z a => cadd z (f a)) b) :=
  foldl_hits CNF _ (fun _ _ hz => hz.add_left _) l a ha (fun _ => h.add_right _) b

theorem mem_zrange {lo hi m : ℤ} : m ∈ zrange lo hi ↔ lo ≤ m ∧ m ≤ hi := by
  unfold zrange
  rw [List.mem_map]
  constructor
  · rintro ⟨i, hi', rfl⟩
    rw [List.mem_range] at hi'
    omega
  · rintro ⟨h1, h2⟩
    refine ⟨(m - lo).toNat, ?_, ?_⟩
    · rw [List.mem_range]; omega
    · omega

theorem mem_indices {order n : ℕ} {m : ℤ} : (n, m) ∈ indices order ↔ n ≤ order ∧ |m| ≤ n := by
  unfold indices
  rw [List.mem_flatMap]
  constructor
  · rintro ⟨k, hk, h⟩
    obtain ⟨m', hm', e⟩ := List.mem_map.mp h
    rw [mem_zrange] at hm'
    rw [List.mem_range] at hk
    cases e
    rw [abs_le]
    exact ⟨by omega, hm'⟩
  · rintro ⟨h1, h2⟩
    rw [abs_le] at h2
    exact ⟨n, by rw [List.mem_range]; omega, List.mem_map.mpr ⟨m, mem_zrange.mpr h2, rfl⟩⟩

/-- All coefficients of one degree are not finite. -/
def BadAt (n : ℕ) (e : Coeffs) : Prop := ∀ m : ℤ, |m| ≤ n → CNF (e n m)

/-! ## The translations keep such a degree -/

variable {L} {order n : ℕ} {center : Vec 3} {e : Coeffs}

theorem meShift_bad (h : BadAt n e) (v : DVec 3) : BadAt n (meShift L order e v) := by
  intro k hk
  unfold meShift
  refine CNF.cdr ?_ _
  refine csum_hit (α := ℕ) _ _ 0 (by simp) (CNF.rsc ?_ _) _
  rw [abs_le] at hk
  refine csum_hit _ _ 0 (mem_zrange.mpr ?_) (CNF.rsc (CNF.cmul ?_ _) _) _
  · push_cast; omega
  · rw [Nat.sub_zero, sub_zero]; exact h k (abs_le.mpr hk)

theorem leShift_bad (h : BadAt n e) (hn : n ≤ order) (v : DVec 3) : BadAt n (leShift L order e v) := by
  intro k hk
  unfold leShift
  refine CNF.rsc ?_ _
  refine csum_hit _ _ n ?_ (CNF.rsc ?_ _) _
  · rw [List.mem_map]; exact ⟨0, by rw [List.mem_range]; omega, by simp⟩
  · have hk' := abs_le.mp hk
    refine csum_hit _ _ k (mem_zrange.mpr ?_) (CNF.rsc (CNF.cmul ?_ _) _) _
    · omega
    · exact h k hk

/-- A conversion spreads it to all degrees. -/
theorem m2l_bad {c : Vec 3} (h : BadAt n e) (hn : n ≤ order) (j : ℕ) : BadAt j (m2l L order center (c, e)) := by
  intro k _
  unfold m2l
  refine CNF.rsc ?_ _
  refine csum_hit _ _ n (by rw [List.mem_range]; omega) (CNF.rsc ?_ _) _
  refine csum_hit _ _ 0 (mem_zrange.mpr (by omega)) (CNF.rsc (CNF.cmul ?_ _) _) _
  exact h 0 (by simp)

theorem sum_bad {E : List (Vec 3 × Coeffs)} (f : Vec 3 × Coeffs → Coeffs) (me : Vec 3 × Coeffs) (hme : me ∈ E) (h : BadAt n (f me)) :
    BadAt n (E.foldl (fun c me => fun j k => cadd (c j k) (f me j k)) fun _ _ => czero) :=
  foldl_hits (BadAt n) _ (fun _ _ hc k hk => (hc k hk).add_left _) E me hme (fun _ k hk => (h k hk).add_right _) _

/-! ## Evaluation -/

theorem pot_nf (f : ℕ → Dbl) (Y : ℕ → ℤ → DC) (n : ℕ) (hn : n ≤ order) (h : BadAt n e ∨ NF (f n)) :
    NF (neg ((indices order).foldl (fun pot nm => cadd pot (cmul (rsc (f nm.1) (e nm.1 nm.2)) (Y nm.1 nm.2))) czero).re) := by
  refine NF.neg ?_
  refine (csum_hit _ _ (n, 0) (mem_indices.mpr ⟨hn, by simp⟩) (CNF.cmul ?_ _) _).1
  rcases h with h | h
  · exact (h 0 (by simp)).rsc _
  · exact h.rsc _

/-- No component is finite. -/
def VNF (v : DVec 3) : Prop := ∀ j, NF (v j)

theorem toBasis_nf {v : DVec 3} (h : VNF v) (a : Dbl × Dbl) (j : Fin 3) : NF (toBasis L v a j) := by
  unfold toBasis
  match j with
  | 0 => exact (((h 0).mul_right _).add_left _ |>.mul_right _).add_left _
  | 1 => exact (((h 0).mul_right _).add_left _ |>.mul_right _).add_left _
  | 2 => exact ((h 0).mul_right _).add_left _

theorem forceTerm_keeps (Y : DC × DC × DC) (t r : Dbl) (s : Bool) (k : ℕ) (a : DC) {f : DVec 3} (h : VNF f) : VNF (forceTerm L Y t r s k a f) := by
  intro j
  unfold forceTerm
  match j with
  | 0 => exact (h 0).add_left _
  | 1 => exact (h 1).add_left _
  | 2 => exact (h 2).add_left _

theorem forceTerm_hit (Y : DC × DC × DC) (t r : Dbl) (s : Bool) (k : ℕ) (a : DC) (h : CNF a ∨ NF r) (f : DVec 3) :
    VNF (forceTerm L Y t r s k a f) := by
  have key : ∀ w, NF (mul r (cmul a w).re) := by
    intro w
    rcases h with h | h
    · exact (h.cmul w).1.mul_right _
    · exact h.mul_left _
  have key0 : NF (mul (mul r (.fin k)) (cmul a Y.1).re) := by
    rcases h with h | h
    · exact (h.cmul _).1.mul_right _
    · exact (h.mul_left _).mul_left _
  intro j
  unfold forceTerm
  match j with
  | 0 =>
    cases s
    · exact key0.add_right _
    · exact key0.neg.add_right _
  | 1 => exact (key _).add_right _
  | 2 => exact ((key _).div _).add_right _

/-! ## Powers -/

/-- Not finite, or at least `2^k`. -/
def Big (k : ℤ) (x : Dbl) : Prop := NF x ∨ ∃ y, x = .fin y ∧ (2 : ℝ) ^ k ≤ |y|

theorem Big.nf {k : ℤ} {x : ℝ} (h : Big k (rnd64 x)) (hk : 1024 ≤ k) : NF (rnd64 x) := by
  rcases h with h | ⟨y, h1, h2⟩
  · exact h
  · exfalso
    have h3 : |y| < 2 ^ (1024 : ℤ) := by
      unfold rnd64 at h1
      dsimp only at h1
      by_cases h4 : |if |x| < 2 ^ (-1022 : ℤ) then (Rounded.roundEven (x / 2 ^ (-1074 : ℤ)) : ℝ) * 2 ^ (-1074 : ℤ) else rndNE x| < 2 ^ (1024 : ℤ)
      · rw [if_pos h4] at h1
        injection h1 with h1
        rw [← h1]; exact h4
      · rw [if_neg h4] at h1; simp at h1
    exact absurd (h3.trans_le (two_pow_mono hk)) (not_lt.mpr h2)

theorem big_rnd {k : ℤ} {x : ℝ} (h : (2 : ℝ) ^ k ≤ |x|) (hk : -1022 ≤ k) : Big k (rnd64 x) := by
  rcases rnd64_ge h hk with h | h
  · left; rw [h]; trivial
  · right; exact h

/-- Small, of course finite. -/
def Small (k : ℤ) (x : Dbl) : Prop := ∃ y, x = .fin y ∧ |y| ≤ 2 ^ k

theorem Big.mul {k l : ℤ} {a b : Dbl} (ha : Big k a) (hb : Big l b) (h : -1022 ≤ k + l) : Big (k + l) (mul a b) ∧ (1024 ≤ k + l → NF (D64.mul a b)) := by
  rcases ha with ha | ⟨x, rfl, hx⟩
  · exact ⟨Or.inl (ha.mul_left _), fun _ => ha.mul_left _⟩
  · rcases hb with hb | ⟨y, rfl, hy⟩
    · exact ⟨Or.inl (hb.mul_right _), fun _ => hb.mul_right _⟩
    · have h1 : (2 : ℝ) ^ (k + l) ≤ |x * y| := by
        rw [abs_mul, zpow_add₀ (by norm_num)]
        exact mul_le_mul hx hy (two_pow_pos _).le (abs_nonneg _)
      have h2 := big_rnd h1 h
      exact ⟨h2, fun h3 => h2.nf h3⟩

theorem Big.div {k l : ℤ} {a b : Dbl} (ha : Big k a) (hb : Small (-l) b) (h : -1022 ≤ k + l) : Big (k + l) (div a b) ∧ (1024 ≤ k + l → NF (D64.div a b)) := by
  obtain ⟨y, rfl, hy⟩ := hb
  rcases ha with ha | ⟨x, rfl, hx⟩
  · exact ⟨Or.inl (ha.div _), fun _ => ha.div _⟩
  · by_cases h0 : y = 0
    · have : NF (D64.div (.fin x) (.fin y)) := by
        unfold D64.div
        dsimp only
        rw [if_pos h0]
        by_cases hx0 : x = 0 <;> simp [hx0, NF]
      exact ⟨Or.inl this, fun _ => this⟩
    · have h1 : (2 : ℝ) ^ (k + l) ≤ |x / y| := by
        rw [abs_div, le_div_iff₀ (abs_pos.mpr h0)]
        calc (2 : ℝ) ^ (k + l) * |y| ≤ 2 ^ (k + l) * 2 ^ (-l) := mul_le_mul_of_nonneg_left hy (two_pow_pos _).le
          _ = 2 ^ k := by rw [← zpow_add₀ (by norm_num)]; congr 1; ring
          _ ≤ |x| := hx
      have e : D64.div (.fin x) (.fin y) = rnd64 (x / y) := by
        unfold D64.div; dsimp only; rw [if_neg h0]
      have h2 := big_rnd h1 h
      rw [e]
      exact ⟨h2, fun h3 => h2.nf h3⟩

theorem big_one : Big 0 (.fin 1) := Or.inr ⟨1, rfl, by norm_num⟩

theorem pows_big {x : Dbl} {k : ℕ} (hx : Big k x) (n : ℕ) : Big ((k * n : ℕ) : ℤ) (pows x n) := by
  induction n with
  | zero => rw [mul_zero]; exact big_one
  | succ n ih =>
    have := (ih.mul hx (by positivity |> fun h : (0 : ℤ) ≤ ((k * n : ℕ) : ℤ) + k => by omega)).1
    have e : ((k * (n + 1) : ℕ) : ℤ) = ((k * n : ℕ) : ℤ) + k := by push_cast; ring
    rw [e]; exact this

theorem pows_nf {x : Dbl} {k : ℕ} (hx : Big k x) {n : ℕ} (hn : 1024 ≤ k * n) : NF (pows x n) := by
  cases n with
  | zero => omega
  | succ n =>
    refine ((pows_big hx n).mul hx ?_).2 ?_
    · have : (0 : ℤ) ≤ ((k * n : ℕ) : ℤ) + k := by positivity
      omega
    · have e : ((k * (n + 1) : ℕ) : ℤ) = ((k * n : ℕ) : ℤ) + k := by push_cast; ring
      rw [← e]; exact_mod_cast hn

theorem ipows_big {first r : Dbl} {k l : ℕ} (hf : Big l first) (hr : Small (-(k : ℤ)) r) (n : ℕ) : Big ((k * n + l : ℕ) : ℤ) (ipows first r n) := by
  induction n with
  | zero => rw [mul_zero, zero_add]; exact hf
  | succ n ih =>
    have h0 : (0 : ℤ) ≤ ((k * n + l : ℕ) : ℤ) + k := by positivity
    have := (ih.div hr (by omega)).1
    have e : ((k * (n + 1) + l : ℕ) : ℤ) = ((k * n + l : ℕ) : ℤ) + k := by push_cast; ring
    rw [e]; exact this

theorem ipows_nf {first r : Dbl} {k l : ℕ} (hf : Big l first) (hf' : 1024 ≤ l → NF first) (hr : Small (-(k : ℤ)) r) {n : ℕ} (hn : 1024 ≤ k * n + l) :
    NF (ipows first r n) := by
  cases n with
  | zero => exact hf' (by omega)
  | succ n =>
    have h0 : (0 : ℤ) ≤ ((k * n + l : ℕ) : ℤ) + k := by positivity
    refine ((ipows_big hf hr n).div hr (by omega)).2 ?_
    have e : ((k * (n + 1) + l : ℕ) : ℤ) = ((k * n + l : ℕ) : ℤ) + k := by push_cast; ring
    rw [← e]; exact_mod_cast hn

/-- The reciprocal of a small number. -/
theorem inv_big {r : Dbl} {k : ℕ} (hr : Small (-(k : ℤ)) r) : Big k (div (.fin 1) r) ∧ (1024 ≤ k → NF (div (.fin 1) r)) := by
  have := big_one.div hr (by omega)
  rw [zero_add] at this
  exact ⟨this.1, fun h => this.2 (by exact_mod_cast h)⟩

/-! ## Lengths -/

theorem vec3_eta (v : Vec 3) : ![v 0, v 1, v 2] = v := by
  funext j
  match j with
  | 0 => rfl
  | 1 => rfl
  | 2 => rfl

theorem norm3_of_fin (v : Vec 3) : norm3 (fun j => .fin (v j)) = rnd64 (Vec.norm v) := by
  show rnd64 (Vec.norm ![v 0, v 1, v 2]) = _
  rw [vec3_eta]

theorem abs_le_norm3 (v : Vec 3) (i : Fin 3) : |v i| ≤ Vec.norm v := by
  have e : Vec.norm v = √(v 0 ^ 2 + v 1 ^ 2 + v 2 ^ 2) := rfl
  rw [e]
  refine Real.abs_le_sqrt ?_
  match i with
  | 0 => nlinarith [sq_nonneg (v 1), sq_nonneg (v 2)]
  | 1 => nlinarith [sq_nonneg (v 0), sq_nonneg (v 2)]
  | 2 => nlinarith [sq_nonneg (v 0), sq_nonneg (v 1)]

theorem norm3_le {v : Vec 3} {P : ℝ} (hP : 0 ≤ P) (h : ∀ j, |v j| ≤ P) : Vec.norm v ≤ 2 * P := by
  have e : Vec.norm v = √(v 0 ^ 2 + v 1 ^ 2 + v 2 ^ 2) := rfl
  have q := fun j => sq_le_sq' (abs_le.mp (h j)).1 (abs_le.mp (h j)).2
  rw [e, Real.sqrt_le_left (by linarith)]
  have q0 := q 0
  have q1 := q 1
  have q2 := q 2
  nlinarith [sq_nonneg P]

/-- Distant points. -/
theorem norm3_big (v w : Vec 3) (i : Fin 3) {k : ℕ} (h : (2 : ℝ) ^ (k : ℤ) ≤ |v i - w i|) : Big k (norm3 (vsub v w)) := by
  have hv : ∀ j, (∃ y, vsub v w j = .fin y) ∨ ∃ s, vsub v w j = .inf s := by
    intro j
    unfold vsub rnd64
    dsimp only
    by_cases h1 : |if |v j - w j| < 2 ^ (-1022 : ℤ) then (Rounded.roundEven ((v j - w j) / 2 ^ (-1074 : ℤ)) : ℝ) * 2 ^ (-1074 : ℤ) else rndNE (v j - w j)| < 2 ^ (1024 : ℤ)
    · rw [if_pos h1]; exact Or.inl ⟨_, rfl⟩
    · rw [if_neg h1]; exact Or.inr ⟨_, rfl⟩
  have hi := big_rnd h (by omega)
  have hi' : Big k (vsub v w i) := hi
  by_cases hall : ∀ j, ∃ y, vsub v w j = .fin y
  · choose y hy using hall
    have e : vsub v w = fun j => .fin (y j) := funext hy
    rw [e, norm3_of_fin]
    refine big_rnd ?_ (by omega)
    rcases hi' with h1 | ⟨z, h1, h2⟩
    · rw [hy] at h1; exact absurd h1 id
    · rw [hy] at h1
      injection h1 with h1
      rw [← h1] at h2
      exact h2.trans ((abs_le_norm3 y i).trans (le_abs_self _))
  · left
    push Not at hall
    obtain ⟨j, hj⟩ := hall
    obtain ⟨s, hs⟩ := (hv j).resolve_left (by rintro ⟨y, hy⟩; exact hj y hy)
    have key : norm3 (vsub v w) = .inf false := by
      unfold norm3
      rcases hv 0 with ⟨a, ha⟩ | ⟨a, ha⟩
      · rcases hv 1 with ⟨b, hb⟩ | ⟨b, hb⟩
        · rcases hv 2 with ⟨c, hc⟩ | ⟨c, hc⟩
          · exfalso
            match j, hs with
            | 0, hs => rw [ha] at hs; simp at hs
            | 1, hs => rw [hb] at hs; simp at hs
            | 2, hs => rw [hc] at hs; simp at hs
          · rw [ha, hb, hc]
        · rw [ha, hb]
      · rw [ha]
    rw [key]; trivial

/-- Close points. -/
theorem norm3_small (v w : Vec 3) {k : ℕ} (hk : k ≤ 1021) (h : ∀ j, |v j - w j| ≤ 2 ^ (-(k : ℤ) - 1)) : Small (-(k : ℤ)) (norm3 (vsub v w)) := by
  choose y h1 h2 using fun j => rnd64_le (h j) (by omega) (by omega)
  have e : vsub v w = fun j => .fin (y j) := funext h1
  rw [e, norm3_of_fin]
  have h3 := norm3_le (two_pow_pos _).le h2
  have e2 : (2 : ℝ) * 2 ^ (-(k : ℤ) - 1) = 2 ^ (-(k : ℤ)) := by
    rw [sub_eq_add_neg, zpow_add₀ (by norm_num), mul_comm, mul_assoc]; norm_num
  rw [e2] at h3
  have h4 : 0 ≤ Vec.norm y := Real.sqrt_nonneg _
  obtain ⟨z, z1, z2⟩ := rnd64_le (x := Vec.norm y) (b := -(k : ℤ)) (by rwa [abs_of_nonneg h4]) (by omega) (by omega)
  exact ⟨z, z1, z2⟩

/-! ## Where powers overflow -/

/-- A source whose distance has an infinite power. -/
theorem p2m_bad {S : List (Source 3)} {s : Source 3} (hs : s ∈ S) (h : NF (pows (norm3 (vsub s.pos center)) n)) :
    BadAt n (p2m L order center S) := by
  unfold p2m
  refine foldl_hits (BadAt n) _ (fun c a hc m hm => (hc m hm).add_left _) S s hs (fun c m _ => ?_) _
  exact CNF.add_right (NF.rsc (h.mul_right _) _) _

theorem p2l_bad {S : List (Source 3)} {s : Source 3} (hs : s ∈ S)
    (h : NF (ipows (div (.fin 1) (norm3 (vsub s.pos center))) (norm3 (vsub s.pos center)) n)) :
    BadAt n (p2l L order center S) := by
  unfold p2l
  refine foldl_hits (BadAt n) _ (fun c a hc m hm => (hc m hm).add_left _) S s hs (fun c m _ => ?_) _
  exact CNF.add_right (NF.rsc (h.mul_right _) _) _

theorem meShift_far {v : DVec 3} (h : NF (pows (norm3 v) n)) {j : ℕ} (hj : n ≤ j) : BadAt j (meShift L order e v) := by
  intro k _
  unfold meShift
  refine CNF.cdr ?_ _
  exact csum_hit (α := ℕ) _ _ n (by rw [List.mem_range]; omega) (NF.rsc h _) _

theorem leShift_far {v : DVec 3} (h : NF (pows (norm3 v) n)) {j : ℕ} (hj : j + n ≤ order) : BadAt j (leShift L order e v) := by
  intro k _
  unfold leShift
  refine CNF.rsc ?_ _
  refine csum_hit _ _ (j + n) ?_ (NF.rsc (NF.mul_right ?_ _) _) _
  · rw [List.mem_map]; exact ⟨n, by rw [List.mem_range]; omega, rfl⟩
  · rw [Nat.add_sub_cancel_left]; exact h

theorem m2l_close {me : Vec 3 × Coeffs} {j : ℕ} (h : NF (pows (div (.fin 1) (norm3 (vsub me.1 center))) (j + n + 1))) (hn : n ≤ order) :
    BadAt j (m2l L order center me) := by
  intro k _
  unfold m2l
  refine CNF.rsc ?_ _
  exact csum_hit _ _ n (by rw [List.mem_range]; omega) (NF.rsc (h.mul_right _) _) _

theorem close_pow {v w : Vec 3} {k i : ℕ} (hk : k ≤ 1021) (h : ∀ j, |v j - w j| ≤ 2 ^ (-(k : ℤ) - 1)) (hi : 1024 ≤ k * i) :
    NF (pows (div (.fin 1) (norm3 (vsub v w))) i) :=
  pows_nf (inv_big (norm3_small v w hk h)).1 hi

theorem close_ipow {v w : Vec 3} {k i : ℕ} (hk : k ≤ 1021) (h : ∀ j, |v j - w j| ≤ 2 ^ (-(k : ℤ) - 1)) (hi : 1024 ≤ k * (i + 1)) :
    NF (ipows (div (.fin 1) (norm3 (vsub v w))) (norm3 (vsub v w)) i) := by
  have hs := norm3_small v w hk h
  refine ipows_nf (inv_big hs).1 (fun hk' => (inv_big hs).2 hk') hs ?_
  rw [mul_add, mul_one] at hi; exact hi

theorem far_pow {v w : Vec 3} {k i : ℕ} {j : Fin 3} (h : (2 : ℝ) ^ (k : ℤ) ≤ |v j - w j|) (hi : 1024 ≤ k * i) : NF (pows (norm3 (vsub v w)) i) :=
  pows_nf (norm3_big v w j h) hi

theorem mePot_nf {x : Vec 3} (hn : n ≤ order)
    (h : BadAt n e ∨ NF (ipows (div (.fin 1) (norm3 (vsub x center))) (norm3 (vsub x center)) n)) : NF (mePot L order center e x) :=
  pot_nf _ _ n hn h

theorem lePot_nf {x : Vec 3} (hn : n ≤ order) (h : BadAt n e ∨ NF (pows (norm3 (vsub x center)) n)) : NF (lePot L order center e x) :=
  pot_nf _ _ n hn h

theorem meForce_nf {x : Vec 3} (hn : n ≤ order)
    (h : BadAt n e ∨ NF (ipows (div (.fin 1) (mul (norm3 (vsub x center)) (norm3 (vsub x center)))) (norm3 (vsub x center)) n)) (i : Fin 3) :
    NF (meForce L order center e x i) := by
  unfold meForce
  refine toBasis_nf ?_ _ i
  refine foldl_hits VNF _ (fun f a hf => forceTerm_keeps _ _ _ _ _ _ hf) _ (n, 0) (mem_indices.mpr ⟨hn, by simp⟩) (fun f => ?_) _
  exact forceTerm_hit _ _ _ _ _ _ (h.imp (fun h => h 0 (by simp)) id) f

theorem leForce_nf {x : Vec 3} (hn : n ≤ order) (h1 : 1 ≤ n) (h : BadAt n e ∨ NF (pows (norm3 (vsub x center)) (n - 1))) (i : Fin 3) :
    NF (leForce L order center e x i) := by
  unfold leForce
  refine toBasis_nf ?_ _ i
  refine foldl_hits VNF _ (fun f a hf => forceTerm_keeps _ _ _ _ _ _ hf) _ (n, 0)
    (List.mem_filter.mpr ⟨mem_indices.mpr ⟨hn, by simp⟩, by simpa using h1⟩) (fun f => ?_) _
  exact forceTerm_hit _ _ _ _ _ _ (h.imp (fun h => h 0 (by simp)) id) f

end FMM.D64
