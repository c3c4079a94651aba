import Verif.FltExp2
import Verif.Fmm3D

/-!
# The three-dimensional expansions and kernels in floating-point arithmetic

The operations of `Exp3.lean` and `Fields.lean` with every arithmetic operation replaced by a floating-point one, in the
order in which the C++ code performs them.  `Flt3` adds the library functions of the three-dimensional code to `Flt`.
With exact arithmetic (`Flt3.exact`) all functions coincide with those of `Exp3.lean` (lemmas `*_exact`).
-/

namespace FMM

/-- A floating-point arithmetic with the library functions that the three-dimensional code uses. -/
structure Flt3 extends Flt where
  /-- `Vector_<3>::norm`, i.e. `std::hypot` with three arguments -/
  nrm3 : Vec 3 → ℝ
  /-- `std::hypot` with two arguments -/
  hyp : ℝ → ℝ → ℝ
  /-- `std::atan2` -/
  atan2 : ℝ → ℝ → ℝ
  /-- `std::cos(double)` -/
  rcos : ℝ → ℝ
  /-- `std::sin(double)` -/
  rsin : ℝ → ℝ
  /-- `std::exp(1i * phi)` -/
  cis : ℝ → ℂ
  /-- `std::sqrt(2)` -/
  sqrt2 : ℝ
  /-- `gsl_sf_legendre_array_e(GSL_SF_LEGENDRE_SCHMIDT, lmax, x, -1, ·)` at `(l, m)` -/
  leg : ℕ → ℝ → ℕ → ℕ → ℝ
  /-- values and derivatives of `gsl_sf_legendre_deriv_alt_array_e` at `(l, m)` -/
  legD : ℕ → ℝ → (ℕ → ℕ → ℝ) × (ℕ → ℕ → ℝ)
  /-- entry `(n, m)` of the table of `A_coeff(n, m)`, whose exact value is the last argument -/
  alm : ℕ → ℤ → ℝ → ℝ

namespace Flt3

/-- Exact arithmetic. -/
noncomputable def exact : Flt3 where
  toFlt := Flt.exact
  nrm3 := Vec.norm
  hyp := Vec.hypot
  atan2 := Vec.atan2
  rcos := Real.cos
  rsin := Real.sin
  cis := fun phi => Complex.exp (Complex.I * phi)
  sqrt2 := Real.sqrt 2
  leg := fun _ x l m => schmidt (-1) l m x
  legD := fun _ x => (fun l m => schmidt (-1) l m x, fun l m => deriv (fun t => schmidt (-1) l m (Real.cos t)) (Real.arccos x))
  alm := fun _ _ a => a

variable (F : Flt3)

/-- `toSpherical` for `d == 3`, vector.hpp:106-113. -/
noncomputable def sph (v : Vec 3) : Vec 3 := ![F.nrm3 v, F.atan2 (F.hyp (v 0) (v 1)) (v 2), F.atan2 (v 1) (v 0)]

/-- `toCartesianBasis`, vector.hpp:158-174. -/
noncomputable def toBasis (v : Vec 3) (theta phi : ℝ) : Vec 3 :=
  let st := F.rsin theta
  let ct := F.rcos theta
  let sp := F.rsin phi
  let cp := F.rcos phi
  ![F.rnd (F.rnd (cp * F.rnd (F.rnd (st * v 0) + F.rnd (ct * v 1))) - F.rnd (sp * v 2)),
    F.rnd (F.rnd (sp * F.rnd (F.rnd (st * v 0) + F.rnd (ct * v 1))) + F.rnd (cp * v 2)),
    F.rnd (F.rnd (ct * v 0) - F.rnd (st * v 1))]

end Flt3

namespace Fl3
variable (F : Flt3)

/-- `PowTable<double>(x, nmax)`, fmm_tables.hpp:22-29. -/
noncomputable def powTable (x : ℝ) (nmax : ℕ) : Outcome (Arr ℝ) := do
  let (table, _) ← loopM (nmax + 1)
    (fun n (s : Arr ℝ × ℝ) => do
      let t ← s.1.wr n s.2
      .ok (t, F.rnd (s.2 * x)))
    (Arr.new (nmax + 1), 1)
  .ok table

/-- Division of `double`s. -/
noncomputable def divR (a b : ℝ) : Outcome ℝ := if b = 0 then .error .nonFinite else .ok (F.rnd (a / b))

/-- complex / double -/
noncomputable def divC (z : ℂ) (b : ℝ) : Outcome ℂ := if b = 0 then .error .nonFinite else .ok (F.cdr z b)

/-! ## Tables of spherical harmonics -/

/-- `gsl_sf_legendre_array_e`: an argument outside `[-1, 1]` is a domain error. -/
noncomputable def gslLegendre (lmax : ℕ) (x : ℝ) : Outcome (ℕ → ℕ → Outcome ℝ) :=
  if |x| ≤ 1 then .ok fun l m => if m ≤ l ∧ l ≤ lmax then .ok (F.leg lmax x l m) else .error .ub
  else .error .gslAbort

/-- `gsl_sf_legendre_deriv_alt_array_e`: `x = ±1` is a domain error too. -/
noncomputable def gslLegendreDerivAlt (lmax : ℕ) (x : ℝ) : Outcome ((ℕ → ℕ → Outcome ℝ) × (ℕ → ℕ → Outcome ℝ)) :=
  if |x| < 1 then .ok
    (fun l m => if m ≤ l ∧ l ≤ lmax then .ok ((F.legD lmax x).1 l m) else .error .ub,
     fun l m => if m ≤ l ∧ l ≤ lmax then .ok ((F.legD lmax x).2 l m) else .error .ub)
  else .error .gslAbort

/-- The body of the loop over `m`, fmm_tables.hpp:94-103. -/
noncomputable def stepM (result : ℕ → ℕ → Outcome ℝ) (expPhi : ℂ) (l : ℕ) (i : ℕ) (s : Arr ℂ × ℂ) :
    Outcome (Arr ℂ × ℂ) := do
  let m := i + 1
  let r ← result l m
  let Y : ℂ := F.cdr (F.rsc r s.2) F.sqrt2
  let t ← s.1.wrZ (lmIndex l m) Y
  let t ← t.wrZ (lmIndex l (-(m : ℤ))) ((starRingEnd ℂ) Y)
  .ok (t, F.mul s.2 expPhi)

/-- The body of the loop over `l`, fmm_tables.hpp:85-104. -/
noncomputable def stepL (result : ℕ → ℕ → Outcome ℝ) (phi : ℝ) (l : ℕ) (tbl : Arr ℂ) : Outcome (Arr ℂ) := do
  let r0 ← result l 0
  let tbl ← tbl.wrZ (lmIndex l 0) (r0 : ℂ)
  let expPhi := F.cis phi
  let (tbl, _) ← loopM l (stepM F result expPhi l) (tbl, expPhi)
  .ok tbl

/-- `YlmTable(lmax, theta, phi)`, fmm_tables.hpp:76-107. -/
noncomputable def ylm (lmax : ℕ) (theta phi : ℝ) : Outcome YlmTable := do
  let result ← gslLegendre F lmax (F.rcos theta)
  let table ← loopM (lmax + 1) (stepL F result phi) (Arr.new ((lmax + 1) * (lmax + 1)))
  .ok ⟨lmax, table⟩

/-- The body of the loop over `m`, fmm_tables.hpp:158-172, for one of the two tables. -/
noncomputable def stepMD (result : ℕ → ℕ → Outcome ℝ) (exps : Arr ℂ) (l : ℕ) (i : ℕ) (t : Arr ℂ) :
    Outcome (Arr ℂ) := do
  let m := i + 1
  let r ← result l m
  let e ← exps.rd m
  let Y : ℂ := F.cdr (F.rsc r e) F.sqrt2
  let t ← t.wrZ (lmIndex l m) Y
  t.wrZ (lmIndex l (-(m : ℤ))) ((starRingEnd ℂ) Y)

/-- The body of the loop over `l`, fmm_tables.hpp:147-173, for one of the two tables. -/
noncomputable def stepLD (result : ℕ → ℕ → Outcome ℝ) (exps : Arr ℂ) (l : ℕ) (tbl : Arr ℂ) : Outcome (Arr ℂ) := do
  let r0 ← result l 0
  let tbl ← tbl.wrZ (lmIndex l 0) (r0 : ℂ)
  loopM l (stepMD F result exps l) tbl

/-- `YlmDerivTable(lmax, theta, phi)`, fmm_tables.hpp:128-176. -/
noncomputable def ylmD (lmax : ℕ) (theta phi : ℝ) : Outcome YlmDerivTable := do
  let expPhi := F.cis phi
  let (exps, _) ← loopM (lmax + 1) (fun l (s : Arr ℂ × ℂ) => do
    let t ← s.1.wr l s.2
    .ok (t, F.mul s.2 expPhi)) (Arr.new (lmax + 1), 1)
  let (result, dresult) ← gslLegendreDerivAlt F lmax (F.rcos theta)
  let ylm ← loopM (lmax + 1) (stepLD F result exps) (Arr.new ((lmax + 1) * (lmax + 1)))
  let dtheta ← loopM (lmax + 1) (stepLD F dresult exps) (Arr.new ((lmax + 1) * (lmax + 1)))
  .ok ⟨lmax, ylm, dtheta⟩

/-- `dYdphi(l, m)`, fmm_tables.hpp:188-192. -/
noncomputable def dYdphi (t : YlmDerivTable) (l : ℕ) (m : ℤ) : Outcome ℂ := do
  let y ← t.ylm.rdZ (lmIndex l m)
  .ok (F.mul (Complex.I * (m : ℂ)) y)

/-- An entry of the table of the `A_n^m`; it holds rounded values. -/
noncomputable def aGet (st : Stat3) (n : ℕ) (m : ℤ) : Outcome ℝ := do
  let a ← st.alm.get n m
  .ok (F.alm n m a)

/-! ## Series expansions -/

/-- `operator+=`, series_expansion.hpp:148-163. -/
noncomputable def addEq (e rhs : Exp3) : Outcome Exp3 :=
  open Classical in
  if e.coeffs.size ≠ rhs.coeffs.size ∨ e.center ≠ rhs.center then .error .logicError
  else .ok { e with coeffs := ⟨e.coeffs.size, fun i =>
    if i < e.coeffs.size then F.cadd (e.coeffs.val i) (rhs.coeffs.val i) else e.coeffs.val i⟩ }

/-! ## Multipole expansions -/

/-- The body of the loop over the sources, multipole_expansion.hpp:168-185. -/
noncomputable def meAddSource (order : ℕ) (center : Vec 3) (c : Arr ℂ) (src : Source 3) : Outcome (Arr ℂ) := do
  let sph := F.sph (F.vsub src.pos center)
  let Y ← ylm F order (sph 1) (sph 2)
  let (c, _) ← loopM (order + 1) (fun n (s : Arr ℂ × ℝ) => do
    let c ← loopZ (-(n : ℤ)) n (fun m c => do
      let a ← c.rdZ (lmIndex n m)
      let y ← Y.get n (-m)
      c.wrZ (lmIndex n m) (F.cadd a (F.rsc (F.rnd (src.q * s.2)) y))) s.1
    .ok (c, F.rnd (s.2 * sph 0))) (c, 1)
  .ok c

/-- `MultipoleExpansion(center, order, sources)`, multipole_expansion.hpp:163-186. -/
noncomputable def meOfSources (st : Stat3) (center : Vec 3) (order : ℕ) (sources : List (Source 3)) :
    Outcome (Stat3 × Exp3) := do
  let (st, e) ← Exp3.new st center order
  let c ← sources.foldlM (meAddSource F order e.center) e.coeffs
  .ok (st, { e with coeffs := c })

/-- The coefficient `M_j^k` of the shifted expansion, multipole_expansion.hpp:223-238. -/
noncomputable def meShiftCoeff (st : Stat3) (e : Exp3) (Y : YlmTable) (pow : Arr ℝ) (j : ℕ) (k : ℤ) : Outcome ℂ := do
  let M ← loopM (j + 1) (fun n M => do
    let acc ← loopZ (max (-(n : ℤ)) (n + k - j)) (min (n : ℤ) (j + k - n)) (fun m acc => do
      let s ← st.s1.get k m
      let a ← aGet F st n m
      let b ← aGet F st (j - n) (k - m)
      let o ← e.get (j - n) (k - m)
      let y ← Y.get n (-m)
      .ok (F.cadd acc (F.rsc (F.rnd (F.rnd (s * a) * b)) (F.mul o y)))) 0
    let p ← pow.rd n
    .ok (F.cadd M (F.rsc p acc))) 0
  let a ← aGet F st j k
  divC F M a

/-- `MultipoleExpansion::shift`, multipole_expansion.hpp:209-245. -/
noncomputable def meShift (st : Stat3) (e : Exp3) (shift : Vec 3) : Outcome (Arr ℂ) := do
  let sph := F.sph shift
  let Y ← ylm F e.order (sph 1) (sph 2)
  let pow ← powTable F (sph 0) e.order
  let (c, _) ← loopM (e.order + 1) (fun j (s : Arr ℂ × ℕ) =>
    loopZ (-(j : ℤ)) j (fun k (s : Arr ℂ × ℕ) => do
      let M ← meShiftCoeff F st e Y pow j k
      let c ← s.1.wr s.2 M
      .ok (c, s.2 + 1)) s) (Arr.new e.coeffs.size, 0)
  .ok c

/-- `MultipoleExpansion(center, expansions)`, multipole_expansion.hpp:188-201; `expansions[0]` of an empty vector is
undefined. -/
noncomputable def meOfMes (st : Stat3) (center : Vec 3) (expansions : List Exp3) : Outcome (Stat3 × Exp3) :=
  match expansions with
  | [] => .error .ub
  | me0 :: _ => do
    let (st, e) ← Exp3.new st center me0.order
    let c ← expansions.foldlM (fun c me => do
      let sh ← meShift F st me (F.vsub me.center e.center)
      Fl.addCoeffs F.toFlt c sh) e.coeffs
    .ok (st, { e with coeffs := c })

/-- `MultipoleExpansion::evaluatePotential`, multipole_expansion.hpp:247-268. -/
noncomputable def mePot (e : Exp3) (x : Vec 3) : Outcome ℝ := do
  let sph := F.sph (F.vsub x e.center)
  let Y ← ylm F e.order (sph 1) (sph 2)
  let rinv ← divR F 1 (sph 0)
  let (pot, _) ← loopM (e.order + 1) (fun n (s : ℂ × ℝ) => do
    let pot ← loopZ (-(n : ℤ)) n (fun m pot => do
      let a ← e.get n m
      let y ← Y.get n m
      .ok (F.cadd pot (F.mul (F.rsc s.2 a) y))) s.1
    let rp ← divR F s.2 (sph 0)
    .ok (pot, rp)) (0, rinv)
  .ok (-pot.re)

/-- One summand of the force components `(r, θ, φ)`: `sub` tells whether the radial term is subtracted, `k` is the
factor `n + 1` or `n`. -/
noncomputable def forceTerm (Y : YlmDerivTable) (theta rpow : ℝ) (sub : Bool) (k : ℕ) (a : ℂ) (n : ℕ) (m : ℤ) (f : Vec 3) :
    Outcome (Vec 3) := do
  let y ← Y.Y n m
  let dt ← Y.dYdtheta n m
  let dp ← dYdphi F Y n m
  let t := F.rnd (F.rnd (rpow * (k : ℝ)) * (F.mul a y).re)
  let d ← divR F (F.rnd (rpow * (F.mul a dp).re)) (F.rsin theta)
  .ok ![F.rnd (if sub then f 0 - t else f 0 + t), F.rnd (f 1 + F.rnd (rpow * (F.mul a dt).re)), F.rnd (f 2 + d)]

/-- `MultipoleExpansion::evaluateForcefield`, multipole_expansion.hpp:270-304. -/
noncomputable def meForce (e : Exp3) (x : Vec 3) : Outcome (Vec 3) := do
  let sph := F.sph (F.vsub x e.center)
  let Y ← ylmD F e.order (sph 1) (sph 2)
  let rp ← divR F 1 (F.rnd (sph 0 * sph 0))
  let (f, _) ← loopM (e.order + 1) (fun n (s : Vec 3 × ℝ) => do
    let f ← loopZ (-(n : ℤ)) n (fun m f => do
      let a ← e.get n m
      forceTerm F Y (sph 1) s.2 true (n + 1) a n m f) s.1
    let rp ← divR F s.2 (sph 0)
    .ok (f, rp)) (0, rp)
  .ok (F.toBasis f (sph 1) (sph 2))

/-! ## Local expansions -/

/-- The body of the loop over the sources, local_expansion.hpp:215-232. -/
noncomputable def leAddSource (order : ℕ) (center : Vec 3) (c : Arr ℂ) (src : Source 3) : Outcome (Arr ℂ) := do
  let sph := F.sph (F.vsub src.pos center)
  let Y ← ylm F order (sph 1) (sph 2)
  let rinv ← divR F 1 (sph 0)
  let (c, _) ← loopM (order + 1) (fun n (s : Arr ℂ × ℝ) => do
    let c ← loopZ (-(n : ℤ)) n (fun m c => do
      let a ← c.rdZ (lmIndex n m)
      let y ← Y.get n (-m)
      c.wrZ (lmIndex n m) (F.cadd a (F.rsc (F.rnd (src.q * s.2)) y))) s.1
    let rp ← divR F s.2 (sph 0)
    .ok (c, rp)) (c, rinv)
  .ok c

/-- `LocalExpansion(center, order, sources)`, local_expansion.hpp:210-233. -/
noncomputable def leOfSources (st : Stat3) (center : Vec 3) (order : ℕ) (sources : List (Source 3)) :
    Outcome (Stat3 × Exp3) := do
  let (st, e) ← Exp3.new st center order
  let c ← sources.foldlM (leAddSource F order e.center) e.coeffs
  .ok (st, { e with coeffs := c })

/-- The coefficient `L_j^k` of the created expansion, local_expansion.hpp:260-276. -/
noncomputable def m2lCoeff (st : Stat3) (order : ℕ) (incoming : Exp3) (Y : YlmTable) (pow : Arr ℝ) (j : ℕ) (k : ℤ) :
    Outcome ℂ := do
  let L ← loopM (order + 1) (fun n L => do
    let acc ← loopZ (-(n : ℤ)) n (fun m acc => do
      let s ← st.s2.get k m
      let a ← aGet F st n m
      let b ← aGet F st (j + n) (m - k)
      let A ← divR F (F.rnd (s * a)) b
      let o ← incoming.get n m
      let y ← Y.get (j + n) (m - k)
      .ok (F.cadd acc (F.rsc A (F.mul o y)))) 0
    let p ← pow.rd (j + n + 1)
    .ok (F.cadd L (F.rsc (F.rnd (Exp3.parSign n * p)) acc))) 0
  let a ← aGet F st j k
  .ok (F.rsc a L)

/-- `LocalExpansion(center, const ME& incoming)`, local_expansion.hpp:244-279. -/
noncomputable def leOfMe (st : Stat3) (center : Vec 3) (incoming : Exp3) : Outcome (Stat3 × Exp3) := do
  let (st, e) ← Exp3.new st center incoming.order
  let sph := F.sph (F.vsub incoming.center e.center)
  let Y ← ylm F (2 * e.order) (sph 1) (sph 2)
  let rinv ← divR F 1 (sph 0)
  let pow ← powTable F rinv (2 * e.order + 1)
  let c ← loopM (e.order + 1) (fun j c =>
    loopZ (-(j : ℤ)) j (fun k c => do
      let L ← m2lCoeff F st e.order incoming Y pow j k
      c.wrZ (lmIndex j k) L) c) e.coeffs
  .ok (st, { e with coeffs := c })

/-- `LocalExpansion(center, std::vector<const ME*>)`, local_expansion.hpp:235-242. -/
noncomputable def leOfMes (st : Stat3) (center : Vec 3) (expansions : List Exp3) : Outcome (Stat3 × Exp3) :=
  match expansions with
  | [] => .error .outOfRange
  | me0 :: _ => do
    let (st, e) ← Exp3.new st center me0.order
    expansions.foldlM (fun (s : Stat3 × Exp3) me => do
      let (st, le) ← leOfMe F s.1 center me
      let e ← addEq F s.2 le
      .ok (st, e)) (st, e)

/-- The coefficient `L_j^k` of the shifted expansion, local_expansion.hpp:311-328. -/
noncomputable def leShiftCoeff (st : Stat3) (e : Exp3) (Y : YlmTable) (pow : Arr ℝ) (j : ℕ) (k : ℤ) : Outcome ℂ := do
  let L ← loopM (e.order + 1 - j) (fun i L => do
    let n := j + i
    let acc ← loopZ (max (-(n : ℤ)) (k + j - n)) (min (n : ℤ) (k + n - j)) (fun m acc => do
      let s ← st.s3.get k m
      let a ← aGet F st (n - j) (m - k)
      let b ← aGet F st n m
      let A ← divR F (F.rnd (s * a)) b
      let o ← e.get n m
      let y ← Y.get (n - j) (m - k)
      .ok (F.cadd acc (F.rsc A (F.mul o y)))) 0
    let p ← pow.rd (n - j)
    .ok (F.cadd L (F.rsc (F.rnd (Exp3.parSign (n + j) * p)) acc))) 0
  let a ← aGet F st j k
  .ok (F.rsc a L)

/-- `LocalExpansion::shift`, local_expansion.hpp:295-333. -/
noncomputable def leShift (st : Stat3) (e : Exp3) (shift : Vec 3) : Outcome (Arr ℂ) := do
  let sph := F.sph shift
  let Y ← ylm F (2 * e.order) (sph 1) (sph 2)
  let pow ← powTable F (sph 0) e.order
  let (c, _) ← loopM (e.order + 1) (fun j (s : Arr ℂ × ℕ) =>
    loopZ (-(j : ℤ)) j (fun k (s : Arr ℂ × ℕ) => do
      let L ← leShiftCoeff F st e Y pow j k
      let c ← s.1.wr s.2 L
      .ok (c, s.2 + 1)) s) (Arr.new e.coeffs.size, 0)
  .ok c

/-- `LocalExpansion(center, const LE& incoming)`, local_expansion.hpp:281-286. -/
noncomputable def leOfLe (st : Stat3) (center : Vec 3) (incoming : Exp3) : Outcome (Stat3 × Exp3) := do
  let (st, e) ← Exp3.new st center incoming.order
  let c ← leShift F st incoming (F.vsub incoming.center e.center)
  .ok (st, { e with coeffs := c })

/-- `LocalExpansion::evaluatePotential`, local_expansion.hpp:335-356. -/
noncomputable def lePot (e : Exp3) (x : Vec 3) : Outcome ℝ := do
  let sph := F.sph (F.vsub x e.center)
  let Y ← ylm F e.order (sph 1) (sph 2)
  let (pot, _) ← loopM (e.order + 1) (fun n (s : ℂ × ℝ) => do
    let pot ← loopZ (-(n : ℤ)) n (fun m pot => do
      let a ← e.get n m
      let y ← Y.get n m
      .ok (F.cadd pot (F.mul (F.rsc s.2 a) y))) s.1
    .ok (pot, F.rnd (s.2 * sph 0))) (0, 1)
  .ok (-pot.re)

/-- `LocalExpansion::evaluateForcefield`, local_expansion.hpp:358-392. -/
noncomputable def leForce (e : Exp3) (x : Vec 3) : Outcome (Vec 3) := do
  let sph := F.sph (F.vsub x e.center)
  let Y ← ylmD F e.order (sph 1) (sph 2)
  let (f, _) ← loopM e.order (fun i (s : Vec 3 × ℝ) => do
    let n := i + 1
    let f ← loopZ (-(n : ℤ)) n (fun m f => do
      let a ← e.get n m
      forceTerm F Y (sph 1) s.2 false n a n m f) s.1
    .ok (f, F.rnd (s.2 * sph 0))) (0, 1)
  .ok (F.toBasis f (sph 1) (sph 2))

/-! ## Kernels -/

/-- `potential<3, grav, safe>(src, eval_point)`, fields.hpp:13-27. -/
noncomputable def potential (grav safe : Bool) (src : Source 3) (x : Vec 3) : Outcome ℝ :=
  let r := F.nrm3 (F.vsub src.pos x)
  if safe = true ∧ r = 0 then .ok 0
  else if r = 0 then .error .nonFinite
  else
    let pot := F.rnd (-src.q / r)
    .ok (if grav then pot else -pot)

/-- `potential<3, grav, safe>(sources, eval_point)`, fields.hpp:30-42. -/
noncomputable def potentialSum (grav safe : Bool) (sources : List (Source 3)) (x : Vec 3) : Outcome ℝ :=
  sources.foldlM (fun pot src => do
    let p ← potential F grav safe src x
    .ok (F.rnd (pot + p))) 0

/-- `forcefield<3, grav, safe>(src, eval_point, eps)`, fields.hpp:48-66. -/
noncomputable def forcefield (grav safe : Bool) (src : Source 3) (x : Vec 3) (eps : ℝ) : Outcome (Vec 3) :=
  let diff := F.vsub src.pos x
  let r := F.nrm3 diff
  if safe = true ∧ r = 0 then .ok (Vec.fill 0)
  else if F.rnd (F.rnd (F.rnd (r * r) * r) + eps) = 0 then .error .nonFinite
  else
    let frc := F.vscale diff (F.rnd (src.q / F.rnd (F.rnd (F.rnd (r * r) * r) + eps)))
    .ok (if grav then frc else Vec.neg frc)

/-- `forcefield<3, grav, safe>(sources, eval_point, eps)`, fields.hpp:69-81. -/
noncomputable def forcefieldSum (grav safe : Bool) (sources : List (Source 3)) (x : Vec 3) (eps : ℝ) :
    Outcome (Vec 3) :=
  sources.foldlM (fun frc src => do
    let f ← forcefield F grav safe src x eps
    .ok (F.vadd frc f)) (Vec.fill 0)

/-! ## Kits -/

/-- `MultipoleExpansion<3>`, `LocalExpansion<3>` in floating point. -/
noncomputable def kit : Kit 3 where
  T := Stat3
  E := Exp3
  empty := Exp3.empty
  size := fun e => e.coeffs.size
  leNew := Exp3.new
  meSrc := meOfSources F
  meMes := meOfMes F
  leSrc := leOfSources F
  leMes := leOfMes F
  leLe := leOfLe F
  addEq := addEq F

/-- The operations used by `evaluatePotential`. -/
noncomputable def pot : Obs (kit F) ℝ where
  le := lePot F
  me := mePot F
  sum := potentialSum F

/-- The operations used by `evaluateForcefield`. -/
noncomputable def force (feps : ℝ) : Obs (kit F) (Vec 3) where
  le := leForce F
  me := meForce F
  sum := fun grav safe S x => forcefieldSum F grav safe S x feps

/-! ## Exact arithmetic -/

open Flt

@[simp] theorem toFlt_exact : Flt3.exact.toFlt = Flt.exact := rfl
@[simp] theorem nrm3_exact : Flt3.exact.nrm3 = Vec.norm := rfl
@[simp] theorem rcos_exact : Flt3.exact.rcos = Real.cos := rfl
@[simp] theorem rsin_exact : Flt3.exact.rsin = Real.sin := rfl
@[simp] theorem cis_exact (phi : ℝ) : Flt3.exact.cis phi = Complex.exp (Complex.I * phi) := rfl
@[simp] theorem sqrt2_exact : Flt3.exact.sqrt2 = Real.sqrt 2 := rfl
@[simp] theorem sph_exact (v : Vec 3) : Flt3.exact.sph v = v.toSpherical3 := rfl
@[simp] theorem toBasis_exact (v : Vec 3) (t p : ℝ) : Flt3.exact.toBasis v t p = v.toCartesianBasis t p := rfl

theorem powTable_exact (x : ℝ) (n : ℕ) : powTable Flt3.exact x n = FMM.powTable x n := rfl
theorem divR_exact : divR Flt3.exact = FMM.divR := rfl
theorem divC_exact : divC Flt3.exact = FMM.divC := by
  funext z b; simp only [divC, FMM.divC, toFlt_exact, cdr_exact]
theorem gslLegendre_exact (lmax : ℕ) (x : ℝ) : gslLegendre Flt3.exact lmax x = FMM.gslLegendre lmax x (-1) := rfl
theorem stepM_exact : stepM Flt3.exact = YlmTable.stepM := by
  funext result e l i s
  simp only [stepM, YlmTable.stepM, toFlt_exact, cdr_exact, rsc_exact, mul_exact, sqrt2_exact]
theorem stepL_exact : stepL Flt3.exact = YlmTable.stepL := by
  funext result phi l t
  simp only [stepL, YlmTable.stepL, stepM_exact, cis_exact]
theorem ylm_exact : ylm Flt3.exact = YlmTable.make := by
  funext lmax t p
  simp only [ylm, YlmTable.make, gslLegendre_exact, stepL_exact, rcos_exact]
theorem stepMD_exact : stepMD Flt3.exact = YlmDerivTable.stepM := by
  funext result e l i s
  simp only [stepMD, YlmDerivTable.stepM, toFlt_exact, cdr_exact, rsc_exact, sqrt2_exact]
theorem stepLD_exact : stepLD Flt3.exact = YlmDerivTable.stepL := by
  funext result phi l t
  simp only [stepLD, YlmDerivTable.stepL, stepMD_exact]
theorem gslLegendreDerivAlt_exact (lmax : ℕ) (x : ℝ) :
    gslLegendreDerivAlt Flt3.exact lmax x = FMM.gslLegendreDerivAlt lmax x (-1) := rfl
theorem ylmD_exact : ylmD Flt3.exact = YlmDerivTable.make := by
  funext lmax t p
  simp only [ylmD, YlmDerivTable.make, gslLegendreDerivAlt_exact, stepLD_exact, rcos_exact, cis_exact, toFlt_exact, mul_exact]
theorem dYdphi_exact : dYdphi Flt3.exact = YlmDerivTable.dYdphi := rfl
theorem aGet_exact (st : Stat3) : aGet Flt3.exact st = st.alm.get := by
  funext n m
  unfold aGet
  cases st.alm.get n m <;> rfl
theorem addEq_exact : addEq Flt3.exact = Exp3.addEq := rfl
theorem meAddSource_exact : meAddSource Flt3.exact = Exp3.meAddSource := by
  funext order center c src
  simp only [meAddSource, Exp3.meAddSource, ylm_exact, sph_exact, toFlt_exact, vsub_exact, cadd_exact, rsc_exact, rnd_exact]
theorem meOfSources_exact : meOfSources Flt3.exact = Exp3.meOfSources := by
  funext st center order S
  simp only [meOfSources, Exp3.meOfSources, meAddSource_exact]
theorem meShiftCoeff_exact : meShiftCoeff Flt3.exact = Exp3.meShiftCoeff := by
  funext st e Y pow j k
  simp only [meShiftCoeff, Exp3.meShiftCoeff, aGet_exact, divC_exact, toFlt_exact, cadd_exact, rsc_exact, rnd_exact, mul_exact,
    mul_comm (Complex.ofReal _) _]
theorem meShift_exact : meShift Flt3.exact = Exp3.meShift := by
  funext st e v
  simp only [meShift, Exp3.meShift, meShiftCoeff_exact, ylm_exact, sph_exact, powTable_exact]
theorem meOfMes_exact : meOfMes Flt3.exact = Exp3.meOfMes := by
  funext st center es
  cases es with
  | nil => rfl
  | cons e es => simp only [meOfMes, Exp3.meOfMes, meShift_exact, toFlt_exact, Fl.addCoeffs_exact, vsub_exact]
theorem mePot_exact : mePot Flt3.exact = Exp3.mePot := by
  funext e x
  simp only [mePot, Exp3.mePot, ylm_exact, sph_exact, toFlt_exact, vsub_exact, divR_exact, cadd_exact, rsc_exact, mul_exact,
    mul_comm (Complex.ofReal _) _]
theorem leAddSource_exact : leAddSource Flt3.exact = Exp3.leAddSource := by
  funext order center c src
  simp only [leAddSource, Exp3.leAddSource, ylm_exact, sph_exact, toFlt_exact, vsub_exact, cadd_exact, rsc_exact, rnd_exact, divR_exact]
theorem leOfSources_exact : leOfSources Flt3.exact = Exp3.leOfSources := by
  funext st center order S
  simp only [leOfSources, Exp3.leOfSources, leAddSource_exact]
theorem m2lCoeff_exact : m2lCoeff Flt3.exact = Exp3.m2lCoeff := by
  funext st order e Y pow j k
  simp only [m2lCoeff, Exp3.m2lCoeff, aGet_exact, divR_exact, toFlt_exact, cadd_exact, rsc_exact, rnd_exact, mul_exact,
    mul_comm (Complex.ofReal _) _]
theorem leOfMe_exact : leOfMe Flt3.exact = Exp3.leOfMe := by
  funext st center e
  simp only [leOfMe, Exp3.leOfMe, m2lCoeff_exact, ylm_exact, sph_exact, powTable_exact, divR_exact, toFlt_exact, vsub_exact]
theorem leOfMes_exact : leOfMes Flt3.exact = Exp3.leOfMes := by
  funext st center es
  cases es with
  | nil => rfl
  | cons e es => simp only [leOfMes, Exp3.leOfMes, leOfMe_exact, addEq_exact]
theorem leShiftCoeff_exact : leShiftCoeff Flt3.exact = Exp3.leShiftCoeff := by
  funext st e Y pow j k
  simp only [leShiftCoeff, Exp3.leShiftCoeff, aGet_exact, divR_exact, toFlt_exact, cadd_exact, rsc_exact, rnd_exact, mul_exact]
theorem leShift_exact : leShift Flt3.exact = Exp3.leShift := by
  funext st e v
  simp only [leShift, Exp3.leShift, leShiftCoeff_exact, ylm_exact, sph_exact, powTable_exact]
theorem leOfLe_exact : leOfLe Flt3.exact = Exp3.leOfLe := by
  funext st center e
  simp only [leOfLe, Exp3.leOfLe, leShift_exact, toFlt_exact, vsub_exact]
theorem lePot_exact : lePot Flt3.exact = Exp3.lePot := by
  funext e x
  simp only [lePot, Exp3.lePot, ylm_exact, sph_exact, toFlt_exact, vsub_exact, cadd_exact, rsc_exact, mul_exact, rnd_exact,
    mul_comm (Complex.ofReal _) _]
theorem forceTerm_me_exact (Y : YlmDerivTable) (t r : ℝ) (n : ℕ) (a : ℂ) (m : ℤ) (f : Vec 3) :
    forceTerm Flt3.exact Y t r true (n + 1) a n m f = Exp3.forceTerm Y t r (-((n : ℝ) + 1)) a n m f := by
  simp only [forceTerm, Exp3.forceTerm, dYdphi_exact, divR_exact, toFlt_exact, rnd_exact, mul_exact, rsin_exact, if_true, Nat.cast_add,
    Nat.cast_one, mul_neg, neg_mul, ← sub_eq_add_neg]
theorem forceTerm_le_exact (Y : YlmDerivTable) (t r : ℝ) (n : ℕ) (a : ℂ) (m : ℤ) (f : Vec 3) :
    forceTerm Flt3.exact Y t r false n a n m f = Exp3.forceTerm Y t r n a n m f := by
  simp only [forceTerm, Exp3.forceTerm, dYdphi_exact, divR_exact, toFlt_exact, rnd_exact, mul_exact, rsin_exact, Bool.false_eq_true, if_false]
theorem meForce_exact : meForce Flt3.exact = Exp3.meForce := by
  funext e x
  simp only [meForce, Exp3.meForce, ylmD_exact, sph_exact, toBasis_exact, toFlt_exact, vsub_exact, divR_exact, rnd_exact, forceTerm_me_exact]
theorem leForce_exact : leForce Flt3.exact = Exp3.leForce := by
  funext e x
  simp only [leForce, Exp3.leForce, ylmD_exact, sph_exact, toBasis_exact, toFlt_exact, vsub_exact, rnd_exact, forceTerm_le_exact]
theorem potential_exact : potential Flt3.exact = FMM.potential (d := 3) := by
  funext grav safe src x
  simp only [potential, FMM.potential, toFlt_exact, vsub_exact, nrm3_exact, rnd_exact, show ¬ (3 = 2) by decide, if_false]
theorem potentialSum_exact : potentialSum Flt3.exact = FMM.potentialSum (d := 3) := by
  funext grav safe S x
  simp only [potentialSum, FMM.potentialSum, potential_exact, toFlt_exact, rnd_exact]
theorem forcefield_exact : forcefield Flt3.exact = FMM.forcefield (d := 3) := by
  funext grav safe src x eps
  simp only [forcefield, FMM.forcefield, toFlt_exact, vsub_exact, nrm3_exact, rnd_exact, vscale_exact, show ¬ (3 = 2) by decide, if_false]
theorem forcefieldSum_exact : forcefieldSum Flt3.exact = FMM.forcefieldSum (d := 3) := by
  funext grav safe S x eps
  simp only [forcefieldSum, FMM.forcefieldSum, forcefield_exact, toFlt_exact, vadd_exact]

end Fl3
end FMM
