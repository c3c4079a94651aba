import Verif.Exp2
import Verif.Legendre
import Mathlib.Analysis.SpecialFunctions.Trigonometric.Inverse
import Mathlib.Analysis.Calculus.Deriv.Basic

/-!
# Three-dimensional expansions

`fmm_tables.hpp` 68-191, `series_expansion.hpp` 101-193, `multipole_expansion.hpp` 143-304, `local_expansion.hpp`
180-392.

The four static tables are threaded through the constructors.  GSL's Legendre routines are given by their documented
mathematical meaning (`Legendre.lean`).
-/

namespace FMM

/-- `for(int m = lo; m <= hi; ++m)`. -/
def loopZ {σ : Type*} (lo hi : ℤ) (f : ℤ → σ → Outcome σ) (s : σ) : Outcome σ :=
  loopM (hi + 1 - lo).toNat (fun i => f (lo + i)) s

/-- Division by a real number; division by zero leaves the finite numbers. -/
noncomputable def divC (z : ℂ) (b : ℝ) : Outcome ℂ := if b = 0 then .error .nonFinite else .ok (z / (b : ℂ))

/-- Division of real numbers. -/
noncomputable def divR (a b : ℝ) : Outcome ℝ := if b = 0 then .error .nonFinite else .ok (a / b)

/-! ## Tables of spherical harmonics -/

/-- `gsl_sf_legendre_array_e(GSL_SF_LEGENDRE_SCHMIDT, lmax, x, csphase, result)` (library specification): an array
indexed through `gsl_sf_legendre_array_index(l, m)`, `m ≤ l ≤ lmax`; an argument outside `[-1, 1]` is a domain error. -/
noncomputable def gslLegendre (lmax : ℕ) (x cs : ℝ) : Outcome (ℕ → ℕ → Outcome ℝ) :=
  if |x| ≤ 1 then .ok fun l m => if m ≤ l ∧ l ≤ lmax then .ok (schmidt cs l m x) else .error .ub
  else .error .gslAbort

/-- `gsl_sf_legendre_deriv_alt_array_e` (library specification): also the derivatives with respect to
`θ = arccos x`; `x = ±1` is a domain error too. -/
noncomputable def gslLegendreDerivAlt (lmax : ℕ) (x cs : ℝ) :
    Outcome ((ℕ → ℕ → Outcome ℝ) × (ℕ → ℕ → Outcome ℝ)) :=
  if |x| < 1 then .ok
    (fun l m => if m ≤ l ∧ l ≤ lmax then .ok (schmidt cs l m x) else .error .ub,
     fun l m => if m ≤ l ∧ l ≤ lmax then .ok (deriv (fun t => schmidt cs l m (Real.cos t)) (Real.arccos x)) else .error .ub)
  else .error .gslAbort

/-- `struct YlmTable`, fmm_tables.hpp:68-74. -/
structure YlmTable where
  lmax : ℕ
  table : Arr ℂ

namespace YlmTable

/-- The body of the loop over `m`, fmm_tables.hpp:94-103. -/
noncomputable def stepM (result : ℕ → ℕ → Outcome ℝ) (expPhi : ℂ) (l : ℕ) (i : ℕ) (s : Arr ℂ × ℂ) :
    Outcome (Arr ℂ × ℂ) := do
  let m := i + 1
  let r ← result l m
  let Y : ℂ := (r : ℂ) * s.2 / (Real.sqrt 2 : ℂ)
  let t ← s.1.wrZ (lmIndex l m) Y
  let t ← t.wrZ (lmIndex l (-(m : ℤ))) ((starRingEnd ℂ) Y)
  .ok (t, s.2 * expPhi)

/-- The body of the loop over `l`, fmm_tables.hpp:85-104. -/
noncomputable def stepL (result : ℕ → ℕ → Outcome ℝ) (phi : ℝ) (l : ℕ) (tbl : Arr ℂ) : Outcome (Arr ℂ) := do
  let r0 ← result l 0
  let tbl ← tbl.wrZ (lmIndex l 0) (r0 : ℂ)
  let expPhi := Complex.exp (Complex.I * phi)
  let (tbl, _) ← loopM l (stepM result expPhi l) (tbl, expPhi)
  .ok tbl

/-- `YlmTable(lmax, theta, phi)`, fmm_tables.hpp:76-107. -/
noncomputable def make (lmax : ℕ) (theta phi : ℝ) : Outcome YlmTable := do
  let result ← gslLegendre lmax (Real.cos theta) (-1)
  let table ← loopM (lmax + 1) (stepL result phi) (Arr.new ((lmax + 1) * (lmax + 1)))
  .ok ⟨lmax, table⟩

/-- `operator()(l, m)`, fmm_tables.hpp:109-115. -/
def get (t : YlmTable) (l : ℕ) (m : ℤ) : Outcome ℂ := t.table.rdZ (lmIndex l m)

end YlmTable

/-- `struct YlmDerivTable`, fmm_tables.hpp:118-126. -/
structure YlmDerivTable where
  lmax : ℕ
  ylm : Arr ℂ
  dtheta : Arr ℂ

namespace YlmDerivTable

/-- The body of the loop over `m`, fmm_tables.hpp:158-172, for one of the two tables. -/
noncomputable def stepM (result : ℕ → ℕ → Outcome ℝ) (exps : Arr ℂ) (l : ℕ) (i : ℕ) (t : Arr ℂ) :
    Outcome (Arr ℂ) := do
  let m := i + 1
  let r ← result l m
  let e ← exps.rd m
  let Y : ℂ := (r : ℂ) * e / (Real.sqrt 2 : ℂ)
  let t ← t.wrZ (lmIndex l m) Y
  t.wrZ (lmIndex l (-(m : ℤ))) ((starRingEnd ℂ) Y)

/-- The body of the loop over `l`, fmm_tables.hpp:147-173, for one of the two tables. -/
noncomputable def stepL (result : ℕ → ℕ → Outcome ℝ) (exps : Arr ℂ) (l : ℕ) (tbl : Arr ℂ) : Outcome (Arr ℂ) := do
  let r0 ← result l 0
  let tbl ← tbl.wrZ (lmIndex l 0) (r0 : ℂ)
  loopM l (stepM result exps l) tbl

/-- `YlmDerivTable(lmax, theta, phi)`, fmm_tables.hpp:128-176. -/
noncomputable def make (lmax : ℕ) (theta phi : ℝ) : Outcome YlmDerivTable := do
  let expPhi := Complex.exp (Complex.I * phi)
  let (exps, _) ← loopM (lmax + 1) (fun l (s : Arr ℂ × ℂ) => do
    let t ← s.1.wr l s.2
    .ok (t, s.2 * expPhi)) (Arr.new (lmax + 1), 1)
  let (result, dresult) ← gslLegendreDerivAlt lmax (Real.cos theta) (-1)
  let ylm ← loopM (lmax + 1) (stepL result exps) (Arr.new ((lmax + 1) * (lmax + 1)))
  let dtheta ← loopM (lmax + 1) (stepL dresult exps) (Arr.new ((lmax + 1) * (lmax + 1)))
  .ok ⟨lmax, ylm, dtheta⟩

/-- `Y(l, m)`, fmm_tables.hpp:180-182. -/
def Y (t : YlmDerivTable) (l : ℕ) (m : ℤ) : Outcome ℂ := t.ylm.rdZ (lmIndex l m)
/-- `dYdtheta(l, m)`, fmm_tables.hpp:184-186. -/
def dYdtheta (t : YlmDerivTable) (l : ℕ) (m : ℤ) : Outcome ℂ := t.dtheta.rdZ (lmIndex l m)
/-- `dYdphi(l, m)`, fmm_tables.hpp:188-192. -/
noncomputable def dYdphi (t : YlmDerivTable) (l : ℕ) (m : ℤ) : Outcome ℂ := do
  let y ← t.ylm.rdZ (lmIndex l m)
  .ok (Complex.I * (m : ℂ) * y)

end YlmDerivTable

/-! ## Series expansions -/

/-- The static tables of `SeriesExpansion<3>`, series_expansion.hpp:103-106, 130-133. -/
structure Stat3 where
  alm : AlmTable
  s1 : SignTable
  s2 : SignTable
  s3 : SignTable

/-- `SeriesExpansion<3>`, series_expansion.hpp:108-112. -/
structure Exp3 where
  order : ℕ
  center : Vec 3
  coeffs : Arr ℂ

namespace Exp3

/-- Default constructor, series_expansion.hpp:112. -/
def empty : Exp3 := ⟨0, 0, ⟨0, fun _ => 0⟩⟩

/-- `SeriesExpansion(center, order)`, series_expansion.hpp:137-146. -/
noncomputable def new (st : Stat3) (center : Vec 3) (order : ℕ) : Outcome (Stat3 × Exp3) := do
  let st ← if order > st.alm.maxOrder then do
      let alm ← st.alm.refresh order
      let s1 ← st.s1.refresh signFun1 order
      let s2 ← st.s2.refresh signFun2 order
      let s3 ← st.s3.refresh signFun3 order
      .ok ⟨alm, s1, s2, s3⟩
    else .ok st
  .ok (st, ⟨order, center, Arr.new ((1 + order) * (1 + order))⟩)

/-- `operator+=`, series_expansion.hpp:148-163. -/
noncomputable def addEq (e rhs : Exp3) : Outcome Exp3 :=
  open Classical in
  if e.coeffs.size ≠ rhs.coeffs.size ∨ e.center ≠ rhs.center then .error .logicError
  else .ok { e with coeffs := ⟨e.coeffs.size, fun i =>
    if i < e.coeffs.size then e.coeffs.val i + rhs.coeffs.val i else e.coeffs.val i⟩ }

/-- `operator()(n, m)`, series_expansion.hpp:165-176. -/
def get (e : Exp3) (n : ℕ) (m : ℤ) : Outcome ℂ := e.coeffs.rdZ (lmIndex n m)

/-! ## Multipole expansions -/

/-- The body of the loop over the sources, multipole_expansion.hpp:168-185. -/
noncomputable def meAddSource (order : ℕ) (center : Vec 3) (c : Arr ℂ) (src : Source 3) : Outcome (Arr ℂ) := do
  let sph := (Vec.sub src.pos center).toSpherical3
  let Y ← YlmTable.make order (sph 1) (sph 2)
  let (c, _) ← loopM (order + 1) (fun n (s : Arr ℂ × ℝ) => do
    let c ← loopZ (-(n : ℤ)) n (fun m c => do
      let a ← c.rdZ (lmIndex n m)
      let y ← Y.get n (-m)
      c.wrZ (lmIndex n m) (a + ((src.q * s.2 : ℝ) : ℂ) * y)) s.1
    .ok (c, s.2 * sph 0)) (c, 1)
  .ok c

/-- `MultipoleExpansion(center, order, sources)`, multipole_expansion.hpp:163-186. -/
noncomputable def meOfSources (st : Stat3) (center : Vec 3) (order : ℕ) (sources : List (Source 3)) :
    Outcome (Stat3 × Exp3) := do
  let (st, e) ← new st center order
  let c ← sources.foldlM (meAddSource order e.center) e.coeffs
  .ok (st, { e with coeffs := c })

/-- The coefficient `M_j^k` of the shifted expansion, multipole_expansion.hpp:223-238. -/
noncomputable def meShiftCoeff (st : Stat3) (e : Exp3) (Y : YlmTable) (pow : Arr ℝ) (j : ℕ) (k : ℤ) : Outcome ℂ := do
  let M ← loopM (j + 1) (fun n M => do
    let acc ← loopZ (max (-(n : ℤ)) (n + k - j)) (min (n : ℤ) (j + k - n)) (fun m acc => do
      let s ← st.s1.get k m
      let a ← st.alm.get n m
      let b ← st.alm.get (j - n) (k - m)
      let o ← e.get (j - n) (k - m)
      let y ← Y.get n (-m)
      .ok (acc + ((s * a * b : ℝ) : ℂ) * (o * y))) 0
    let p ← pow.rd n
    .ok (M + acc * (p : ℂ))) 0
  let a ← st.alm.get j k
  divC M a

/-- `MultipoleExpansion::shift`, multipole_expansion.hpp:209-245. -/
noncomputable def meShift (st : Stat3) (e : Exp3) (shift : Vec 3) : Outcome (Arr ℂ) := do
  let sph := shift.toSpherical3
  let Y ← YlmTable.make e.order (sph 1) (sph 2)
  let pow ← powTable (sph 0) e.order
  let (c, _) ← loopM (e.order + 1) (fun j (s : Arr ℂ × ℕ) =>
    loopZ (-(j : ℤ)) j (fun k (s : Arr ℂ × ℕ) => do
      let M ← meShiftCoeff st e Y pow j k
      let c ← s.1.wr s.2 M
      .ok (c, s.2 + 1)) s) (Arr.new e.coeffs.size, 0)
  .ok c

/-- `MultipoleExpansion(center, expansions)`, multipole_expansion.hpp:188-201; `expansions[0]` of an empty vector is
undefined. -/
noncomputable def meOfMes (st : Stat3) (center : Vec 3) (expansions : List Exp3) : Outcome (Stat3 × Exp3) :=
  match expansions with
  | [] => .error .ub
  | me0 :: _ => do
    let (st, e) ← new st center me0.order
    let c ← expansions.foldlM (fun c me => do
      let sh ← meShift st me (Vec.sub me.center e.center)
      Exp2.addCoeffs c sh) e.coeffs
    .ok (st, { e with coeffs := c })

/-- `MultipoleExpansion::evaluatePotential`, multipole_expansion.hpp:247-268. -/
noncomputable def mePot (e : Exp3) (x : Vec 3) : Outcome ℝ := do
  let sph := (Vec.sub x e.center).toSpherical3
  let Y ← YlmTable.make e.order (sph 1) (sph 2)
  let rinv ← divR 1 (sph 0)
  let (pot, _) ← loopM (e.order + 1) (fun n (s : ℂ × ℝ) => do
    let pot ← loopZ (-(n : ℤ)) n (fun m pot => do
      let a ← e.get n m
      let y ← Y.get n m
      .ok (pot + a * (s.2 : ℂ) * y)) s.1
    let rp ← divR s.2 (sph 0)
    .ok (pot, rp)) (0, rinv)
  .ok (-pot.re)

/-- One summand of the force components `(r, θ, φ)`: `fr` is the factor `-(n+1)` or `n`. -/
noncomputable def forceTerm (Y : YlmDerivTable) (theta rpow fr : ℝ) (a : ℂ) (n : ℕ) (m : ℤ) (f : Vec 3) :
    Outcome (Vec 3) := do
  let y ← Y.Y n m
  let dt ← Y.dYdtheta n m
  let dp ← Y.dYdphi n m
  let d ← divR (rpow * (a * dp).re) (Real.sin theta)
  .ok ![f 0 + rpow * fr * (a * y).re, f 1 + rpow * (a * dt).re, f 2 + d]

/-- `MultipoleExpansion::evaluateForcefield`, multipole_expansion.hpp:270-304. -/
noncomputable def meForce (e : Exp3) (x : Vec 3) : Outcome (Vec 3) := do
  let sph := (Vec.sub x e.center).toSpherical3
  let Y ← YlmDerivTable.make e.order (sph 1) (sph 2)
  let rp ← divR 1 (sph 0 * sph 0)
  let (f, _) ← loopM (e.order + 1) (fun n (s : Vec 3 × ℝ) => do
    let f ← loopZ (-(n : ℤ)) n (fun m f => do
      let a ← e.get n m
      forceTerm Y (sph 1) s.2 (-((n : ℝ) + 1)) a n m f) s.1
    let rp ← divR s.2 (sph 0)
    .ok (f, rp)) (0, rp)
  .ok (f.toCartesianBasis (sph 1) (sph 2))

/-! ## Local expansions -/

/-- The body of the loop over the sources, local_expansion.hpp:215-232. -/
noncomputable def leAddSource (order : ℕ) (center : Vec 3) (c : Arr ℂ) (src : Source 3) : Outcome (Arr ℂ) := do
  let sph := (Vec.sub src.pos center).toSpherical3
  let Y ← YlmTable.make order (sph 1) (sph 2)
  let rinv ← divR 1 (sph 0)
  let (c, _) ← loopM (order + 1) (fun n (s : Arr ℂ × ℝ) => do
    let c ← loopZ (-(n : ℤ)) n (fun m c => do
      let a ← c.rdZ (lmIndex n m)
      let y ← Y.get n (-m)
      c.wrZ (lmIndex n m) (a + ((src.q * s.2 : ℝ) : ℂ) * y)) s.1
    let rp ← divR s.2 (sph 0)
    .ok (c, rp)) (c, rinv)
  .ok c

/-- `LocalExpansion(center, order, sources)`, local_expansion.hpp:210-233. -/
noncomputable def leOfSources (st : Stat3) (center : Vec 3) (order : ℕ) (sources : List (Source 3)) :
    Outcome (Stat3 × Exp3) := do
  let (st, e) ← new st center order
  let c ← sources.foldlM (leAddSource order e.center) e.coeffs
  .ok (st, { e with coeffs := c })

/-- `x % 2 ? -1 : 1` for a nonnegative `x`. -/
noncomputable def parSign (x : ℕ) : ℝ := if x % 2 = 0 then 1 else -1

/-- The coefficient `L_j^k` of the created expansion, local_expansion.hpp:260-276. -/
noncomputable def m2lCoeff (st : Stat3) (order : ℕ) (incoming : Exp3) (Y : YlmTable) (pow : Arr ℝ) (j : ℕ) (k : ℤ) :
    Outcome ℂ := do
  let L ← loopM (order + 1) (fun n L => do
    let acc ← loopZ (-(n : ℤ)) n (fun m acc => do
      let s ← st.s2.get k m
      let a ← st.alm.get n m
      let b ← st.alm.get (j + n) (m - k)
      let A ← divR (s * a) b
      let o ← incoming.get n m
      let y ← Y.get (j + n) (m - k)
      .ok (acc + (A : ℂ) * (o * y))) 0
    let p ← pow.rd (j + n + 1)
    .ok (L + ((parSign n * p : ℝ) : ℂ) * acc)) 0
  let a ← st.alm.get j k
  .ok (L * (a : ℂ))

/-- `LocalExpansion(center, const ME& incoming)`, local_expansion.hpp:244-279. -/
noncomputable def leOfMe (st : Stat3) (center : Vec 3) (incoming : Exp3) : Outcome (Stat3 × Exp3) := do
  let (st, e) ← new st center incoming.order
  let sph := (Vec.sub incoming.center e.center).toSpherical3
  let Y ← YlmTable.make (2 * e.order) (sph 1) (sph 2)
  let rinv ← divR 1 (sph 0)
  let pow ← powTable rinv (2 * e.order + 1)
  let c ← loopM (e.order + 1) (fun j c =>
    loopZ (-(j : ℤ)) j (fun k c => do
      let L ← m2lCoeff st e.order incoming Y pow j k
      c.wrZ (lmIndex j k) L) c) e.coeffs
  .ok (st, { e with coeffs := c })

/-- `LocalExpansion(center, std::vector<const ME*>)`, local_expansion.hpp:235-242. -/
noncomputable def leOfMes (st : Stat3) (center : Vec 3) (expansions : List Exp3) : Outcome (Stat3 × Exp3) :=
  match expansions with
  | [] => .error .outOfRange
  | me0 :: _ => do
    let (st, e) ← new st center me0.order
    expansions.foldlM (fun (s : Stat3 × Exp3) me => do
      let (st, le) ← leOfMe s.1 center me
      let e ← addEq s.2 le
      .ok (st, e)) (st, e)

/-- The coefficient `L_j^k` of the shifted expansion, local_expansion.hpp:311-328. -/
noncomputable def leShiftCoeff (st : Stat3) (e : Exp3) (Y : YlmTable) (pow : Arr ℝ) (j : ℕ) (k : ℤ) : Outcome ℂ := do
  let L ← loopM (e.order + 1 - j) (fun i L => do
    let n := j + i
    let acc ← loopZ (max (-(n : ℤ)) (k + j - n)) (min (n : ℤ) (k + n - j)) (fun m acc => do
      let s ← st.s3.get k m
      let a ← st.alm.get (n - j) (m - k)
      let b ← st.alm.get n m
      let A ← divR (s * a) b
      let o ← e.get n m
      let y ← Y.get (n - j) (m - k)
      .ok (acc + (A : ℂ) * (o * y))) 0
    let p ← pow.rd (n - j)
    .ok (L + ((parSign (n + j) * p : ℝ) : ℂ) * acc)) 0
  let a ← st.alm.get j k
  .ok ((a : ℂ) * L)

/-- `LocalExpansion::shift`, local_expansion.hpp:295-333. -/
noncomputable def leShift (st : Stat3) (e : Exp3) (shift : Vec 3) : Outcome (Arr ℂ) := do
  let sph := shift.toSpherical3
  let Y ← YlmTable.make (2 * e.order) (sph 1) (sph 2)
  let pow ← powTable (sph 0) e.order
  let (c, _) ← loopM (e.order + 1) (fun j (s : Arr ℂ × ℕ) =>
    loopZ (-(j : ℤ)) j (fun k (s : Arr ℂ × ℕ) => do
      let L ← leShiftCoeff st e Y pow j k
      let c ← s.1.wr s.2 L
      .ok (c, s.2 + 1)) s) (Arr.new e.coeffs.size, 0)
  .ok c

/-- `LocalExpansion(center, const LE& incoming)`, local_expansion.hpp:281-286. -/
noncomputable def leOfLe (st : Stat3) (center : Vec 3) (incoming : Exp3) : Outcome (Stat3 × Exp3) := do
  let (st, e) ← new st center incoming.order
  let c ← leShift st incoming (Vec.sub incoming.center e.center)
  .ok (st, { e with coeffs := c })

/-- `LocalExpansion::evaluatePotential`, local_expansion.hpp:335-356. -/
noncomputable def lePot (e : Exp3) (x : Vec 3) : Outcome ℝ := do
  let sph := (Vec.sub x e.center).toSpherical3
  let Y ← YlmTable.make e.order (sph 1) (sph 2)
  let (pot, _) ← loopM (e.order + 1) (fun n (s : ℂ × ℝ) => do
    let pot ← loopZ (-(n : ℤ)) n (fun m pot => do
      let a ← e.get n m
      let y ← Y.get n m
      .ok (pot + a * (s.2 : ℂ) * y)) s.1
    .ok (pot, s.2 * sph 0)) (0, 1)
  .ok (-pot.re)

/-- `LocalExpansion::evaluateForcefield`, local_expansion.hpp:358-392. -/
noncomputable def leForce (e : Exp3) (x : Vec 3) : Outcome (Vec 3) := do
  let sph := (Vec.sub x e.center).toSpherical3
  let Y ← YlmDerivTable.make e.order (sph 1) (sph 2)
  let (f, _) ← loopM e.order (fun i (s : Vec 3 × ℝ) => do
    let n := i + 1
    let f ← loopZ (-(n : ℤ)) n (fun m f => do
      let a ← e.get n m
      forceTerm Y (sph 1) s.2 n a n m f) s.1
    .ok (f, s.2 * sph 0)) (0, 1)
  .ok (f.toCartesianBasis (sph 1) (sph 2))

end Exp3
end FMM
