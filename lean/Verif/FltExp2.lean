import Verif.Fmm2D

/-!
# The two-dimensional expansions and kernels in floating-point arithmetic

The operations of `Exp2.lean` and `Fields.lean` with every arithmetic operation replaced by a floating-point one, in the
order in which the C++ code performs them.  `Flt` is the arithmetic: the result of an operation on `double`s is the
rounded exact result; products and quotients of complex numbers, logarithms and norms are library functions.  With exact
arithmetic (`Flt.exact`) all functions coincide with those of `Exp2.lean` (lemmas `*_exact`).
-/

namespace FMM

/-- A floating-point arithmetic. -/
structure Flt where
  /-- rounding: `x op y` on `double`s is `rnd` of the exact result -/
  rnd : ℝ → ℝ
  /-- `std::complex` product -/
  mul : ℂ → ℂ → ℂ
  /-- `std::complex` quotient -/
  div : ℂ → ℂ → ℂ
  /-- `std::log(std::complex)` -/
  log : ℂ → ℂ
  /-- `std::log(double)` -/
  rlog : ℝ → ℝ
  /-- `Vector_<2>::norm`, i.e. `std::hypot` -/
  nrm : Vec 2 → ℝ

namespace Flt

/-- Exact arithmetic. -/
noncomputable def exact : Flt := ⟨id, (· * ·), (· / ·), Complex.log, Real.log, Vec.norm⟩

variable (F : Flt)

/-- complex + complex, componentwise -/
noncomputable def cadd (x y : ℂ) : ℂ := ⟨F.rnd (x.re + y.re), F.rnd (x.im + y.im)⟩
/-- complex - complex, componentwise -/
noncomputable def csub (x y : ℂ) : ℂ := ⟨F.rnd (x.re - y.re), F.rnd (x.im - y.im)⟩
/-- double * complex and complex * double, componentwise -/
noncomputable def rsc (r : ℝ) (z : ℂ) : ℂ := ⟨F.rnd (r * z.re), F.rnd (r * z.im)⟩
/-- complex / double, componentwise -/
noncomputable def cdr (z : ℂ) (r : ℝ) : ℂ := ⟨F.rnd (z.re / r), F.rnd (z.im / r)⟩
/-- `complex += double`: only the real part is touched -/
noncomputable def caddr (z : ℂ) (r : ℝ) : ℂ := ⟨F.rnd (z.re + r), z.im⟩
/-- vector - vector (vector.hpp:37-38; the product with `-1.` is exact) -/
noncomputable def vsub {d : ℕ} (v w : Vec d) : Vec d := fun i => F.rnd (v i - w i)
/-- vector + vector -/
noncomputable def vadd {d : ℕ} (v w : Vec d) : Vec d := fun i => F.rnd (v i + w i)
/-- `v *= r` -/
noncomputable def vscale {d : ℕ} (v : Vec d) (r : ℝ) : Vec d := fun i => F.rnd (v i * r)
/-- `Vector_<2>::norm_sq`, vector.hpp:81-83 -/
noncomputable def normSq (v : Vec 2) : ℝ := F.rnd (F.rnd (v 0 * v 0) + F.rnd (v 1 * v 1))

end Flt

namespace Fl
variable (F : Flt)

/-- `PowTable<Complex>(x, nmax)`, fmm_tables.hpp:22-29. -/
noncomputable def powTable (x : ℂ) (nmax : ℕ) : Outcome (Arr ℂ) := do
  let (table, _) ← loopM (nmax + 1)
    (fun n (s : Arr ℂ × ℂ) => do
      let t ← s.1.wr n s.2
      .ok (t, F.mul s.2 x))
    (Arr.new (nmax + 1), 1)
  .ok table

/-- `operator+=`, series_expansion.hpp:53-69. -/
noncomputable def addEq (e rhs : Exp2) : Outcome Exp2 :=
  open Classical in
  if e.coeffs.size ≠ rhs.coeffs.size ∨ e.center ≠ rhs.center then .error .logicError
  else .ok { e with coeffs := ⟨e.coeffs.size, fun i =>
    if i < e.coeffs.size then F.cadd (e.coeffs.val i) (rhs.coeffs.val i) else e.coeffs.val i⟩ }

/-! ## Multipole expansions -/

/-- The body of the loop over the sources in the ME constructor, multipole_expansion.hpp:42-55. -/
noncomputable def meAddSource (order : ℕ) (center : ℂ) (c : Arr ℂ) (src : Source 2) : Outcome (Arr ℂ) := do
  let zrel := F.csub (toC src.pos) center
  let a0 ← c.rd 0
  let c ← c.wr 0 (F.caddr a0 src.q)
  let (c, _) ← loopM order (fun i (s : Arr ℂ × ℂ) => do
    let a ← s.1.rd (i + 1)
    let c ← s.1.wr (i + 1) (F.csub a (F.rsc src.q s.2))
    .ok (c, F.mul s.2 zrel)) (c, zrel)
  .ok c

/-- `for(j = 1; j <= order; ++j) coefficients[j] /= (double)j`, multipole_expansion.hpp:57-59 and
local_expansion.hpp:69-71. -/
noncomputable def divByIndex (order : ℕ) (c : Arr ℂ) : Outcome (Arr ℂ) :=
  loopM order (fun i c => do
    let a ← c.rd (i + 1)
    c.wr (i + 1) (F.cdr a ((i + 1 : ℕ) : ℝ))) c

/-- `MultipoleExpansion(center, order, sources)`, multipole_expansion.hpp:38-60. -/
noncomputable def meOfSources (bt : BinomialTable) (center : Vec 2) (order : ℕ)
    (sources : List (Source 2)) : Outcome (BinomialTable × Exp2) := do
  let (bt, e) ← Exp2.new bt center order
  let c ← sources.foldlM (meAddSource F order e.center) e.coeffs
  let c ← divByIndex F order c
  .ok (bt, { e with coeffs := c })

/-- `MultipoleExpansion::shift`, multipole_expansion.hpp:80-98; the table holds the rounded binomial coefficients. -/
noncomputable def meShift (bt : BinomialTable) (e : Exp2) (shift : ℂ) : Outcome (Arr ℂ) := do
  let pow ← powTable F shift e.order
  let a0 ← e.coeffs.rd 0
  let Q : ℝ := a0.re
  let sc ← (Arr.new (e.order + 1) : Arr ℂ).wr 0 (Q : ℂ)
  loopM e.order (fun i sc => do
    let l := i + 1
    let p ← pow.rd l
    let sc ← sc.wr l (F.cdr (F.rsc (-Q) p) ((l : ℕ) : ℝ))
    loopM l (fun i' sc => do
      let k := i' + 1
      let a ← sc.rd l
      let ck ← e.coeffs.rd k
      let p ← pow.rd (l - k)
      let b ← bt.get (l - 1) (k - 1)
      sc.wr l (F.cadd a (F.rsc (F.rnd b) (F.mul ck p)))) sc) sc

/-- `std::transform(this->coefficients, other, plus)`: reads `other` up to the size of the first vector. -/
noncomputable def addCoeffs (c other : Arr ℂ) : Outcome (Arr ℂ) :=
  loopM c.size (fun i acc => do
    let a ← acc.rd i
    let b ← other.rd i
    acc.wr i (F.cadd a b)) c

/-- `MultipoleExpansion(center, expansions)`, multipole_expansion.hpp:63-77. -/
noncomputable def meOfMes (bt : BinomialTable) (center : Vec 2) (expansions : List Exp2) :
    Outcome (BinomialTable × Exp2) :=
  match expansions with
  | [] => .error .outOfRange
  | me0 :: _ => do
    let (bt, e) ← Exp2.new bt center me0.order
    let c ← expansions.foldlM (fun c me => do
      let sh ← meShift F bt me (F.csub me.center e.center)
      addCoeffs F c sh) e.coeffs
    .ok (bt, { e with coeffs := c })

/-- `MultipoleExpansion::evaluatePotential`, multipole_expansion.hpp:100-117. -/
noncomputable def mePot (e : Exp2) (x : Vec 2) : Outcome ℝ := do
  let zrel := F.csub (toC x) e.center
  let a0 ← e.coeffs.rd 0
  let Q : ℝ := a0.re
  if zrel = 0 then .error .nonFinite
  else
    let (result, _) ← loopM (e.coeffs.size - 1) (fun i (s : ℂ × ℂ) => do
      let a ← e.coeffs.rd (i + 1)
      .ok (F.cadd s.1 (F.mul a s.2), F.div s.2 zrel)) (F.rsc Q (F.log zrel), F.div 1 zrel)
    .ok result.re

/-- `MultipoleExpansion::evaluateForcefield`, multipole_expansion.hpp:119-137. -/
noncomputable def meForce (e : Exp2) (x : Vec 2) : Outcome (Vec 2) := do
  let zrel := F.csub (toC x) e.center
  let a0 ← e.coeffs.rd 0
  let Q : ℝ := a0.re
  if zrel = 0 then .error .nonFinite
  else
    let (result, _) ← loopM (e.coeffs.size - 1) (fun i (s : ℂ × ℂ) => do
      let a ← e.coeffs.rd (i + 1)
      .ok (F.csub s.1 (F.mul (F.rsc ((i + 1 : ℕ) : ℝ) a) s.2), F.div s.2 zrel))
      (F.div (Q : ℂ) zrel, F.div 1 (F.mul zrel zrel))
    .ok ![-result.re, result.im]

/-! ## Local expansions -/

/-- The body of the loop over the sources in the LE constructor, local_expansion.hpp:54-67. -/
noncomputable def leAddSource (order : ℕ) (center : ℂ) (c : Arr ℂ) (src : Source 2) : Outcome (Arr ℂ) := do
  let zrel := F.csub (toC src.pos) center
  if zrel = 0 then .error .nonFinite
  else
    let a0 ← c.rd 0
    let c ← c.wr 0 (F.cadd a0 (F.rsc src.q (F.log (-zrel))))
    let (c, _) ← loopM order (fun i (s : Arr ℂ × ℂ) => do
      let a ← s.1.rd (i + 1)
      let c ← s.1.wr (i + 1) (F.csub a (F.rsc src.q s.2))
      .ok (c, F.div s.2 zrel)) (c, F.div 1 zrel)
    .ok c

/-- `LocalExpansion(center, order, sources)`, local_expansion.hpp:49-72. -/
noncomputable def leOfSources (bt : BinomialTable) (center : Vec 2) (order : ℕ)
    (sources : List (Source 2)) : Outcome (BinomialTable × Exp2) := do
  let (bt, e) ← Exp2.new bt center order
  let c ← sources.foldlM (leAddSource F order e.center) e.coeffs
  let c ← divByIndex F order c
  .ok (bt, { e with coeffs := c })

/-- `LocalExpansion::multipoleToLocal`, local_expansion.hpp:92-124. -/
noncomputable def m2l (bt : BinomialTable) (order : ℕ) (center : ℂ) (incoming : Exp2) :
    Outcome (Arr ℂ) := do
  let z0 := F.csub incoming.center center
  if z0 = 0 then .error .nonFinite
  else
    let inv ← powTable F (F.div 1 z0) order
    let a0 ← incoming.coeffs.rd 0
    let b0 ← loopM order (fun i b => do
      let k := i + 1
      let ak ← incoming.coeffs.rd k
      let p ← inv.rd k
      .ok (F.cadd b (F.mul (F.rsc (Exp2.altSign k) ak) p))) (F.mul a0 (F.log (-z0)))
    let c ← (Arr.new (order + 1) : Arr ℂ).wr 0 b0
    loopM order (fun i c => do
      let l := i + 1
      let bl ← loopM (order - 1) (fun i' b => do
        let k := i' + 1
        let ak ← incoming.coeffs.rd k
        let p ← inv.rd k
        let bin ← bt.get (l + k - 1) (k - 1)
        .ok (F.cadd b (F.rsc (F.rnd bin) (F.mul (F.rsc (Exp2.altSign k) ak) p))))
        (F.cdr (-a0) ((l : ℕ) : ℝ))
      let p ← inv.rd l
      c.wr l (F.mul bl p)) c

/-- `LocalExpansion(center, const ME& incoming)`, local_expansion.hpp:41-47. -/
noncomputable def leOfMe (bt : BinomialTable) (center : Vec 2) (incoming : Exp2) :
    Outcome (BinomialTable × Exp2) := do
  let (bt, e) ← Exp2.new bt center incoming.order
  if incoming.order > 0 then
    let c ← m2l F bt e.order e.center incoming
    .ok (bt, { e with coeffs := c })
  else .error .assertFail

/-- `LocalExpansion(center, std::vector<const ME*>)`, local_expansion.hpp:74-80. -/
noncomputable def leOfMes (bt : BinomialTable) (center : Vec 2) (expansions : List Exp2) :
    Outcome (BinomialTable × Exp2) :=
  match expansions with
  | [] => .error .outOfRange
  | me0 :: _ => do
    let (bt, e) ← Exp2.new bt center me0.order
    expansions.foldlM (fun (s : BinomialTable × Exp2) me => do
      let (bt, le) ← leOfMe F s.1 center me
      let e ← addEq F s.2 le
      .ok (bt, e)) (bt, e)

/-- `LocalExpansion::shift`, local_expansion.hpp:128-139. -/
noncomputable def leShift (e : Exp2) (shift : ℂ) : Outcome (Arr ℂ) :=
  loopM e.order (fun j c =>
    loopM (j + 1) (fun i c => do
      let k := e.order - j - 1 + i
      let a ← c.rd k
      let b ← c.rd (k + 1)
      c.wr k (F.csub a (F.mul shift b))) c) e.coeffs

/-- `LocalExpansion(center, const LE& incoming)`, local_expansion.hpp:82-90. -/
noncomputable def leOfLe (bt : BinomialTable) (center : Vec 2) (incoming : Exp2) :
    Outcome (BinomialTable × Exp2) := do
  let (bt, e) ← Exp2.new bt center incoming.order
  if incoming.order > 0 then
    let c ← leShift F incoming (F.csub incoming.center e.center)
    .ok (bt, { e with coeffs := c })
  else .error .assertFail

/-- `LocalExpansion::evaluatePotential`, local_expansion.hpp:141-157. -/
noncomputable def lePot (e : Exp2) (x : Vec 2) : Outcome ℝ := do
  let zrel := F.csub (toC x) e.center
  let (result, _) ← loopM e.coeffs.size (fun k (s : ℂ × ℂ) => do
    let a ← e.coeffs.rd k
    .ok (F.cadd s.1 (F.mul a s.2), F.mul s.2 zrel)) (0, 1)
  .ok result.re

/-- `LocalExpansion::evaluateForcefield`, local_expansion.hpp:160-176. -/
noncomputable def leForce (e : Exp2) (x : Vec 2) : Outcome (Vec 2) := do
  let zrel := F.csub (toC x) e.center
  let (result, _) ← loopM (e.coeffs.size - 1) (fun i (s : ℂ × ℂ) => do
    let a ← e.coeffs.rd (i + 1)
    .ok (F.cadd s.1 (F.mul (F.rsc ((i + 1 : ℕ) : ℝ) a) s.2), F.mul s.2 zrel)) (0, 1)
  .ok ![-result.re, result.im]

/-! ## Kernels -/

/-- `potential<2, grav, safe>(src, eval_point)`, fields.hpp:13-27. -/
noncomputable def potential (grav safe : Bool) (src : Source 2) (x : Vec 2) : Outcome ℝ :=
  let r := F.nrm (F.vsub src.pos x)
  if safe = true ∧ r = 0 then .ok 0
  else if r = 0 then .error .nonFinite
  else
    let pot := F.rnd (src.q * F.rlog r)
    .ok (if grav then pot else -pot)

/-- `potential<2, grav, safe>(sources, eval_point)`, fields.hpp:30-42. -/
noncomputable def potentialSum (grav safe : Bool) (sources : List (Source 2)) (x : Vec 2) : Outcome ℝ :=
  sources.foldlM (fun pot src => do
    let p ← potential F grav safe src x
    .ok (F.rnd (pot + p))) 0

/-- `forcefield<2, grav, safe>(src, eval_point, eps)`, fields.hpp:48-66. -/
noncomputable def forcefield (grav safe : Bool) (src : Source 2) (x : Vec 2) (eps : ℝ) : Outcome (Vec 2) :=
  let diff := F.vsub src.pos x
  let rsq := F.normSq diff
  if safe = true ∧ rsq = 0 then .ok (Vec.fill 0)
  else if F.rnd (rsq + eps) = 0 then .error .nonFinite
  else
    let frc := F.vscale diff (F.rnd (src.q / F.rnd (rsq + eps)))
    .ok (if grav then frc else Vec.neg frc)

/-- `forcefield<2, grav, safe>(sources, eval_point, eps)`, fields.hpp:69-81. -/
noncomputable def forcefieldSum (grav safe : Bool) (sources : List (Source 2)) (x : Vec 2) (eps : ℝ) :
    Outcome (Vec 2) :=
  sources.foldlM (fun frc src => do
    let f ← forcefield F grav safe src x eps
    .ok (F.vadd frc f)) (Vec.fill 0)

/-! ## Kits -/

/-- `MultipoleExpansion<2>`, `LocalExpansion<2>` in floating point. -/
noncomputable def kit : Kit 2 where
  T := BinomialTable
  E := Exp2
  empty := Exp2.empty
  size := fun e => e.coeffs.size
  leNew := Exp2.new
  meSrc := meOfSources F
  meMes := meOfMes F
  leSrc := leOfSources F
  leMes := leOfMes F
  leLe := leOfLe F
  addEq := addEq F

/-- The operations used by `evaluatePotential`. -/
noncomputable def pot : Obs (kit F) ℝ where
  le := lePot F
  me := mePot F
  sum := potentialSum F

/-- The operations used by `evaluateForcefield`. -/
noncomputable def force (feps : ℝ) : Obs (kit F) (Vec 2) where
  le := leForce F
  me := meForce F
  sum := fun grav safe S x => forcefieldSum F grav safe S x feps

end Fl

/-! ## Exact arithmetic -/

namespace Flt

@[simp] theorem cadd_exact (x y : ℂ) : exact.cadd x y = x + y := rfl
@[simp] theorem csub_exact (x y : ℂ) : exact.csub x y = x - y := rfl
@[simp] theorem rsc_exact (r : ℝ) (z : ℂ) : exact.rsc r z = r * z := by
  apply Complex.ext <;> simp [rsc, exact]
@[simp] theorem cdr_exact (z : ℂ) (r : ℝ) : exact.cdr z r = z / r := by
  apply Complex.ext <;> simp [cdr, exact]
@[simp] theorem caddr_exact (z : ℂ) (r : ℝ) : exact.caddr z r = z + r := by
  apply Complex.ext <;> simp [caddr, exact]
@[simp] theorem vsub_exact {d : ℕ} (v w : Vec d) : exact.vsub v w = Vec.sub v w := by
  funext i; simp [vsub, exact, Vec.sub, Vec.add, Vec.neg, Vec.scale, sub_eq_add_neg]
@[simp] theorem vadd_exact {d : ℕ} (v w : Vec d) : exact.vadd v w = Vec.add v w := rfl
@[simp] theorem vscale_exact {d : ℕ} (v : Vec d) (r : ℝ) : exact.vscale v r = Vec.scale v r := rfl
@[simp] theorem normSq_exact (v : Vec 2) : exact.normSq v = Vec.normSq v := by
  simp [normSq, exact, Vec.normSq]
@[simp] theorem mul_exact (x y : ℂ) : exact.mul x y = x * y := rfl
@[simp] theorem div_exact (x y : ℂ) : exact.div x y = x / y := rfl
@[simp] theorem log_exact : exact.log = Complex.log := rfl
@[simp] theorem rlog_exact : exact.rlog = Real.log := rfl
@[simp] theorem nrm_exact : exact.nrm = Vec.norm := rfl
@[simp] theorem rnd_exact (x : ℝ) : exact.rnd x = x := rfl

end Flt

namespace Fl
open Flt

theorem powTable_exact (x : ℂ) (n : ℕ) : powTable exact x n = FMM.powTable x n := rfl
theorem addEq_exact : addEq exact = Exp2.addEq := rfl
theorem meAddSource_exact : meAddSource exact = Exp2.meAddSource := by
  funext order center c src
  simp only [meAddSource, Exp2.meAddSource, csub_exact, caddr_exact, rsc_exact, mul_exact]
theorem divByIndex_exact : divByIndex exact = Exp2.divByIndex := by
  funext order c
  simp only [divByIndex, Exp2.divByIndex, cdr_exact, Complex.ofReal_natCast]
theorem meOfSources_exact : meOfSources exact = Exp2.meOfSources := by
  funext bt center order sources
  simp only [meOfSources, Exp2.meOfSources, meAddSource_exact, divByIndex_exact]
theorem meShift_exact : meShift exact = Exp2.meShift := by
  funext bt e shift
  simp only [meShift, Exp2.meShift, powTable_exact, rsc_exact, cdr_exact, cadd_exact, mul_exact, rnd_exact,
    Complex.ofReal_neg, Complex.ofReal_natCast, mul_comm (Complex.ofReal _) (_ * _)]
theorem addCoeffs_exact : addCoeffs exact = Exp2.addCoeffs := rfl
theorem meOfMes_exact : meOfMes exact = Exp2.meOfMes := by
  funext bt center es
  cases es with
  | nil => rfl
  | cons e es => simp only [meOfMes, Exp2.meOfMes, meShift_exact, addCoeffs_exact, csub_exact]
theorem mePot_exact : mePot exact = Exp2.mePot := by
  funext e x
  simp only [mePot, Exp2.mePot, csub_exact, rsc_exact, cadd_exact, mul_exact, div_exact, log_exact]
theorem meForce_exact : meForce exact = Exp2.meForce := by
  funext e x
  simp only [meForce, Exp2.meForce, csub_exact, rsc_exact, mul_exact, div_exact, Complex.ofReal_natCast]
theorem leAddSource_exact : leAddSource exact = Exp2.leAddSource := by
  funext order center c src
  simp only [leAddSource, Exp2.leAddSource, csub_exact, cadd_exact, rsc_exact, div_exact, log_exact]
theorem leOfSources_exact : leOfSources exact = Exp2.leOfSources := by
  funext bt center order sources
  simp only [leOfSources, Exp2.leOfSources, leAddSource_exact, divByIndex_exact]
theorem m2l_exact : m2l exact = Exp2.m2l := by
  funext bt order center e
  simp only [m2l, Exp2.m2l, powTable_exact, rsc_exact, cdr_exact, cadd_exact, csub_exact, mul_exact, div_exact,
    log_exact, rnd_exact, Complex.ofReal_natCast]
  simp only [mul_comm (Complex.ofReal _) (Complex.ofReal _ * _ * _)]
theorem leOfMe_exact : leOfMe exact = Exp2.leOfMe := by
  funext bt center e
  simp only [leOfMe, Exp2.leOfMe, m2l_exact]
theorem leOfMes_exact : leOfMes exact = Exp2.leOfMes := by
  funext bt center es
  cases es with
  | nil => rfl
  | cons e es => simp only [leOfMes, Exp2.leOfMes, leOfMe_exact, addEq_exact]
theorem leShift_exact : leShift exact = Exp2.leShift := rfl
theorem leOfLe_exact : leOfLe exact = Exp2.leOfLe := rfl
theorem lePot_exact : lePot exact = Exp2.lePot := rfl
theorem leForce_exact : leForce exact = Exp2.leForce := by
  funext e x
  simp only [leForce, Exp2.leForce, csub_exact, cadd_exact, rsc_exact, mul_exact, Complex.ofReal_natCast]
theorem potential_exact : potential exact = FMM.potential (d := 2) := by
  funext grav safe src x
  simp only [potential, FMM.potential, vsub_exact, nrm_exact, rlog_exact, rnd_exact, if_true]
theorem potentialSum_exact : potentialSum exact = FMM.potentialSum (d := 2) := by
  funext grav safe S x
  simp only [potentialSum, FMM.potentialSum, potential_exact, rnd_exact]
theorem forcefield_exact : forcefield exact = FMM.forcefield (d := 2) := by
  funext grav safe src x eps
  simp only [forcefield, FMM.forcefield, vsub_exact, normSq_exact, rnd_exact, vscale_exact, if_true]
theorem forcefieldSum_exact : forcefieldSum exact = FMM.forcefieldSum (d := 2) := by
  funext grav safe S x eps
  simp only [forcefieldSum, FMM.forcefieldSum, forcefield_exact, vadd_exact]

/-- In exact arithmetic the floating-point expansions are the expansions of `Exp2.lean`. -/
theorem kit_exact : kit exact = kit2 := by
  simp only [kit, kit2, meOfSources_exact, meOfMes_exact, leOfSources_exact, leOfMes_exact, leOfLe_exact, addEq_exact]

end Fl
end FMM
