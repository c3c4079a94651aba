import Verif.DoubleExp3
import Verif.FltExp2

/-!
# The two-dimensional expansions in binary64 with infinities and NaN

The functions of `Exp2.lean` with the operations of `Double.lean`.  Nothing is tested before a division: the quotient is infinite or NaN.
`std::log(std::complex)` is an arbitrary function.
-/

namespace FMM.D2
open FMM D64 Rounded

/-- `z - w` -/
noncomputable def csub (z w : DC) : DC := ⟨add z.re (neg w.re), add z.im (neg w.im)⟩

/-- `-z` -/
noncomputable def cneg (z : DC) : DC := ⟨neg z.re, neg z.im⟩

/-- `z += a` for a `double` `a` -/
noncomputable def caddr (z : DC) (a : Dbl) : DC := ⟨add z.re a, z.im⟩

/-- `z / w` by the textbook formula, as with `-ffast-math`: no scaling of the operands. -/
noncomputable def cdiv (z w : DC) : DC :=
  let t := add (mul w.re w.re) (mul w.im w.im)
  ⟨div (add (mul z.re w.re) (mul z.im w.im)) t, div (add (mul z.im w.re) (neg (mul z.re w.im))) t⟩

/-- A finite complex number. -/
def cfin (z : ℂ) : DC := ⟨.fin z.re, .fin z.im⟩

/-- `Complex(a)` for a `double` `a` -/
def ofD (a : Dbl) : DC := ⟨a, .fin 0⟩

/-- `SeriesExpansion<2>`, series_expansion.hpp:21-28; the centre is a pair of finite numbers. -/
structure ExpD where
  order : ℕ
  center : ℂ
  coeffs : Arr DC

/-- `std::vector<Complex>(n)` -/
noncomputable def zeros (n : ℕ) : Arr DC := ⟨n, fun _ => czero⟩

/-- Default constructor, series_expansion.hpp:28. -/
noncomputable def empty : ExpD := ⟨0, 0, zeros 0⟩

/-- `SeriesExpansion(center, order)`, series_expansion.hpp:45-50. -/
noncomputable def new (bt : BinomialTable) (center : Vec 2) (order : ℕ) : Outcome (BinomialTable × ExpD) := do
  let bt ← if order > bt.maxOrder then bt.refresh order else .ok bt
  .ok (bt, ⟨order, toC center, zeros (order + 1)⟩)

/-- `operator+=`, series_expansion.hpp:53-69. -/
noncomputable def addEq (e rhs : ExpD) : Outcome ExpD :=
  open Classical in
  if e.coeffs.size ≠ rhs.coeffs.size ∨ e.center ≠ rhs.center then .error .logicError
  else .ok { e with coeffs := ⟨e.coeffs.size, fun i =>
    if i < e.coeffs.size then cadd (e.coeffs.val i) (rhs.coeffs.val i) else e.coeffs.val i⟩ }

/-- `PowTable<Complex>(x, nmax)`, fmm_tables.hpp:22-29. -/
noncomputable def powTable (x : DC) (nmax : ℕ) : Outcome (Arr DC) := do
  let (table, _) ← loopM (nmax + 1)
    (fun n (s : Arr DC × DC) => do
      let t ← s.1.wr n s.2
      .ok (t, cmul s.2 x))
    (zeros (nmax + 1), cfin 1)
  .ok table

/-- The difference of two points, as a complex number. -/
noncomputable def zdiff (x y : ℂ) : DC := csub (cfin x) (cfin y)

/-! ## Multipole expansions -/

/-- The body of the loop over the sources in the ME constructor, multipole_expansion.hpp:42-55. -/
noncomputable def meAddSource (order : ℕ) (center : ℂ) (c : Arr DC) (src : Source 2) : Outcome (Arr DC) := do
  let zrel := zdiff (toC src.pos) center
  let a0 ← c.rd 0
  let c ← c.wr 0 (caddr a0 (.fin src.q))
  let (c, _) ← loopM order (fun i (s : Arr DC × DC) => do
    let a ← s.1.rd (i + 1)
    let c ← s.1.wr (i + 1) (csub a (rsc (.fin src.q) s.2))
    .ok (c, cmul s.2 zrel)) (c, zrel)
  .ok c

/-- `for(j = 1; j <= order; ++j) coefficients[j] /= (double)j`, multipole_expansion.hpp:57-59 and local_expansion.hpp:69-71. -/
noncomputable def divByIndex (order : ℕ) (c : Arr DC) : Outcome (Arr DC) :=
  loopM order (fun i c => do
    let a ← c.rd (i + 1)
    c.wr (i + 1) (cdr a (.fin ((i + 1 : ℕ) : ℝ)))) c

/-- `MultipoleExpansion(center, order, sources)`, multipole_expansion.hpp:38-60. -/
noncomputable def meOfSources (bt : BinomialTable) (center : Vec 2) (order : ℕ) (sources : List (Source 2)) : Outcome (BinomialTable × ExpD) := do
  let (bt, e) ← new bt center order
  let c ← sources.foldlM (meAddSource order e.center) e.coeffs
  let c ← divByIndex order c
  .ok (bt, { e with coeffs := c })

/-- `MultipoleExpansion::shift`, multipole_expansion.hpp:80-98. -/
noncomputable def meShift (bt : BinomialTable) (e : ExpD) (shift : DC) : Outcome (Arr DC) := do
  let pow ← powTable shift e.order
  let a0 ← e.coeffs.rd 0
  let Q : Dbl := a0.re
  let sc ← (zeros (e.order + 1)).wr 0 (ofD Q)
  loopM e.order (fun i sc => do
    let l := i + 1
    let p ← pow.rd l
    let sc ← sc.wr l (cdr (rsc (neg Q) p) (.fin ((l : ℕ) : ℝ)))
    loopM l (fun i' sc => do
      let k := i' + 1
      let a ← sc.rd l
      let ck ← e.coeffs.rd k
      let p ← pow.rd (l - k)
      let b ← bt.get (l - 1) (k - 1)
      sc.wr l (cadd a (rsc (rnd64 b) (cmul ck p)))) sc) sc

/-- `std::transform(this->coefficients, other, plus)`. -/
noncomputable def addCoeffs (c other : Arr DC) : Outcome (Arr DC) :=
  loopM c.size (fun i acc => do
    let a ← acc.rd i
    let b ← other.rd i
    acc.wr i (cadd a b)) c

/-- `MultipoleExpansion(center, expansions)`, multipole_expansion.hpp:63-77. -/
noncomputable def meOfMes (bt : BinomialTable) (center : Vec 2) (expansions : List ExpD) : Outcome (BinomialTable × ExpD) :=
  match expansions with
  | [] => .error .outOfRange
  | me0 :: _ => do
    let (bt, e) ← new bt center me0.order
    let c ← expansions.foldlM (fun c me => do
      let sh ← meShift bt me (zdiff me.center e.center)
      addCoeffs c sh) e.coeffs
    .ok (bt, { e with coeffs := c })

variable (log : DC → DC)

/-- `MultipoleExpansion::evaluatePotential`, multipole_expansion.hpp:100-117. -/
noncomputable def mePot (e : ExpD) (x : Vec 2) : Outcome Dbl := do
  let zrel := zdiff (toC x) e.center
  let a0 ← e.coeffs.rd 0
  let Q : Dbl := a0.re
  let (result, _) ← loopM (e.coeffs.size - 1) (fun i (s : DC × DC) => do
    let a ← e.coeffs.rd (i + 1)
    .ok (cadd s.1 (cmul a s.2), cdiv s.2 zrel)) (rsc Q (log zrel), cdiv (cfin 1) zrel)
  .ok result.re

/-- `MultipoleExpansion::evaluateForcefield`, multipole_expansion.hpp:119-137. -/
noncomputable def meForce (e : ExpD) (x : Vec 2) : Outcome (DVec 2) := do
  let zrel := zdiff (toC x) e.center
  let a0 ← e.coeffs.rd 0
  let Q : Dbl := a0.re
  let (result, _) ← loopM (e.coeffs.size - 1) (fun i (s : DC × DC) => do
    let a ← e.coeffs.rd (i + 1)
    .ok (csub s.1 (cmul (rsc (.fin ((i + 1 : ℕ) : ℝ)) a) s.2), cdiv s.2 zrel))
    (cdiv (ofD Q) zrel, cdiv (cfin 1) (cmul zrel zrel))
  .ok ![neg result.re, result.im]

/-! ## Local expansions -/

/-- The body of the loop over the sources in the LE constructor, local_expansion.hpp:54-67. -/
noncomputable def leAddSource (order : ℕ) (center : ℂ) (c : Arr DC) (src : Source 2) : Outcome (Arr DC) := do
  let zrel := zdiff (toC src.pos) center
  let a0 ← c.rd 0
  let c ← c.wr 0 (cadd a0 (rsc (.fin src.q) (log (cneg zrel))))
  let (c, _) ← loopM order (fun i (s : Arr DC × DC) => do
    let a ← s.1.rd (i + 1)
    let c ← s.1.wr (i + 1) (csub a (rsc (.fin src.q) s.2))
    .ok (c, cdiv s.2 zrel)) (c, cdiv (cfin 1) zrel)
  .ok c

/-- `LocalExpansion(center, order, sources)`, local_expansion.hpp:49-72. -/
noncomputable def leOfSources (bt : BinomialTable) (center : Vec 2) (order : ℕ) (sources : List (Source 2)) : Outcome (BinomialTable × ExpD) := do
  let (bt, e) ← new bt center order
  let c ← sources.foldlM (leAddSource log order e.center) e.coeffs
  let c ← divByIndex order c
  .ok (bt, { e with coeffs := c })

/-- `LocalExpansion::multipoleToLocal`, local_expansion.hpp:92-124. -/
noncomputable def m2l (bt : BinomialTable) (order : ℕ) (center : ℂ) (incoming : ExpD) : Outcome (Arr DC) := do
  let z0 := zdiff incoming.center center
  let inv ← powTable (cdiv (cfin 1) z0) order
  let a0 ← incoming.coeffs.rd 0
  let b0 ← loopM order (fun i b => do
    let k := i + 1
    let ak ← incoming.coeffs.rd k
    let p ← inv.rd k
    .ok (cadd b (cmul (rsc (.fin (Exp2.altSign k)) ak) p))) (cmul a0 (log (cneg z0)))
  let c ← (zeros (order + 1)).wr 0 b0
  loopM order (fun i c => do
    let l := i + 1
    let bl ← loopM (order - 1) (fun i' b => do
      let k := i' + 1
      let ak ← incoming.coeffs.rd k
      let p ← inv.rd k
      let bin ← bt.get (l + k - 1) (k - 1)
      .ok (cadd b (rsc (rnd64 bin) (cmul (rsc (.fin (Exp2.altSign k)) ak) p))))
      (cdr (cneg a0) (.fin ((l : ℕ) : ℝ)))
    let p ← inv.rd l
    c.wr l (cmul bl p)) c

/-- `LocalExpansion(center, const ME& incoming)`, local_expansion.hpp:41-47. -/
noncomputable def leOfMe (bt : BinomialTable) (center : Vec 2) (incoming : ExpD) : Outcome (BinomialTable × ExpD) := do
  let (bt, e) ← new bt center incoming.order
  if incoming.order > 0 then
    let c ← m2l log bt e.order e.center incoming
    .ok (bt, { e with coeffs := c })
  else .error .assertFail

/-- `LocalExpansion(center, std::vector<const ME*>)`, local_expansion.hpp:74-80. -/
noncomputable def leOfMes (bt : BinomialTable) (center : Vec 2) (expansions : List ExpD) : Outcome (BinomialTable × ExpD) :=
  match expansions with
  | [] => .error .outOfRange
  | me0 :: _ => do
    let (bt, e) ← new bt center me0.order
    expansions.foldlM (fun (s : BinomialTable × ExpD) me => do
      let (bt, le) ← leOfMe log s.1 center me
      let e ← addEq s.2 le
      .ok (bt, e)) (bt, e)

/-- `LocalExpansion::shift`, local_expansion.hpp:128-139. -/
noncomputable def leShift (e : ExpD) (shift : DC) : Outcome (Arr DC) :=
  loopM e.order (fun j c =>
    loopM (j + 1) (fun i c => do
      let k := e.order - j - 1 + i
      let a ← c.rd k
      let b ← c.rd (k + 1)
      c.wr k (csub a (cmul shift b))) c) e.coeffs

/-- `LocalExpansion(center, const LE& incoming)`, local_expansion.hpp:82-90. -/
noncomputable def leOfLe (bt : BinomialTable) (center : Vec 2) (incoming : ExpD) : Outcome (BinomialTable × ExpD) := do
  let (bt, e) ← new bt center incoming.order
  if incoming.order > 0 then
    let c ← leShift incoming (zdiff incoming.center e.center)
    .ok (bt, { e with coeffs := c })
  else .error .assertFail

/-- `LocalExpansion::evaluatePotential`, local_expansion.hpp:141-157. -/
noncomputable def lePot (e : ExpD) (x : Vec 2) : Outcome Dbl := do
  let zrel := zdiff (toC x) e.center
  let (result, _) ← loopM e.coeffs.size (fun k (s : DC × DC) => do
    let a ← e.coeffs.rd k
    .ok (cadd s.1 (cmul a s.2), cmul s.2 zrel)) (czero, cfin 1)
  .ok result.re

/-- `LocalExpansion::evaluateForcefield`, local_expansion.hpp:160-176. -/
noncomputable def leForce (e : ExpD) (x : Vec 2) : Outcome (DVec 2) := do
  let zrel := zdiff (toC x) e.center
  let (result, _) ← loopM (e.coeffs.size - 1) (fun i (s : DC × DC) => do
    let a ← e.coeffs.rd (i + 1)
    .ok (cadd s.1 (cmul (rsc (.fin ((i + 1 : ℕ) : ℝ)) a) s.2), cmul s.2 zrel)) (czero, cfin 1)
  .ok ![neg result.re, result.im]

/-! ## Kits -/

/-- `MultipoleExpansion<2>`, `LocalExpansion<2>`. -/
noncomputable def kit : Kit 2 where
  T := BinomialTable
  E := ExpD
  empty := empty
  size := fun e => e.coeffs.size
  leNew := new
  meSrc := meOfSources
  meMes := meOfMes
  leSrc := leOfSources log
  leMes := leOfMes log
  leLe := leOfLe
  addEq := addEq

/-- The operations used by `evaluatePotential`. -/
noncomputable def pot : Obs (kit log) Dbl where
  le := lePot
  me := mePot log
  sum := fun grav safe S x => .ok (potentialSum2 grav safe S x)

/-- The operations used by `evaluateForcefield`. -/
noncomputable def force (feps : ℝ) : Obs (kit log) (DVec 2) where
  le := leForce
  me := meForce
  sum := fun grav safe S x => .ok (forcefieldSum2 grav safe S x feps)

end FMM.D2
