import Verif.Tables
import Verif.Vec
import Mathlib.Analysis.SpecialFunctions.Complex.Log

/-!
# Two-dimensional expansions

`series_expansion.hpp` 21-95, `multipole_expansion.hpp` 19-137, `local_expansion.hpp` 16-176.

The static binomial table is threaded through the constructors.  `std::complex<double>` is `ℂ`; `log 0` and
division by zero are the outcome `nonFinite`.
-/

namespace FMM

/-- `Complex z{v[0], v[1]}`. -/
def toC (v : Vec 2) : ℂ := ⟨v 0, v 1⟩

/-- `SeriesExpansion<2>`, series_expansion.hpp:21-28; multipole and local expansions add no data. -/
structure Exp2 where
  order : ℕ
  center : ℂ
  coeffs : Arr ℂ

namespace Exp2

/-- Default constructor, series_expansion.hpp:28: no coefficients. -/
def empty : Exp2 := ⟨0, 0, ⟨0, fun _ => 0⟩⟩

/-- `SeriesExpansion(center, order)`, series_expansion.hpp:45-50: zero coefficients; refreshes the static
table if necessary. -/
noncomputable def new (bt : BinomialTable) (center : Vec 2) (order : ℕ) :
    Outcome (BinomialTable × Exp2) := do
  let bt ← if order > bt.maxOrder then bt.refresh order else .ok bt
  .ok (bt, ⟨order, toC center, Arr.new (order + 1)⟩)

/-- `operator+=`, series_expansion.hpp:53-69. -/
noncomputable def addEq (e rhs : Exp2) : Outcome Exp2 :=
  open Classical in
  if e.coeffs.size ≠ rhs.coeffs.size ∨ e.center ≠ rhs.center then .error .logicError
  else .ok { e with coeffs := ⟨e.coeffs.size, fun i =>
    if i < e.coeffs.size then e.coeffs.val i + rhs.coeffs.val i else e.coeffs.val i⟩ }

/-! ## Multipole expansions -/

/-- The body of the loop over the sources in the ME constructor, multipole_expansion.hpp:42-55. -/
noncomputable def meAddSource (order : ℕ) (center : ℂ) (c : Arr ℂ) (src : Source 2) : Outcome (Arr ℂ) := do
  let zrel := toC src.pos - center
  let a0 ← c.rd 0
  let c ← c.wr 0 (a0 + (src.q : ℂ))
  let (c, _) ← loopM order (fun i (s : Arr ℂ × ℂ) => do
    let a ← s.1.rd (i + 1)
    let c ← s.1.wr (i + 1) (a - (src.q : ℂ) * s.2)
    .ok (c, s.2 * zrel)) (c, zrel)
  .ok c

/-- `for(j = 1; j <= order; ++j) coefficients[j] /= j`, multipole_expansion.hpp:57-59 and
local_expansion.hpp:69-71. -/
noncomputable def divByIndex (order : ℕ) (c : Arr ℂ) : Outcome (Arr ℂ) :=
  loopM order (fun i c => do
    let a ← c.rd (i + 1)
    c.wr (i + 1) (a / ((i + 1 : ℕ) : ℂ))) c

/-- `MultipoleExpansion(center, order, sources)`, multipole_expansion.hpp:38-60. -/
noncomputable def meOfSources (bt : BinomialTable) (center : Vec 2) (order : ℕ)
    (sources : List (Source 2)) : Outcome (BinomialTable × Exp2) := do
  let (bt, e) ← new bt center order
  let c ← sources.foldlM (meAddSource order e.center) e.coeffs
  let c ← divByIndex order c
  .ok (bt, { e with coeffs := c })

/-- `MultipoleExpansion::shift`, multipole_expansion.hpp:80-98. -/
noncomputable def meShift (bt : BinomialTable) (e : Exp2) (shift : ℂ) : Outcome (Arr ℂ) := do
  let pow ← powTable shift e.order
  let a0 ← e.coeffs.rd 0
  let Q : ℝ := a0.re
  let sc ← (Arr.new (e.order + 1) : Arr ℂ).wr 0 (Q : ℂ)
  loopM e.order (fun i sc => do
    let l := i + 1
    let p ← pow.rd l
    let sc ← sc.wr l (-(Q : ℂ) * p / ((l : ℕ) : ℂ))
    loopM l (fun i' sc => do
      let k := i' + 1
      let a ← sc.rd l
      let ck ← e.coeffs.rd k
      let p ← pow.rd (l - k)
      let b ← bt.get (l - 1) (k - 1)
      sc.wr l (a + ck * p * (b : ℂ))) sc) sc

/-- `std::transform(this->coefficients, other, plus)`: reads `other` up to the size of the first vector. -/
noncomputable def addCoeffs (c other : Arr ℂ) : Outcome (Arr ℂ) :=
  loopM c.size (fun i acc => do
    let a ← acc.rd i
    let b ← other.rd i
    acc.wr i (a + b)) c

/-- `MultipoleExpansion(center, expansions)`, multipole_expansion.hpp:63-77; `expansions.at(0)` throws for an
empty list. -/
noncomputable def meOfMes (bt : BinomialTable) (center : Vec 2) (expansions : List Exp2) :
    Outcome (BinomialTable × Exp2) :=
  match expansions with
  | [] => .error .outOfRange
  | me0 :: _ => do
    let (bt, e) ← new bt center me0.order
    let c ← expansions.foldlM (fun c me => do
      let sh ← meShift bt me (me.center - e.center)
      addCoeffs c sh) e.coeffs
    .ok (bt, { e with coeffs := c })

/-- `MultipoleExpansion::evaluatePotential`, multipole_expansion.hpp:100-117. -/
noncomputable def mePot (e : Exp2) (x : Vec 2) : Outcome ℝ := do
  let zrel := toC x - e.center
  let a0 ← e.coeffs.rd 0
  let Q : ℝ := a0.re
  if zrel = 0 then .error .nonFinite
  else
    let (result, _) ← loopM (e.coeffs.size - 1) (fun i (s : ℂ × ℂ) => do
      let a ← e.coeffs.rd (i + 1)
      .ok (s.1 + a * s.2, s.2 / zrel)) ((Q : ℂ) * Complex.log zrel, 1 / zrel)
    .ok result.re

/-- `MultipoleExpansion::evaluateForcefield`, multipole_expansion.hpp:119-137. -/
noncomputable def meForce (e : Exp2) (x : Vec 2) : Outcome (Vec 2) := do
  let zrel := toC x - e.center
  let a0 ← e.coeffs.rd 0
  let Q : ℝ := a0.re
  if zrel = 0 then .error .nonFinite
  else
    let (result, _) ← loopM (e.coeffs.size - 1) (fun i (s : ℂ × ℂ) => do
      let a ← e.coeffs.rd (i + 1)
      .ok (s.1 - ((i + 1 : ℕ) : ℂ) * a * s.2, s.2 / zrel)) ((Q : ℂ) / zrel, 1 / (zrel * zrel))
    .ok ![-result.re, result.im]

/-! ## Local expansions -/

/-- The body of the loop over the sources in the LE constructor, local_expansion.hpp:54-67. -/
noncomputable def leAddSource (order : ℕ) (center : ℂ) (c : Arr ℂ) (src : Source 2) : Outcome (Arr ℂ) := do
  let zrel := toC src.pos - center
  if zrel = 0 then .error .nonFinite
  else
    let a0 ← c.rd 0
    let c ← c.wr 0 (a0 + (src.q : ℂ) * Complex.log (-zrel))
    let (c, _) ← loopM order (fun i (s : Arr ℂ × ℂ) => do
      let a ← s.1.rd (i + 1)
      let c ← s.1.wr (i + 1) (a - (src.q : ℂ) * s.2)
      .ok (c, s.2 / zrel)) (c, 1 / zrel)
    .ok c

/-- `LocalExpansion(center, order, sources)`, local_expansion.hpp:49-72. -/
noncomputable def leOfSources (bt : BinomialTable) (center : Vec 2) (order : ℕ)
    (sources : List (Source 2)) : Outcome (BinomialTable × Exp2) := do
  let (bt, e) ← new bt center order
  let c ← sources.foldlM (leAddSource order e.center) e.coeffs
  let c ← divByIndex order c
  .ok (bt, { e with coeffs := c })

/-- `double sign = k % 2 == 0 ? 1 : -1`. -/
noncomputable def altSign (k : ℕ) : ℝ := if k % 2 = 0 then 1 else -1

/-- `LocalExpansion::multipoleToLocal`, local_expansion.hpp:92-124, for an expansion of order `order` about
`center`. -/
noncomputable def m2l (bt : BinomialTable) (order : ℕ) (center : ℂ) (incoming : Exp2) :
    Outcome (Arr ℂ) := do
  let z0 := incoming.center - center
  if z0 = 0 then .error .nonFinite
  else
    let inv ← powTable (1 / z0) order
    let a0 ← incoming.coeffs.rd 0
    let b0 ← loopM order (fun i b => do
      let k := i + 1
      let ak ← incoming.coeffs.rd k
      let p ← inv.rd k
      .ok (b + (altSign k : ℂ) * ak * p)) (a0 * Complex.log (-z0))
    let c ← (Arr.new (order + 1) : Arr ℂ).wr 0 b0
    loopM order (fun i c => do
      let l := i + 1
      let bl ← loopM (order - 1) (fun i' b => do
        let k := i' + 1
        let ak ← incoming.coeffs.rd k
        let p ← inv.rd k
        let bin ← bt.get (l + k - 1) (k - 1)
        .ok (b + (altSign k : ℂ) * ak * p * (bin : ℂ))) (-a0 / ((l : ℕ) : ℂ))
      let p ← inv.rd l
      c.wr l (bl * p)) c

/-- `LocalExpansion(center, const ME& incoming)`, local_expansion.hpp:41-47. -/
noncomputable def leOfMe (bt : BinomialTable) (center : Vec 2) (incoming : Exp2) :
    Outcome (BinomialTable × Exp2) := do
  let (bt, e) ← new bt center incoming.order
  if incoming.order > 0 then
    let c ← m2l bt e.order e.center incoming
    .ok (bt, { e with coeffs := c })
  else .error .assertFail

/-- `LocalExpansion(center, std::vector<const ME*>)`, local_expansion.hpp:74-80. -/
noncomputable def leOfMes (bt : BinomialTable) (center : Vec 2) (expansions : List Exp2) :
    Outcome (BinomialTable × Exp2) :=
  match expansions with
  | [] => .error .outOfRange
  | me0 :: _ => do
    let (bt, e) ← new bt center me0.order
    expansions.foldlM (fun (s : BinomialTable × Exp2) me => do
      let (bt, le) ← leOfMe s.1 center me
      let e ← addEq s.2 le
      .ok (bt, e)) (bt, e)

/-- `LocalExpansion::shift`, local_expansion.hpp:128-139: in-place Horner scheme. -/
noncomputable def leShift (e : Exp2) (shift : ℂ) : Outcome (Arr ℂ) :=
  loopM e.order (fun j c =>
    loopM (j + 1) (fun i c => do
      let k := e.order - j - 1 + i
      let a ← c.rd k
      let b ← c.rd (k + 1)
      c.wr k (a - shift * b)) c) e.coeffs

/-- `LocalExpansion(center, const LE& incoming)`, local_expansion.hpp:82-90. -/
noncomputable def leOfLe (bt : BinomialTable) (center : Vec 2) (incoming : Exp2) :
    Outcome (BinomialTable × Exp2) := do
  let (bt, e) ← new bt center incoming.order
  if incoming.order > 0 then
    let c ← leShift incoming (incoming.center - e.center)
    .ok (bt, { e with coeffs := c })
  else .error .assertFail

/-- `LocalExpansion::evaluatePotential`, local_expansion.hpp:141-157. -/
noncomputable def lePot (e : Exp2) (x : Vec 2) : Outcome ℝ := do
  let zrel := toC x - e.center
  let (result, _) ← loopM e.coeffs.size (fun k (s : ℂ × ℂ) => do
    let a ← e.coeffs.rd k
    .ok (s.1 + a * s.2, s.2 * zrel)) (0, 1)
  .ok result.re

/-- `LocalExpansion::evaluateForcefield`, local_expansion.hpp:160-176. -/
noncomputable def leForce (e : Exp2) (x : Vec 2) : Outcome (Vec 2) := do
  let zrel := toC x - e.center
  let (result, _) ← loopM (e.coeffs.size - 1) (fun i (s : ℂ × ℂ) => do
    let a ← e.coeffs.rd (i + 1)
    .ok (s.1 + ((i + 1 : ℕ) : ℂ) * a * s.2, s.2 * zrel)) (0, 1)
  .ok ![-result.re, result.im]

end Exp2
end FMM
