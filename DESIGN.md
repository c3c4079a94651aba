# Formal model of jrotheneder/FMM — design

Code under study: `/repo/fmm/*.hpp` (header-only C++17 fast multipole method in two and three
dimensions), plus the glue in `/repo/fmm/examples/integrator.cpp` and
`/repo/fmm/mathematica/MathematicaFMM.cpp`, the package `MathematicaFMM.wl`. The list of properties is `properties.jsonl`; the status of
every property with exact theorem names is `MANIFEST.json`.

## 1. What kind of model

* **Shallow embedding.** Every C++ function under study is a Lean function, written to follow the
  control flow of the source (loops are folds/`loopN`, running powers are loop state, `if`s are kept),
  with a comment giving file and lines. Closed forms are *lemmas about* those functions.
* **Numbers.** `double` is modelled by `ℝ` and `std::complex<double>` by `ℂ`: exact arithmetic.
  The geometric decisions (which box, which neighbour, which bucket) are modelled a second time with a rounding function
  after every operation (`Rounding`, `RoundingTree`, `RoundingBalanced`, C62–C71); with the identity as rounding function this is the exact model
  (`boxAt_id`, `adjacent_id`, `lookup_exact`, `leafIndices_id`, `adaptiveBuild_id`, `adaptiveLists_id`, `balancedLists_id`). The kernels, direct sums and two-dimensional expansions are modelled
  a second time with a floating-point arithmetic `Flt` (`FltExp2`, `FltPairs`): every operation on `double`s is followed by a rounding, complex products, quotients,
  logarithms and norms are arbitrary functions with relative error at most `u`; with `Flt.exact` this is the exact model (lemmas `*_exact`). The three-dimensional code is modelled a second time with `Flt3` (`FltExp3`,
  `FltPairs3`), which adds the trigonometric functions (relative error `u`, absolute for the angles) and GSL's Legendre functions and derivatives (absolute error `g`,
  resp. `g l`). These arithmetics have unbounded exponents. The kernels and direct sums are modelled a third time in binary64 with subnormal numbers, infinities and NaN (`Double`, C95), and so are the three-dimensional (`DoubleExp3`, C96-C98) and two-dimensional expansions (`DoubleExp2`, C100), with arbitrary functions for the library and the static tables; complex products and quotients follow the textbook formulas (`-ffast-math` implies `-fcx-limited-range`). Integer types are
  modelled by `ℕ`/`ℤ`; where wrap-around or conversion can be reached (`uint32_t` flat index,
  double→unsigned conversions) the model makes it explicit.
* **Failure.** `Outcome α = Except Err α`; `Err` distinguishes `logicError`, `runtimeError`,
  `outOfRange` (C++ exceptions), `assertFail`, `gslAbort` (GSL default error handler) and `ub`
  (undefined behaviour: out-of-bounds access, null dereference, out-of-range float→unsigned conversion).
  UB is an outcome, never assumed away: a theorem "construction returns `.ok`" says no UB is reached.
  Singular kernels (`log 0`, `1/0`) are the outcome `nonFinite`. `fuel` means "the loop is still running";
  a terminating computation is one that gives the same `.ok` value for every sufficiently large fuel, a
  diverging one gives `fuel` for every amount of fuel.
* **Arrays** are `Arr` (size plus total function); every read and write goes through a bounds check that
  yields `ub` for `operator[]` and `outOfRange` for `.at`.
* **Trees.** Node addresses are paths (lists of child indices) in the adaptive tree and array
  positions in the balanced one; object fields are maps from addresses ("structure of arrays").
  Pointer identity = path identity.
* **Passes** (`FmmPasses`): one model for both trees and dimensions, parametric in the expansion classes
  (`Kit`: constructors, `operator+=`; `Obs`: the evaluation functions), in the address type, and in a
  `Shape` (what a pointer dereference returns). State `Exps`: static tables and the two expansion members of
  all nodes. Adaptive nodes and leaves of one level are processed in one parallel region (`nowait`), hence
  one combined loop. The expansion members are created when the nodes are; the model creates them after the
  lists instead (nothing reads them in between).
* **Parallel loops.** (a) atomic accumulation loops: a schedule is any permutation/interleaving of the
  individual atomic updates; (b) level loops: a schedule is any permutation of the iterations, and
  data-race freedom (iteration i writes only its own node and reads nothing another iteration of that
  loop writes) is proved from the definition of the loop body.
  Because an iteration that is race free in this sense computes the same value from every state other
  iterations can produce, any interleaving of iterations is equivalent to running them one after the other.
  The table caches are only written when the order grows, which never happens inside a parallel loop
  (part of the race-freedom statement: no iteration changes the tables).
* **Static tables.** The process-wide caches are explicit state; theorems quantify over all histories of
  `refresh` calls made before the operation under study.

## 2. Trusted base

* Lean 4.33.0 kernel; axioms `propext`, `Classical.choice`, `Quot.sound` only (checked by `vcheck`).
* The reading of C++ semantics in the model definitions (cited line by line).
* Library specifications taken as given: `std::vector/queue/tuple/array`, `std::floor/ceil/log/pow`,
  `hypot`, `atan2/acos`, `std::complex log`; `gsl_sf_choose`, `gsl_sf_fact` (exact values; abort above
  170!); `gsl_sf_legendre_array_e` (Schmidt semi-normalised associated Legendre functions of the GSL manual with
  the factor `csphase^m`, defined in `Legendre.lean` by Rodrigues' formula; domain `|x| <= 1`) and
  `gsl_sf_legendre_deriv_alt_array_e` (the same and their derivatives with respect to `theta = arccos x`; domain
  `|x| < 1`, as documented: `x = +-1` is a domain error, which GSL's default handler turns into an abort).
  `gsl_odeiv2_driver` with `gsl_odeiv2_step_rk4` (C101): the classical Runge-Kutta formula with step doubling.
  `gsl_sf_choose` overflows above row 1029, so 2D statements are restricted to orders <= 1029 (and C22 shows that the
  program aborts above); `int` index arithmetic (`n(n+1)/2`, ...) does not overflow for such orders.
* `std::pow` of integers by integers and `std::log` quotients are the exact real values (an exact power of
  `2^d` gives an exact height).

### Not modelled
The accuracy of the three-dimensional forces in `double` between the cones of slope `2^-29` (C87) and `2^-21` (C88); underflow and overflow outside of the direct sums (C95), of the trees in the plane (C105 to C107) and of the trees in space (C108 to C110, C112 to C114); `-ffast-math` (the makefiles use it) beyond the order of additions and reciprocals in the direct sums (C93); file-system effects of `toFile` beyond the sequence of lines
produced; Mathematica's LibraryLink memory management and GSL's step size controller (an oracle in C101); memory exhaustion;
running time (the numbers of kernel operations are bounded in C115). Two test programs do not compile and are not modelled: `test/point_orthtree.cpp` includes `balanced_point_orthtree.hpp` and `test/expansions.cpp` includes `../direct.hpp`, neither of which exists (and the latter uses template parameters the expansions no longer have).

## 3. Modules (lean/Verif)

| module | code modelled |
|---|---|
| `Basic` | outcomes, loop combinators |
| `Vec` | `vector.hpp` |
| `Geometry` | `abstract_orthtree.hpp` (boxes, adjacency, containment, child directions), `getOrthant`, data range |
| `Index` | `balanced_orthtree.hpp` (leaf indices, flat index, Morton index) |
| `Tables` | `fmm_tables.hpp`, `fmm_general.hpp` sign functions |
| `Fields` | `fields.hpp`, schedules |
| `Exp2*` | 2D expansions: `series_expansion.hpp`, `multipole_expansion.hpp`, `local_expansion.hpp` |
| `Exp3*` | 3D expansions, Legendre / solid harmonics |
| `Adaptive*` | `adaptive_orthtree.hpp`, `adaptive_point_orthtree.hpp`, `adaptive_fmm_tree.hpp` |
| `Balanced*` | `balanced_fmm_tree.hpp` |
| `Fmm*` | upward/downward passes, evaluation, end-to-end statements |
| `ExactTwo` | exact value of the balanced tree of height two (for C41) |
| `Dump` | `toFile` of the three trees |
| `Glue`, `FileIO` | `examples/integrator.cpp`, `mathematica/MathematicaFMM.cpp`, `mathematica/mathematica.cpp`, file functions of `fmm_general.hpp` |
| `TestProgs` | the programs in `test/` |
| `Print` | `operator<<` of `vector.hpp` and `series_expansion.hpp`, `debugging.hpp` |
| `Minimal` | `examples/minimal.cpp` |
| `TreeMain` | `main` of `test/fmm_tree.cpp` (`PropsTreeMainEx`: a terminated run) |
| `Integrator` | `main` of `examples/integrator.cpp`, with the ODE solver of GSL |
| `Double` | kernels and direct sums of `fields.hpp` in binary64 with subnormal numbers, infinities and NaN |
| `DoubleExp3` | the three-dimensional expansions in binary64 with infinities and NaN |
| `DoubleTree3`, `DoubleEval3`, `DoubleGeo3`, `DoubleTrees3` | the trees with these expansions: where a coefficient is not finite, and that it stays so |
| `DoubleAgree3`, `DoubleAgreeEval3`, `DoubleAgreeTree3`, `DoubleBox3`, `DoubleLib3` | binary64 against the same arithmetic without a largest number: operations, expansions, trees; size of the boxes; an instance |
| `DoubleExp2`, `DoubleAgree2`, `DoubleAgreeTree2` | the same for two dimensions |
| `KitSim`, `KitSimTree` | two sets of expansion classes in the same tree: if related operations give related results, related trees and values result |
| `TreeInv` | invariants of boxes and sources that pass from a node to its children |
| `Lifetime` | destructors of the trees and of their nodes; ownership of nodes and leaf vectors |
| `Rounding*`, `Ieee` | boxes, adjacency, containment, orthants, look-up, root box, leaf indices, construction and lists of the adaptive and the balanced tree with rounding; IEEE round-to-nearest-even |
| `FltExp2`, `FltPairs`, `FltCalc`, `FltDirect`, `FltIeee`, `FltOps`, `FltOpsLE` | kernels, direct sums, all-pairs loops and two-dimensional expansions with rounding after every operation; calculus of rounding errors; IEEE arithmetic as an instance |
| `LowCalc`, `LowOps`, `LowOpsLE`, `LowLaws`, `LowDirect`, `LowEval`, `LowTree`, `LowIeee` | the calculus with gradual underflow, carried through the two-dimensional solver; `double` as an instance |
| `HighCalc`, `HighOps`, `HighLaws`, `HighDirect`, `HighEval`, `HighTree` | bounds on the magnitude of every intermediate result of the two-dimensional solver, as powers of two; `PropsHigh` the theorems of C106 |
| `LowBalanced`, `HighBalanced` | the same for the balanced tree; `PropsLowBalanced` the theorems of C107 |
| `LowYlm3`, `LowScale3`, `LowVec3`, `LowRun3`, `LowOps3`, `LowOpsLE3`, `LowLaws3`, `LowDirect3`, `LowEval3`, `LowTree3`, `LowIeee3` | the calculus with gradual underflow in space: harmonics, expansions, passes, evaluation of potentials; `PropsLow3` the theorems of C108; `LowBalanced3`, `PropsLowBalanced3` the balanced tree (C109) |
| `LowFrame3`, `LowForceRun3`, `LowForceAp3`, `LowForceDirect3`, `LowForceEval3`, `LowForceTree3`, `LowForceIeee3` | the same for forces: frames of spherical coordinates, gradients of expansions, direct sums; `PropsLowForce3` the theorems of C112, `PropsLowForceBalanced3` those of C113 |
| `PropsFailures` | C111: exactly when single operations fail, and how |
| `HighCalc3`, `HighOps3`, `HighLib3`, `HighLaws3`, `HighEval3`, `HighTree3`, `HighBalanced3` | bounds on the magnitude of every intermediate result of the three-dimensional solver (potentials); `PropsHigh3` the theorems of C110 |
| `HighForce3`, `HighForceTree3` | the same for forces; `PropsHighForce3` the theorems of C114 |
| `WorkTree`, `WorkKit`, `WorkRun` | bounds on the sizes of lists and the number of nodes of a tree; a kit that counts its operations; the operations of the passes. `PropsWork`, `PropsWorkBalanced`, `PropsWorkExact` the theorems of C115 |
| `LinLaws`, `LinTrees`, `LinKits` | what single sources contribute to the results of the operations, and to the values computed by a tree; the four kernels. `PropsLinear` the theorems of C116 |
| `LinScale`, `LinScaleTree`, `LinScaleKits` | boxes, trees, contributions of single sources, and the four kernels when all coordinates are multiplied by a constant. `PropsUnits` the theorems of C117 |
| `LinGrad`, `LinGradTree`, `LinGradKits` | derivatives of the contributions of single sources in the interior of the box of a leaf. `PropsTreeGradient` the theorems of C118 |
| `LinRecip`, `LinRecipKits`, `LinRecipPlane` | exchange of source and evaluation point in the contribution of a single source. `PropsReciprocity` the theorems of C119 and C120 |
| `LinHarm`, `LinHarmTree` | the contributions of a single source have divergence zero: holomorphic functions in the plane, second derivatives of solid harmonics in space; from there to the trees. `PropsLaplace` the theorems of C121 |
| `BenchProgs` | the benchmark programs `fmm_efficiency.cpp` and `accuracy_seq_speedup.cpp`: loops over numbers of threads, vectors of timings, log files; readings of the clock and the computations are parameters. |
| `Repro`, `ReproTree`, `ReproKits`, `PropsRepro` | exchange of the iterations of a loop (`Frame`: what an iteration writes and reads), levels of the trees for an arbitrary rounding, static tables after the first node; C123 |
| `Wolfram`, `PropsWolfram` | `mathematica/MathematicaFMM.wl` (declarations, usage messages), the reads of `MArgument` in `MathematicaFMM.cpp`, calls of `fmm_mathematica_test.m`; C124 |
| `Origin`, `PropsOrigin`, `PropsOriginForce` | no new code: root box, direct sums and inputs of the trees when all positions are moved; C125 |
| `PropsAccuracySharp` | no new code: lower bounds of the error of balanced trees in the plane; C41 |
| `PropsAccuracyUnits` | no new code: exact value of a balanced tree of height two in space, scaled down; the error is not bounded by any function of `eps` (C41) |
| `PropsAccuracyAdaptive` | no new code: the same lower bounds for adaptive trees, in the plane and in space; C41 |
| `AxTree`, `AxLaws`, `AxKits` | no new code: boxes, trees, contributions of single sources, and the four kernels when axes are exchanged. `PropsAxes`, `PropsAxesForce` the theorems of C126, `PropsMirror` the counterexample for reflections |
| `MiTree`, `MiLaws`, `MiKits` | no new code: the same when axes are reflected. `PropsMirrorOff` the theorems of C127 |
| `PropsSingle`, `PropsOrders` | no new code: the theorems of C128 and C129 |
| `FmmRel`, `FmmRelTrees`, `FmmRelBalanced`, `RoundedFmm` | the passes for predicates that depend on the node; constructors and evaluation of both trees with rounding |
| `FmmFail`, `PropsOrderZero` | passes that must fail (an assertion or a read outside a table in every shift between levels), order 0 |
| `FltGeo`, `FltLaws`, `FltEval`, `FltTree`, `FltBalanced` | geometry of the computed boxes, error bounds through the passes, evaluation (two dimensions) |
| `L2`, `Solid*` | Euclidean norms of the coefficients of one degree; the translations of solid harmonics in these norms |
| `FltExp3`, `FltYlm`, `FltVec3`, `FltRun3`, `FltOps3`, `FltOpsLE3`, `FltDirect3`, `FltPairs3`, `FltIeee3` | three-dimensional tables, kernels, all-pairs loops and expansions with rounding after every operation; their error bounds; IEEE arithmetic as an instance |
| `FltGeo3`, `FltLaws3`, `FltEval3`, `FltTree3`, `FltBalanced3` | as `FltGeo` … `FltBalanced`, in three dimensions |
| `FltForceRun3`, `FltForceAp3`, `FltForceEval3`, `FltForceTree3`, `FltForceIeee3` | rounding errors of the three-dimensional force evaluation, of expansions and in trees |
| `Props*` | the property theorems (statements use only small specifications) |

## 4. Per property: what is modelled and how it is proved

* **C01, C02** direction/orthant maps as functions on `Fin d → ℝ`; bit arithmetic via `Nat.testBit`.
* **C03** boxes of a tree are described by integer grid coordinates at their depth; adjacency is proved
  equivalent to intersection of closed boxes for arbitrary descendants of one root.
* **C04** `getDataRange` fold + padding. *False as stated* (padding is multiplicative): exact
  characterisation, negation with witness, and a `_partial` theorem for ranges with lower ≤ 0 ≤ upper.
* **C05–C07** exact functions with 32/64-bit wrap; bijectivity by digit arithmetic.
* **C08** BFS with expansion while traversing, arrays with running offsets; induction over levels.
* **C09** bucket distribution + Morton lookup; partition proved as multiset equality.
* **C10, C24** logs of reals, ceil; conversion to unsigned is an `Outcome`.
* **C11–C13** the level-by-level refinement loop is run as in the code; its final heap is proved equal to
  an explicit description by paths; C12 both directions.
* **C14** queue-based BFS; proved to enumerate levels.
* **C15, C17 / C16 / C18, C19** the neighbourhood visitor is run in BFS order on the heap; final lists are
  characterised by adjacency; exactly-once by first non-adjacent truncation level.
* **C20–C23, C25, C57** table models with explicit allocation size; history = list of refreshes. C23 is
  false: negation with witness. C25 is false for order ≥ 43: negation, plus `_partial` for order ≤ 42.
* **C26–C33** 2D expansions over ℂ; generating-function/binomial identities; tail of log series.
* **C34–C38** fields and schedules.
* **C39, C40, C44, C55** passes over the heap produce for each node the expansions determined by paths;
  combined with C17/C19 and C26–C30.
* **C41** false as stated: negation with witness (`PropsAccuracy`; the exact value of a balanced tree of height two with the
  freshly started program is computed in `ExactTwo`); the true bound is C39/C40, which guarantees `eps` when `eps²/Σ|q|` is passed.
* **C42, C43, C45** statements about the evaluation functions of the tree model.
* **C46, C47** real/trigonometric identities.
* **C48** arrays with bounds (`Arr`), loops in arbitrary order write disjoint slots or rows; combined with C35, C36, C40, C53, C60.
* **C49–C54** 3D: solid harmonics as coefficients of `(z t + (w t² − w̄)/2)^l / l!`, obtained from
  Rodrigues' formula by Taylor expansion; translation theorems by comparing coefficients; addition
  theorem by the Bonnet recurrence; Legendre generating function for the error bounds.
* **C58, C59** gradients of the solid harmonics series, bounded through the tail of the differentiated Legendre
  generating function; the generic tree induction carries a predicate of admissible evaluation points.
* **C60** the smoothed and unsmoothed kernels differ by at most `f/|x-s|^3` (`^5`), and sources treated by expansions are at
  least one box side away.
* **C61** formatted extraction as a stream state machine over tokens; closed form per column.
* **C56** the dump as a breadth-first visitor writing lines of fields; the formatting of numbers (15 digits in the data file, 6 in the
  others) is not modelled.
* **C62–C65** error propagation through the descent in absolute terms: with `δ = 4u(C+L)` a computed centre at depth `j` is off
  by at most `4jδ`, corners by `(4j+5)δ`, the differences of the adjacency test by `(8k+15)δ`; exact differences are odd multiples of
  half the smaller side, so that the sign is right. C63 and C65 are false with rounding: witnesses over `ℚ` with IEEE
  rounding, evaluated by the kernel; for C65 the centres on the route are listed and an induction shows that the box does not move
  any more.
* **C66–C68** simulation: the rounded construction over the sources is the exact construction over *shadow sources* (the centre
  of the exact box at the address to which rounded arithmetic routes the source), with the computed boxes in place of the exact ones;
  partition, capacity and shape therefore hold for every rounding function. For the lists, every adjacency test and
  sanity check the neighbourhood pass makes has the exact result (C62), so the pass runs through the same states. `nrm` is the
  computed Euclidean norm, any function with relative error at most 1/1000.
* **C69, C70** the same for the balanced tree: the rounded construction writes the nodes of the exact one with the computed boxes,
  the flat index of a leaf is computed from its computed centre (C64: the exact one), and the distribution over the sources is
  the exact distribution over the centres of the exact leaves with the computed indices.
* **C71** forward error of `getDataRange` and of the root box: all errors are multiples of `u M`, `M` the largest coordinate, and the
  padding on each side has to exceed them. Witness over `ℚ` with IEEE rounding.
* **C72** the heap of a finished tree is a partial function whose children pointers form exactly the set of refined paths (`Owned`);
  the recursive destructor is followed by induction on the height. For the balanced tree the map leaf ↦ vector is injective iff
  the flat index does not wrap; with a wrap two leaves hold the same pointer and the second `delete` is undefined.
* **C73, C74** forward error analysis: `Ap u n M x' x` says that `x'` approximates `x` up to `((1+u)^n - 1) M` where `M` majorises `x`; every operation adds its counts.
  The distance has relative error `(1+u)^2 - 1`, so its logarithm has an absolute one, hence the `+ 1` in the majorant. For the parallel loops every atomic addition is
  annotated with the exact value and a majorant; the bound does not depend on the order of the additions.
* **C75, C76** the same calculus for the expansions: the `k`-th multipole coefficient has majorant `A R^k` (`AppM`), the local coefficients have majorants whose
  power series at radius `R` is bounded (`AppL`); translation replaces `R` by `R + σ` resp. `R - σ`, because the sums of majorants are binomial (M2M), geometric (M2L) and
  Taylor (L2L) expansions of the majorants. Of the constant coefficient of a local expansion only the real part is followed: its imaginary part is a sum of branches of the logarithm.
* **C77** the rounded lists are the exact lists of a shadow tree (C66–C68), so every source contributes once; the computed boxes at depth `k` are within the discs of
  radius 0.72 times the side about the computed centres (`Geo`), which gives the convergence factor 29/40 in place of `1/sqrt 2`. The passes carry the node-indexed predicate
  "approximates the expansion of these sources after `n` roundings" (`LocalOf`), where `n` grows by `6p + 9 + m` per level; the majorants stay multiples of `Σ|q|` because the discs are separated.
* **C78, C80** relative errors of sum and quotient become absolute errors of the logarithm.
* **C79** the balanced tree is a complete tree, so its lists do not depend on rounding; a point whose computed indices name a leaf is within half a side plus a rounding
  error of the exact centre of that leaf (`leafIndices_near`), whatever the point, so it lies in the discs used for C77. The rest is shared with C77.
* **C81, C82** as C73, C74 with the kernel `q / r`, resp. `q (x - y) / (r^3 + eps)`.
* **C83, C84** the coefficients of one degree are treated as a vector: `AppM3`, `AppL3` bound the Euclidean norm of the error of degree `l`, because translations are
  isometry-like in that norm (addition theorems) and products of entrywise bounds would lose factors that grow with the order. The computed spherical harmonics belong to a
  direction within `O(sqrt u)` of the true one (`cos theta` is passed to GSL, which takes `sqrt(1 - x^2)`), so an operation on expansions of order `p` costs a factor
  `1 + opError u g p`; `OpCost u g p κ` converts it to `κ` roundings, so that all counts are in one unit.
* **C85, C86** the passes are those of C77, C79 with the three-dimensional laws; discs become balls of radius 0.88 times the side, convergence factor 8/9.
* **C87** the sine of the computed polar angle is at most `3/2 * 2^-28`, so its cosine is within `2^-54` of `±1` and rounds to it.
* **C88** the computed angles are the exact angles of a displaced point (`zpt`), and the force of the series is Lipschitz away from the sources, so their error costs
  `80 u/s`. The rounding errors of the harmonics and their derivatives are entrywise, `κ'` roundings each; the division by the computed sine costs `1/s`.
* **C89, C90** the trees and passes are those of C85, C86 (the constructor does not know whether potentials or forces will be asked for); only the evaluation in the leaf changes.
* **C91** total force and torque: specification `totalForce`, `torque` (`PropsMomentum.lean`) on the result array, no reference to trees. The pairwise antisymmetry is proved for `directField` and the trees inherit it up to their error bounds.
* **C92** the particle loops are those of C37 with rounded products (`flEnergies`, `flForces`). The two error predicates `EnergiesWithin`, `ForcesWithin` speak about the result array and the direct sum only. The finding 19 (look-up of a source fails) becomes a statement about the whole loop: its result is not finite, unless forces are smoothed.
* **C93** `-ffast-math`: the relation `AnyOrder` (a binary tree of rounded additions over a permutation of the indices) replaces the fold of the direct sums; `FastSum` adds
  accumulators that start with 0, and the terms may use the rounded reciprocal (`PotTerm3`, `FieldTerm2`, `FieldTerm3`). The fold is proved to be an instance. `-ffinite-math-only`
  makes every run that reaches `.nonFinite` unspecified; no theorem says anything about such runs beyond the fact that they are reached.
* **C94** the programs in `test/` (`TestProgs.lean`): generators as loops that thread the position in the sequence of random numbers; the error measures with the two ways to leave
  their domain; the verdict of `expansions.cpp` with NaN and infinite quotients as separate values.
* **C95** binary64 (`Double.lean`): values are a real number, a signed infinity or NaN, and every operation is IEEE's (only the sign of zero is dropped; all divisors are
  non-negative). The agreement with `Flt.ieee` is proved through intervals of exponents (`Bnd0`) for the kernels and, for the sums, through the grid of multiples of
  `2^-600` on which all partial sums lie: cancellation gives zero or at least one grid step.
* **C96** (`DoubleExp3.lean`): the coefficients are pairs of `Dbl`s, the library (`Lib`) is arbitrary. `NF` (infinite or NaN) is closed under the additions and multiplications
  of the code with arbitrary operands; a product with zero is NaN, so charges of zero do not help. `MFrom`, `LFrom` are the expansions computed from a given one.
* **C97** the generic passes of `FmmRel*` are instantiated with `kit64`; the invariant `BadLE` names, for every node and stage of its local expansion, degrees whose
  coefficients are not finite. `TooLarge`, `TooSmall` speak about side length and order only.
* **C98** `Agr d x` (`d` is `x` unless it is infinite or NaN) is preserved by all operations but division by an infinite number; the only divisors are distances, powers of
  distances that are stored, cubes of distances, sines and the table of the `A_n^m`, and the bounds on the coordinates keep those finite. `KitSim` carries the relation
  through the passes of both trees for every schedule; `BoxMod` bounds the centres of all boxes, to any depth, from the bound on the sources.
* **C99** the loop of the program is rewritten as a map over the indices (`pt`, `total`); the bound is C41 with `eps = 10`, the failures are C24, C12 and C102.
* **C100** as C98 with a small calculus of simulations (`Sim`); complex divisors are differences and squares of differences of points, so `2^254` keeps `|w|^2` below `2^1023`.
* **C101** `SameRhs` compares a run of the program with one of the direct equations of motion; momentum and mass moment are linear in the state, so one Runge-Kutta step changes them by a mean of the total forces of its stages (`rk4Step_balance`), which vanish (C91) or are bounded (C60). Runs are guarded: `guarded` turns a state outside of the requirements into an error, and a run that ends without one is also a run of the program.
* **C102** `FmmRel` is split into laws for leaves, for the upward pass and for the downward pass; `Fails` says that the laws hold up to some pass and that one operation of that pass fails for every argument (`BadM2M`, `BadL2L`). The deepest node has a parent, so the operation is reached; in the downward pass the first level with children is enough.
* **C103** texts are lists of characters; the converse direction reads field by field up to the next separator (`field`, `lines_inj`).
* **C104** composed of C53, C58 (the same tree, by determinism), C37, C35, C36; the strength of a source cancels in the relative deviations. `Describes` spells out the report.
* **C105** errors are `u max(|x|, η)`; the majorants of the calculus of C77 are zero or above the floor `η` (`Flr`), so the errors stay relative to the majorants, and every bound of C77 survives unchanged. The majorants never fall below `τ θ^(2p+2)`; a complex quotient by textbook formulas has a floor that is larger by `|w|^-2`, hence the exponent `2p+6`.
* **C106** every coefficient and power of the calculus is bounded by a power of two (`coExp`, `pwExp`): `|z|` and `1/|z|` of every shift are at most `2^e`, so coefficients of order `k` grow by at most `2^(k e)`, and sums of `n` terms by `n`. A `double` operation whose exact result is below `2^1023` agrees with the rounding model (C94), so all intermediate results stay finite; the results then are those of C105 without the escape clause. The bounds on operands are coarse, hence the 930 in place of 1023. With unsafe evaluation (`safe = false`) at a source the force is `inf * 0`: excluded by the distance condition.
* **C107** the expansions are those of C105 and C106 (their lemmas do not depend on the tree). New is the computation of leaf indices with a floor: `RndIx` states the three accuracies needed (reciprocal of the side of the root box; errors relative to numbers of size one and of the size of the root box), and `index_near` goes back from a computed index in range to the coordinate without assuming anything about the point.
* **C108** a spherical harmonic can vanish or be arbitrarily small, so majorants of single harmonics and coefficients cannot be bounded below as in the plane. The calculus of C85 measures errors per degree in the norm of `l2`, so each single majorant is enlarged by the fraction `ν = 2^-59` of the norm of its degree (`LowScale3`); the enlargement changes norms by at most `ν (p+1) sqrt(4p+1) <= 2^-49`, one rounding, and lifts all products above the floor. Three enlarged factors meet in one product, hence `ν^3`; the coefficients `A_n^m` contribute `sqrt((2p)!)`. The largest order 42 needs `θ` of about 1/30 and more, order 10 allows `2^-25`.
* **C112** the components of the force of one source can be arbitrarily small although the force is not, so the errors of the direct sums are bounded relative to the norms of the forces of the sources (`sumForces3`) and not, as in C89, relative to the absolute values of the components. The gradient of an expansion at the centre of its box is a quotient by the distance to the centre, hence the distance of twice the floor.
* **C110** unlike in the plane (C106), one bound for all coefficients is too coarse: with order 42 the degrees alone use up the range. The bounds are per degree and per level: at depth `k` the radius is at most `2^(K k)`, multipole coefficients of degree `n` are at most `2^(α+1+K n)` and local ones at most `2^(α+t+8+(1-K) n)`, both read off from the invariants of C108 (sums of squares over `m`). Only the products inside one translation are bounded coarsely. `A_n^m` enters through `√((2p)!) ≤ 2^(5p+1)` for `p ≤ 42`. GSL's harmonics are assumed finite (`HarmonicsFinite`); nothing in the C++ code checks this.
* **C114** the quotient by `sin θ` costs `k` binary digits of the exponent range at an angle of `2^-k`; with `k ≤ 21` this fits in the room left by C110. That the derivatives of the harmonics are finite off the vertical is an assumption on GSL (`HarmonicsFiniteD`), like `HarmonicsFinite` in C110.
* **C119** the tree's contribution of a source at `y` to the value at `x` (C116) is a sum over pairs of an ancestor of the leaf of `x` and an ancestor of the leaf of `y` (`farT_pairs`);
  exchanging `x` and `y` exchanges the sums, because interaction lists are symmetric and the list of coarser leaves is the converse of the list of finer boxes (`kern_exchange`).
* **C120** the terms kept by a conversion are those of `m2lPairs`; with a table of order `p` exactly one of them, `(p, 1)`, has no partner (`m2lPairs_eq`). `balanced_two_exact` gives the value of the tree.
* **C121** `laplacian` is the sum of iterated one-dimensional derivatives of Mathlib. `SourceFree` is divergence zero of a differentiable field; `AdaptiveHarmonic` and `BalancedHarmonic` connect it with the computed values, from which the theorems on `laplacian` follow.
* **C122** the specification of a row is its list of clock differences (`effRow`, `seqRow`), that of a file the list of rows for the numbers of threads with consecutive readings (`runRows`). A directory is a function from names to contents; a missing directory makes every write a no-op, which is what an `ofstream` in an error state does.

* **C123** the specification `Reproducible` says: success under one schedule (any permutation of the iterations of every loop) implies the same outcome under every other. It is one-sided on purpose: when several iterations fail,
  which failure is seen depends on the schedule. The trees are compared as a whole, including the static tables. As everywhere in the model, an iteration is atomic; that iterations do not touch what others write is what the proof shows (`Frame`).
* **C124** a `LibraryFunction` is modelled by the documented rule: number and types of the arguments are checked before the C function is entered, otherwise the expression stays unevaluated. The C side reads a tagged union, and a
  read of the wrong member is undefined behaviour, so a declaration that disagrees with the C function would make C124_no_misread false. The plane points of the usage messages in 3D (`eval_points = {x1, y1, x2, y2 ...}`) are a misprint without a formal counterpart.
* **C125** first planned as exact invariance under translations (as C117 for the unit of length). That is false because of the multiplicative padding (finding 1); the claim now states the law of the root box, the failure for every
  source list, the origin for which everything works, and the agreement up to the error bounds.
* **C126** was first proved for the exchange of `x` and `y` only, by conjugation of all coefficients. In space the vertical axis plays a special role in the spherical harmonics, but the contribution of one source depends on
  scalar products only (`sT_gram`), which gives all exchanges. Reflections are no symmetry because the assignment to children uses half-open boxes, so that a source on a common boundary changes boxes (`C126_reflection_false`).
* **C127** excludes the faces of the boxes of all levels, also those finer than the tree, and the outer faces of the root box. This is more than needed but does not depend on the tree, and random real positions satisfy it with
  probability one. In double precision the lower and upper corners of boxes are rounded, so a point may be on a face there; nothing is claimed about that.
* **C128** calls a division by zero or a logarithm of zero a failure (`nonFinite`). The C++ program goes on with infinities or NaNs; that such values appear is what is claimed.

## 5. Findings (places where code and documentation/expectation disagree)

1. `getDataRange` pads multiplicatively, so data not straddling the origin can fall outside the box (C04).
   A consequence: the adaptive tree can refine forever on *distinct* sources (C12_padding_diverges), and
   evaluating it at one of its own sources can return inf (C42_outside).
2. Balanced constructor with few sources converts a negative double to `size_t` (C10); same for the
   order when sum|q| ≤ eps/2 (C24).
3. Adaptive refinement diverges on coincident sources exceeding the capacity (C12).
4. `BinomialTable` allocates rows up to 2·order but fills only rows ≤ order; 2D M2L reads the unfilled
   rows as zero, and its results depend on earlier constructions (C23). The error bound of C29/C39/C40
   holds nevertheless for every history.
5. `eps` is not a guaranteed accuracy (C41): the order assumes convergence like `2^-p`, the worst case is `2^(-p/2)`. In three dimensions
   the error scales with the inverse of the length and the order does not, so no function of `eps` bounds it (`C41_unbounded_3d`).
6. 3D order ≥ 43 aborts in GSL (C25). The 3D force evaluation aborts in GSL at
   every point exactly above or below the centre of the expansion, because `gsl_sf_legendre_deriv_alt_array` refuses
   arguments ±1 (C54); in a tree this is every point above or below the centre of its leaf
   (C54_balanced_aborts, C54_adaptive_aborts), even when the tree is a single leaf (C44_adaptive_3d_force).
7. Adaptive evaluation outside the root box uses the unguarded kernel (C42).
8. The flat index is 32 bit: leaf indices are unique iff `d * height ≤ 32` (C06).
9. `getLeafBoxIndices` promises to throw for points outside the domain but is UB below it (C05).
10. 2D local expansions of order 0 hit an assertion in the M2L/L2L constructors (C28/C29_order_zero).
11. A balanced leaf can hold more than `sources_per_cell` sources (C10_capacity_exceeded).
12. The trees keep a reference to the caller's source vector; only in-box evaluation is independent of later
    changes (C45).
13. No data race was found in the passes, in the particle loops or in the table caches (C37, C38).
14. The 3D `MultipoleExpansion(center, expansions)` reads `expansions[0]` of an empty vector (C49_empty_undefined); the
    trees never call it that way (C53).
15. Orders above 1029 abort in the 2D tables (C22_binomial_abort).
16. `readSourcesFromFile` declares its variables outside of the loop: an empty line repeats the previous source (and so can make
    the adaptive tree refine forever), an incomplete first line uses indeterminate values, and files written by
    `sourceLocationsToFile` cannot be read back (C61).
17. `vectorFromFile(filename, dest)` writes past the end of `dest` if the file is too long (C61_setup_overflow).
18. The Mathematica interface does not compare the lengths of its tensors and indexes them with `int` (C48_unpack_undefined).
19. In `double` arithmetic the look-up of a source on a plane between boxes can fail: `getOrthant` and `contains` use differently
    rounded planes. `evaluatePotential` then treats the source as lying outside of the tree and adds the unguarded kernel of the
    source with itself, which is infinite (C63_false, C42).
20. In `double` arithmetic two distinct sources that differ in the last bit can make `buildTree` refine forever (C65_false).
21. In `double` arithmetic the balanced tree can convert a negative number to `unsigned` for one of its own sources even if the data
    range contains the origin: the padding on the short side is lost in the rounding of the corner (C71_false).
22. The trees own raw pointers but have implicit copy constructors: destroying a copy and the original is a double free (C72_copy).
23. For `32 < d * height < 64` the balanced constructor succeeds, but its destructor frees a source vector twice (C72_balanced_wraps).
24. `YlmTable` passes `std::cos(theta)` to GSL, which recovers the sine as `sqrt(1 - x^2)`: for directions within about `sqrt(u)` of the vertical the horizontal
    components are lost (a source at `(1e-9, 0, 1)` has a computed `M_1^1` of zero). The rounding errors of the three-dimensional expansions are therefore of order
    `sqrt(u)`, not `u` (C83, `opError`).
25. With `double`s the abort of finding 6 happens in a whole cone around the vertical (C87).
26. `test/expansions.cpp` divides by the signed reference potential, so that for negative references every computed potential passes; it never compares the local expansion
    from sources; it includes headers that do not exist; with `-ffast-math` its NaN check is void (C94).
27. `forcefield<2>` compares `norm_sq` with zero, so distinct points closer than `2^-538` count as coincident; `forcefield<3>` compares the norm, and `r*r*r` underflows to zero
    for distinct points closer than `2^-361`: the guarded function then returns infinities or NaN (C95).
28. The three-dimensional expansions are not scale invariant: powers up to `order` of lengths and inverse powers up to `2 order + 1` are formed separately. With coordinates
    in metres and boxes of nanometres (order 20) or light seconds (order 42) all potentials and forces of a tree are infinite or NaN, and no error is reported; in the
    adaptive tree refinement alone can produce such boxes (C96, C97).
29. At distances above `2^341` the cube of the distance in `forcefield<3>` overflows and the computed force is zero, however strong the source (C98_silent).
30. `examples/minimal.cpp` passes `eps = 10` for about 5000 units of strength, so the order is 9 or 10; the guaranteed deviation of the two printed numbers is about 300,
    although the accuracy parameter reads as 10 (C99, C41).
31. In two dimensions `MultipoleExpansion::evaluateForcefield` starts from `1 / z^2`; with the unscaled complex division a divisor above `2^512`
    makes the quotient zero, so that the force at distance `2^300` of an expansion with a large coefficient is zero (C100_silent).
32. `integrator.cpp` opens `logs/trajectory.dat` without checking; if the directory does not exist the whole integration runs and its result is lost without a message (C101_lost).
    Uncharged particles (total strength at most 1/2000) make the number of terms undefined in the first evaluation (C101_weak).
33. The order 0 (eps/2 < sum of the absolute strengths <= eps) is not usable: in two dimensions an assertion fails as soon as the tree has more than one leaf; in three dimensions
    the same constructor call is undefined behaviour in a fresh process and works if any expansion of positive order was constructed before (C102).
34. `test/fmm_tree.cpp` divides by the energy of each particle: one strength of zero (`rand()` can return 0) makes the mean and, depending on its place, the maximum NaN (C104_nan).
35. In two dimensions the inner loop of `LocalExpansion::multipoleToLocal` runs over `k < order` instead of `k <= order` (local_expansion.hpp:113): the highest coefficient
    of a multipole expansion is used in the constant term only, so potentials computed in the plane are not symmetric in source and evaluation point, unlike in space (C119, C120).
    The error bounds of C29, C39 and C40 hold nevertheless.
36. `main` of accuracy_seq_speedup.cpp:254-264 sets `uniform_sources` and `uniform_tree` to `true` again before the second run, so both runs measure the same configuration and have the same file name;
    the log of the first run is overwritten (C122_sequential, C122_first_run_lost). If `logs/` does not exist neither program reports that nothing was written (C122_no_directory).
37. The usage messages of `MathematicaFMM.wl` show a parameter `force_smoothing_eps` for the eight functions that compute energies and potentials, which do not have it; calls written after them stay unevaluated.
    They also promise parallel evaluation, but `-fopenmp` is commented out (line 11). `fmm_mathematica_test.m` assigns `FMMForces` and `FMMPotentials` and then calls `FMMParticleForces` and `FMMParticlePotentials`,
    which have no value. A negative number of items per leaf is accepted and means `2^64` minus its absolute value (C124).
38. Whether a tree can be constructed depends on the origin of coordinates: data of extent `L` at a distance of about `10^5 L` from the origin in the direction of the diagonal make the adaptive constructor allocate nodes
    without end and the balanced one convert negative numbers to `uint32_t`. Subtracting the middle of the bounding box before construction avoids this (C125_centred).
39. The constructors of `MultipoleExpansion` from a vector of expansions do not compare orders: `std::transform` reads behind the end of the shifted coefficients if a later expansion has a lower order than the first, and drops
    coefficients if it has a higher one, while the constructors of `LocalExpansion` throw in both cases (C129). In space the vector may not be empty either: `expansions[0]` is not checked, `expansions.at(0)` elsewhere is (C128).
40. In two dimensions a source of strength zero whose coordinate differs by 2^1024 or more from that of the evaluation point makes the direct sum of the potential NaN (zero times infinity), and a charged one makes it
    infinite although its logarithm is about 710; in three dimensions both contribute nothing (C95_far_potential_2d, C95_far_potential_3d).
