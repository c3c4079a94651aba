{
 "C04": {
  "status": "partial",
  "note": "False as stated: C04_contains_iff characterises when it holds, C04_false is the negation with a witness, C04_contains_partial covers data ranges straddling the origin."
 },
 "C05": {
  "status": "proved",
  "note": "In range, above (throws) and below (undefined behaviour) cases."
 },
 "C06": {
  "status": "proved",
  "note": "Bijective iff d*height <= 32; wrap-around collision otherwise."
 },
 "C20": {
  "status": "proved",
  "note": "Index maps of the three tables; all lookups of the 2D operations (orders 1..1029) and 3D operations (orders 1..42); above these orders the constructors end in the GSL error handler before any lookup."
 },
 "C24": {
  "status": "proved",
  "note": "Order formula, its undefined range, total strength, and the three 3D translations at order 0 with empty tables."
 },
 "C25": {
  "status": "partial",
  "note": "False as stated for orders >= 43 (C25_false for the table, C25_constructor for every 3D expansion); C25_fill_partial covers all orders <= 42."
 },
 "C31": {
  "status": "proved",
  "note": "Single 2D/3D sources, 2D and 3D multipole and local expansions (in 3D away from the vertical line through the centre, where the evaluation aborts, see C54)."
 },
 "C23": {
  "status": "partial",
  "note": "False as stated: C23_false exhibits an order-3 conversion whose result depends on an earlier use of order 4; C23_independent_partial gives the conditions for independence. The 3D operations are independent of the history (C23_independent_3d)."
 },
 "C26": {
  "status": "proved",
  "note": "2D"
 },
 "C27": {
  "status": "proved",
  "note": "2D: equality of all coefficients"
 },
 "C28": {
  "status": "proved",
  "note": "2D: equality of potential and field at every point; order 0 hits an assertion"
 },
 "C29": {
  "status": "proved",
  "note": "2D, for every table history; list conversion adds up"
 },
 "C30": {
  "status": "proved",
  "note": "2D"
 },
 "C32": {
  "status": "proved",
  "note": "2D and 3D expansions; construction of 2D and 3D trees never throws."
 },
 "C33": {
  "status": "proved",
  "note": "2D and 3D expansions, direct sums"
 },
 "C12": {
  "status": "proved",
  "note": "Both classes: termination, divergence for coincident sources, and divergence for distinct sources that the multiplicative padding leaves outside the root box (C12_padding_diverges)."
 },
 "C16": {
  "status": "proved",
  "note": "Adaptive and balanced tree."
 },
 "C11": {
  "status": "proved",
  "note": "AdaptiveFmmTree and AdaptivePointOrthtree."
 },
 "C13": {
  "status": "proved",
  "note": "Containing leaf, fallback to the direct sum, and where coincident sources are stored; any dimension."
 },
 "C10": {
  "status": "proved",
  "note": "Height formula, its undefined range, and the witness that a leaf may hold more than sources_per_cell."
 },
 "C38": {
  "status": "proved",
  "note": "2D (orders 1..1029) and 3D (orders 1..42) trees, both kinds: data-race freedom of every loop and equality of the result for all schedules."
 },
 "C39": {
  "status": "proved",
  "note": "orders 1..1029"
 },
 "C40": {
  "status": "proved",
  "note": "orders 1..1029"
 },
 "C42": {
  "status": "proved",
  "note": "2D and 3D potential and force (3D force: sources not vertically aligned with a box centre, see C54); both halves."
 },
 "C43": {
  "status": "proved",
  "note": "Any dimension; instances C43_odd_2d, C43_odd_3d."
 },
 "C44": {
  "status": "proved",
  "note": "2D potential and force (with any smoothing), order 0 included; 3D potential and force (3D force: exact outcome at every point of the root box, including the abort on the vertical line through its centre)."
 },
 "C55": {
  "status": "proved",
  "note": "orders 1..1029"
 },
 "C45": {
  "status": "proved",
  "note": "Adaptive tree; the balanced evaluation does not take the caller's vector as an argument at all; particle loops: C37_tree_particles."
 },
 "C49": {
  "status": "proved",
  "note": "orders 1..42"
 },
 "C50": {
  "status": "proved",
  "note": "orders 1..42"
 },
 "C51": {
  "status": "proved",
  "note": "orders 0..42"
 },
 "C52": {
  "status": "proved",
  "note": "orders 1..42"
 },
 "C53": {
  "status": "proved",
  "note": "Potential of both trees, orders 1..42, every table history and schedule; the bound is stated with the side of the smallest box."
 },
 "C54": {
  "status": "partial",
  "note": "False as stated: on the vertical line through the centre the GSL derivative routine aborts the process (C54_local_aborts, C54_multipole_aborts, C54_false). C54_*_partial: the evaluation succeeds exactly off that line; its value is minus the gradient (C31_local_3d, C31_multipole_3d). In trees: C54_balanced_aborts, C54_adaptive_aborts."
 },
 "C58": {
  "status": "proved",
  "note": "Both trees, orders 1..42, every table history and schedule. Balanced tree: exactly the aligned points are excluded (C54_balanced_aborts)."
 },
 "C59": {
  "status": "proved",
  "note": "orders 0..42 (multipole-to-local 1..42)"
 },
 "C60": {
  "status": "proved",
  "note": "Both trees, both dimensions (3D: off the aligned points, orders 1..42); with f = 0 this is C55/C58."
 },
 "C48": {
  "status": "proved",
  "note": "Both directions, undefined behaviour for short arrays and int overflow, all execution orders. Integrator: 2D (the dimension it is compiled for). Memory management of MTensor objects is not modelled."
 },
 "C61": {
  "status": "proved",
  "note": "Text is modelled as tokens; conversion of decimal text to doubles is not modelled."
 },
 "C41": {
  "status": "partial",
  "note": "False as stated: C41_false is a balanced 2D tree whose potential is off by more than 3/2 eps, for every schedule. C41_sharp: for every order p = 8m+6 <= 1029 there is one with eps = 2^-p and total strength 1 whose error exceeds sqrt(eps)/(6(p+2)), so the exponent 1/2 of C41_squared_partial cannot be improved; C41_factor: an error of more than 2^497 eps. C41_unbounded_3d: in 3D, for every order p <= 42 and every M there are sources of total strength 1 for which the tree built with eps = 2^-p is off by more than M (the order ignores the unit of length). C41_sharp_adaptive, C41_unbounded_adaptive_3d: the same two for adaptive trees. The proved bounds are C39/C40 (2D) and C53 (3D); C41_squared_partial, C41_squared_adaptive_partial: passing eps^2 / (sum of |q|) to the constructor guarantees eps (2D); C41_fifth_3d_partial, C41_fifth_adaptive_3d_partial: in 3D passing 2 ((2-sqrt 3) b eps)^5 / (sum of |q|)^4, b the side of the smallest leaves, guarantees eps as long as the order is at most 42."
 },
 "C62": {
  "status": "proved",
  "note": "Every rounding with a bounded relative error; overflow and underflow are not modelled. The functions with rounding are proved to be those of the exact model when nothing is rounded."
 },
 "C63": {
  "status": "partial",
  "note": "False as stated: C63_false is a tree over four sources, in IEEE double arithmetic, in which the look-up of a source fails. C63_partial: true away from the planes between boxes."
 },
 "C64": {
  "status": "proved",
  "note": "Heights below 32. For points on the planes between leaves the leaf is not determined; such a point may be assigned to either neighbour."
 },
 "C65": {
  "status": "partial",
  "note": "False as stated: C65_false is a list of four different sources, in IEEE double arithmetic, for which the refinement never ends. C65_partial: true for sources that are far enough apart."
 },
 "C71": {
  "status": "partial",
  "note": "False as stated: C71_false is a pair of sources, in IEEE double arithmetic, one of which gets an undefined leaf index. C71_partial: true if the sources reach far enough on both sides of the origin."
 },
 "C69": {
  "status": "proved",
  "note": "Under 100 (8h+15) 4u (C+L) < L/2^(h+1), which for doubles and a box around the origin holds up to height 32. Overflow and underflow are not modelled."
 },
 "C70": {
  "status": "proved",
  "note": "Same hypotheses as C69."
 },
 "C73": {
  "status": "proved",
  "note": "Overflow and underflow are not modelled. FltIeee shows that round-to-nearest-even with the school-book complex product and quotient is such an arithmetic with u = 2^-49."
 },
 "C74": {
  "status": "proved",
  "note": "Overflow and underflow are not modelled."
 },
 "C77": {
  "status": "proved",
  "note": "Two dimensions. Overflow and underflow are not modelled; the containing leaf of a point on a plane between boxes may not be found (finding 19), then the direct sum is used."
 },
 "C78": {
  "status": "proved",
  "note": "Overflow and underflow are not modelled."
 },
 "C79": {
  "status": "proved",
  "note": "Two dimensions. Overflow and underflow are not modelled."
 },
 "C80": {
  "status": "proved",
  "note": "Overflow and underflow are not modelled."
 },
 "C81": {
  "status": "proved",
  "note": "Three dimensions. Overflow and underflow are not modelled."
 },
 "C82": {
  "status": "proved",
  "note": "Three dimensions. Overflow and underflow are not modelled."
 },
 "C83": {
  "status": "proved",
  "note": "Three dimensions. Overflow and underflow are not modelled. The accuracy of the GSL Legendre functions is an assumption (absolute error at most g); double_cost: k = 2^37 for double."
 },
 "C84": {
  "status": "proved",
  "note": "Three dimensions. Overflow and underflow are not modelled. The accuracy of the GSL Legendre functions is an assumption (absolute error at most g)."
 },
 "C85": {
  "status": "proved",
  "note": "Three dimensions. Overflow and underflow are not modelled. C85_double: for a billion sources and height 10 the rounding part is below 2% of the majorant."
 },
 "C86": {
  "status": "proved",
  "note": "Three dimensions. Overflow and underflow are not modelled."
 },
 "C87": {
  "status": "proved",
  "note": "A defect: the positive statement for exact arithmetic is C54, which is false on the vertical."
 },
 "C88": {
  "status": "proved",
  "note": "Three dimensions. Overflow and underflow are not modelled. For double the gap between sines 2^-29 (abort, C87) and 2^-21 (bound) is open."
 },
 "C89": {
  "status": "proved",
  "note": "Three dimensions. Overflow and underflow are not modelled. C89_double: angles of at least 2^-15, a billion sources, height 10: the rounding part is below 2% of the majorant."
 },
 "C90": {
  "status": "proved",
  "note": "Three dimensions. Overflow and underflow are not modelled."
 },
 "C91": {
  "status": "proved",
  "note": "Exact arithmetic; see C92 for rounding."
 },
 "C92": {
  "status": "proved",
  "note": "Overflow and underflow are not modelled."
 },
 "C93": {
  "status": "proved",
  "note": "Guarded kernels. The part of -ffast-math that assumes finite values is outside: results after .nonFinite are arbitrary. Fused multiply-add is not modelled (it only removes roundings)."
 },
 "C94": {
  "status": "proved",
  "note": "Random numbers are arbitrary reals in [0,1]; timings and file names are not modelled. expansions.cpp includes headers that no longer exist, so its verdict is modelled as a function of the computed and reference values. C94_verdict_zero: reference potentials zero."
 },
 "C95": {
  "status": "proved",
  "note": "Direct sums of fields.hpp with the coincidence check; C95_far_* and C95_coincident_* also without. The expansions are covered for overflow only where stated elsewhere. -ffast-math may flush subnormal numbers to zero and assumes that no infinity or NaN occurs; in the moderate range neither matters."
 },
 "C96": {
  "status": "proved",
  "note": "Overflow of the powers only. Spherical harmonics, angles, sines, cosines and static tables are arbitrary functions, so no claim depends on them. That results are finite inside the range is not part of this property."
 },
 "C97": {
  "status": "proved",
  "note": "The geometry (root box, boxes, lists, indices) is computed with rounding but without underflow and overflow. Heights up to 10 for the balanced tree (the range of the lemmas on indices)."
 },
 "C98": {
  "status": "proved",
  "note": "The geometry uses the arithmetic without a largest number; with these bounds it does not overflow (BoxMod). The comparison keeps gradual underflow, so the accuracy theorems (C85-C90), which are for arithmetics without underflow, do not apply to it directly."
 },
 "C99": {
  "status": "proved",
  "note": "Exact arithmetic; the random numbers are reals in [0,1]."
 },
 "C100": {
  "status": "proved",
  "note": "As C98: the geometry uses the arithmetic without a largest number, and gradual underflow is kept. Products and quotients of complex numbers by the textbook formulas, as with -ffast-math (no rescaling of operands)."
 },
 "C101": {
  "status": "proved",
  "note": "Exact arithmetic. The solver of GSL is a specification from its documentation and source (classical Runge-Kutta with step doubling, first derivative reused); its step size controller is an oracle, of which only positive steps that add up to the save interval are assumed. (b) is about runs that end; the requirement on the states is checked at every evaluation."
 },
 "C102": {
  "status": "proved",
  "note": "Order 0 is a legal return value of the order computation; the 3D outcome depends on the static tables. The theorems for the failing cases cover every schedule."
 },
 "C103": {
  "status": "proved",
  "note": "A stream is the list of characters written; the format of a double is a parameter (flags, precision)."
 },
 "C104": {
  "status": "proved",
  "note": "Exact arithmetic; the random numbers are reals in [0,1], the random choices arbitrary. rho = sqrt 3/2, b is the side of the smallest box."
 },
 "C105": {
  "status": "proved",
  "note": "As C100 for the format. The complex logarithm is an oracle with relative error 2^-49 (absolute below 2^-1019). Infinite results are not excluded here (they are visible, C100)."
 },
 "C106": {
  "status": "proved",
  "note": "As C105 for format and logarithm; the logarithm is here exactly an oracle of the kind of C100 on finite non-zero numbers, so it does not overflow."
 },
 "C107": {
  "status": "proved",
  "note": "As C105 and C106 for format and logarithm. Heights up to 16 as in C79 (Morton codes of 32 bits). C107_floor is the statement for any arithmetic with a floor, C107_balanced and C107_placed are for doubles."
 },
 "C108": {
  "status": "proved",
  "note": "Library functions (Legendre functions, atan2, hypot, cos, sin) are oracles with relative error 2^-49 above 2^-1021 (Legendre functions: absolute error about 2^-51), satisfied by correctly rounded ones. Potentials only; infinite results are not excluded here (they are visible, C98)."
 },
 "C109": {
  "status": "proved",
  "note": "As for C108: potentials only; infinite results are not excluded here (they are visible, C98)."
 },
 "C110": {
  "status": "proved",
  "note": "Library functions as in C108; in addition the harmonics returned by GSL are assumed finite up to degree 84 (an oracle: satisfied by correctly rounded functions). Potentials only."
 },
 "C112": {
  "status": "proved",
  "note": "Library functions as in C108, with the derivatives of the Legendre functions; infinite results are not excluded here (they are visible, C98). On the axes of the boxes used see C87."
 },
 "C113": {
  "status": "proved",
  "note": "As for C112."
 },
 "C114": {
  "status": "proved",
  "note": "Library functions as in C112; in addition the harmonics returned by GSL are assumed finite up to degree 84 and the derivatives computed from its Legendre functions finite up to degree 42 off the vertical (oracles: satisfied by correctly rounded functions). On the axes see C87."
 },
 "C115": {
  "status": "proved",
  "note": "Counts of kernel operations, not of time; the cost of one operation depends on the order only. The counter is added to an arbitrary kit by Kit.counted and shown not to change anything. C115_adaptive and C115_balanced cover exact arithmetic (rnd = id, u = 0) and rounding; C115_*_exact and C115_*_2d are the instances without rounding and for the plane, where construction and evaluation are known to succeed."
 },
 "C116": {
  "status": "proved",
  "note": "Real arithmetic. AdaptiveSuperposition and BalancedSuperposition are the statements; C116_combine_* and C116_scale_* draw the consequences. The function h is the sum of what a unit charge contributes through the interaction lists, the lists X and W and the near neighbours; how well it approximates the kernel is the subject of C39 to C41, C53, C55 and C58."
 },
 "C117": {
  "status": "proved",
  "note": "Real arithmetic. AdaptiveUnits and BalancedUnits are the statements; both trees are constructed from the same state of the tables. Evaluation outside the root box, which is a direct sum over the caller's sources, is the subject of C13."
 },
 "C118": {
  "status": "proved",
  "note": "Real arithmetic, smoothing parameter 0. AdaptiveGradient and BalancedGradient are the statements; C118_*_off: at points without a source the computed potential itself is differentiable. On the boundary of a box the computed potential may jump, because the expansions change."
 },
 "C119": {
  "status": "proved",
  "note": "Real arithmetic. AdaptiveReciprocal and BalancedReciprocal are the statements. The contribution h(x, y) of C116 is shown to be symmetric: conversions by exchange of the two truncated sums, evaluations of multipole expansions against local expansions of sources, lists by their symmetry (Rc.kern_exchange)."
 },
 "C120": {
  "status": "proved",
  "note": "Real arithmetic. C120_highest_coefficient for the conversion, C120_asymmetric for the failure in a fresh program (the binomial table is grown to order p only, C23), C120_order_one_* for order 1. Finding 35."
 },
 "C121": {
  "status": "proved",
  "note": "Real arithmetic, order at least 1, no smoothing of forces, points in the interior of the boxes of the leaves. In space the statement about forces is about points off the vertical lines through box centres (C54)."
 },
 "C122": {
  "status": "proved",
  "note": "For runs in which no tree and no direct sum throws (work is a parameter of the model). C122_efficiency, C122_sequential for what is left, C122_columns for the rows, C122_first_run_lost and C122_no_directory. Finding 36. C122_headings: as many headings as columns; C122_positions: the content of source_locs.dat. C122_short: vectors of different lengths."
 },
 "C123": {
  "status": "proved",
  "note": "C123_adaptive2/3, C123_balanced2/3 for the floating-point kits with arbitrary operations, C123_double2/3 with infinities and NaN, C123_exact_adaptive/_balanced, C123_particles. An unsuccessful construction may end with different errors under different schedules. Direct sums are not reproducible in this sense (C74, C93)."
 },
 "C124": {
  "status": "proved",
  "note": "C124_forces, _energies, _potentials, _direct_* characterise the calls that evaluate (both directions, every argument list); C124_no_misread; C124_usage_rejected (finding 37), C124_usage_forces; C124_script, C124_script_intended; results in C124_energies_2d/3d, C124_forces_2d, C124_direct_potentials_exact by C48. Trusted: a LibraryFunction checks number and types of its arguments, exact integers convert to Real. C124_unchecked: the C functions by themselves, called with any arguments. C124_script_symbols: what the symbols of the script mean."
 },
 "C125": {
  "status": "proved",
  "note": "C125_box, C125_inside: exact law of the root box; C125_adaptive_diverges, C125_balanced_ub if the box is moved beyond all sources in every coordinate, C125_*_origin_matters for every source list; C125_invariance_false: translation invariance of the construction fails; C125_centred: the origin in the middle satisfies AdaptiveInput and BalancedInput; C125_adaptive_2d/3d, C125_balanced_2d/3d compare the potentials for two origins, C125_force_adaptive_2d/3d, C125_force_balanced_2d/3d the forces. Exact arithmetic."
 },
 "C126": {
  "status": "proved",
  "note": "C126_adaptive_2d/3d, C126_balanced_2d/3d: potentials equal, forces with exchanged components, for every exchange of two axes; C126_adaptive_perm, C126_balanced_perm: potentials in space for all permutations; C126_adaptive_perm_force, C126_balanced_perm_force: forces. Exact arithmetic. C126_reflection_false: three sources whose mirror images have a tree of smaller height (sources on box boundaries belong to the upper box)."
 },
 "C127": {
  "status": "proved",
  "note": "C127_adaptive_2d/3d, C127_balanced_2d/3d: potentials equal, forces reflected, for all combinations of signs. Exact arithmetic. OffFaces excludes the faces of the boxes of all levels; C126_reflection_false shows that some such condition is needed."
 },
 "C128": {
  "status": "proved",
  "note": "C128_no_expansions (exact, rounded and double models), C128_evaluate_2d/3d, C128_sources_2d/3d, C128_convert_2d/3d, C128_convert_all_2d/3d (vectors of expansions), C128_translate_2d/3d: exact arithmetic, both directions. C128_rounded_2d: the failing arguments in rounded arithmetic; C128_order_zero: the assertions in rounded arithmetic and double. Evaluation in the plane is stated for expansions of real total charge; forces in space are the subject of C54, order zero in space of C102. C128_direct_2d/3d: direct sums, any rounding with rnd 0 = 0 and norm 0 = 0. C128_default_2d/3d: default-constructed expansions."
 },
 "C129": {
  "status": "proved",
  "note": "C129_multipole_2d/3d, C129_local_2d/3d. Exact arithmetic; in the plane multipole expansions of real total charge."
 }
}