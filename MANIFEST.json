{
 "claims": [
  {
   "property": "C01",
   "status": "proved",
   "theorems": [
    "FMM.C01_orthant_of_direction",
    "FMM.C01_direction_of_orthant",
    "FMM.C01_directions_injective"
   ],
   "note": ""
  },
  {
   "property": "C02",
   "status": "proved",
   "theorems": [
    "FMM.C02_child_boxes",
    "FMM.C02_descent"
   ],
   "note": ""
  },
  {
   "property": "C03",
   "status": "proved",
   "theorems": [
    "FMM.C03_adjacent_iff_touch",
    "FMM.C03_adjacent_laws",
    "FMM.C03_adjacent_iff_grid"
   ],
   "note": ""
  },
  {
   "property": "C04",
   "status": "partial",
   "theorems": [
    "FMM.C04_contains_iff",
    "FMM.C04_contains_partial",
    "FMM.C04_false"
   ],
   "note": "False as stated: C04_contains_iff characterises when it holds, C04_false is the negation with a witness, C04_contains_partial covers data ranges straddling the origin."
  },
  {
   "property": "C05",
   "status": "proved",
   "theorems": [
    "FMM.C05_indices_locate",
    "FMM.C05_indices_eq_descent",
    "FMM.C05_above_throws",
    "FMM.C05_below_ub"
   ],
   "note": "In range, above (throws) and below (undefined behaviour) cases."
  },
  {
   "property": "C06",
   "status": "proved",
   "theorems": [
    "FMM.C06_flat_bijective",
    "FMM.C06_flat_wraps"
   ],
   "note": "Bijective iff d*height <= 32; wrap-around collision otherwise."
  },
  {
   "property": "C07",
   "status": "proved",
   "theorems": [
    "FMM.C07_throws_iff",
    "FMM.C07_morton_bijective"
   ],
   "note": ""
  },
  {
   "property": "C08",
   "status": "proved",
   "theorems": [
    "FMM.C08_arrays"
   ],
   "note": ""
  },
  {
   "property": "C09",
   "status": "proved",
   "theorems": [
    "FMM.C09_distribution",
    "FMM.C09_lookup"
   ],
   "note": ""
  },
  {
   "property": "C10",
   "status": "proved",
   "theorems": [
    "FMM.C10_height",
    "FMM.C10_capacity_exceeded"
   ],
   "note": "Height formula, its undefined range, and the witness that a leaf may hold more than sources_per_cell."
  },
  {
   "property": "C11",
   "status": "proved",
   "theorems": [
    "FMM.C11_partition",
    "FMM.C11_partition_points",
    "FMM.C11_contained"
   ],
   "note": "AdaptiveFmmTree and AdaptivePointOrthtree."
  },
  {
   "property": "C12",
   "status": "proved",
   "theorems": [
    "FMM.C12_terminates",
    "FMM.C12_diverges",
    "FMM.C12_outside_diverges",
    "FMM.C12_padding_diverges"
   ],
   "note": "Both classes: termination, divergence for coincident sources, and divergence for distinct sources that the multiplicative padding leaves outside the root box (C12_padding_diverges)."
  },
  {
   "property": "C13",
   "status": "proved",
   "theorems": [
    "FMM.C13_containing_leaf",
    "FMM.C13_evaluation"
   ],
   "note": "Containing leaf, fallback to the direct sum, and where coincident sources are stored; any dimension."
  },
  {
   "property": "C14",
   "status": "proved",
   "theorems": [
    "FMM.C14_bfs"
   ],
   "note": ""
  },
  {
   "property": "C15",
   "status": "proved",
   "theorems": [
    "FMM.C15_near"
   ],
   "note": ""
  },
  {
   "property": "C16",
   "status": "proved",
   "theorems": [
    "FMM.C16_balanced_no_throw",
    "FMM.C16_balanced_separated",
    "FMM.C16_adaptive_no_throw",
    "FMM.C16_adaptive_separated"
   ],
   "note": "Adaptive and balanced tree."
  },
  {
   "property": "C17",
   "status": "proved",
   "theorems": [
    "FMM.C17_exactly_once"
   ],
   "note": ""
  },
  {
   "property": "C18",
   "status": "proved",
   "theorems": [
    "FMM.C18_U",
    "FMM.C18_near_internal",
    "FMM.C18_V",
    "FMM.C18_X",
    "FMM.C18_W"
   ],
   "note": ""
  },
  {
   "property": "C19",
   "status": "proved",
   "theorems": [
    "FMM.C19_exactly_once"
   ],
   "note": ""
  },
  {
   "property": "C20",
   "status": "proved",
   "theorems": [
    "FMM.C20_lookups_2d",
    "FMM.C20_high_order_2d",
    "FMM.C20_lookups_3d",
    "FMM.C20_high_order_3d",
    "FMM.C20_binomial_index",
    "FMM.C20_lm_index",
    "FMM.C20_sign_index"
   ],
   "note": "Index maps of the three tables; all lookups of the 2D operations (orders 1..1029) and 3D operations (orders 1..42); above these orders the constructors end in the GSL error handler before any lookup."
  },
  {
   "property": "C21",
   "status": "proved",
   "theorems": [
    "FMM.C21_sign_functions"
   ],
   "note": ""
  },
  {
   "property": "C22",
   "status": "proved",
   "theorems": [
    "FMM.C22_binomial_table",
    "FMM.C22_alm_table",
    "FMM.C22_sign_table",
    "FMM.C22_refresh_monotone",
    "FMM.C22_binomial_abort"
   ],
   "note": ""
  },
  {
   "property": "C23",
   "status": "partial",
   "theorems": [
    "FMM.C23_false",
    "FMM.C23_independent_partial",
    "FMM.C23_independent_3d"
   ],
   "note": "False as stated: C23_false exhibits an order-3 conversion whose result depends on an earlier use of order 4; C23_independent_partial gives the conditions for independence. The 3D operations are independent of the history (C23_independent_3d)."
  },
  {
   "property": "C24",
   "status": "proved",
   "theorems": [
    "FMM.C24_order_zero_3d",
    "FMM.C24_order",
    "FMM.C24_order_ub",
    "FMM.C24_total_strength"
   ],
   "note": "Order formula, its undefined range, total strength, and the three 3D translations at order 0 with empty tables."
  },
  {
   "property": "C25",
   "status": "partial",
   "theorems": [
    "FMM.C25_constructor",
    "FMM.C25_false",
    "FMM.C25_fill_partial"
   ],
   "note": "False as stated for orders >= 43 (C25_false for the table, C25_constructor for every 3D expansion); C25_fill_partial covers all orders <= 42."
  },
  {
   "property": "C26",
   "status": "proved",
   "theorems": [
    "FMM.C26_multipole_bound"
   ],
   "note": "2D"
  },
  {
   "property": "C27",
   "status": "proved",
   "theorems": [
    "FMM.C27_m2m_exact",
    "FMM.C27_empty_throws"
   ],
   "note": "2D: equality of all coefficients"
  },
  {
   "property": "C28",
   "status": "proved",
   "theorems": [
    "FMM.C28_l2l_exact",
    "FMM.C28_order_zero"
   ],
   "note": "2D: equality of potential and field at every point; order 0 hits an assertion"
  },
  {
   "property": "C29",
   "status": "proved",
   "theorems": [
    "FMM.C29_m2l_bound",
    "FMM.C29_order_zero",
    "FMM.C29_m2l_list"
   ],
   "note": "2D, for every table history; list conversion adds up"
  },
  {
   "property": "C30",
   "status": "proved",
   "theorems": [
    "FMM.C30_local_bound"
   ],
   "note": "2D"
  },
  {
   "property": "C31",
   "status": "proved",
   "theorems": [
    "FMM.C31_local",
    "FMM.C31_multipole",
    "FMM.C31_single_source",
    "FMM.C31_local_3d",
    "FMM.C31_multipole_3d"
   ],
   "note": "Single 2D/3D sources, 2D and 3D multipole and local expansions (in 3D away from the vertical line through the centre, where the evaluation aborts, see C54)."
  },
  {
   "property": "C32",
   "status": "proved",
   "theorems": [
    "FMM.C32_throws_iff",
    "FMM.C32_adds",
    "FMM.C32_add_assign_3d",
    "FMM.C32_potential_3d",
    "FMM.C32_construction_2d",
    "FMM.C32_construction_3d"
   ],
   "note": "2D and 3D expansions; construction of 2D and 3D trees never throws."
  },
  {
   "property": "C33",
   "status": "proved",
   "theorems": [
    "FMM.C33_permutation",
    "FMM.C33_concatenation",
    "FMM.C33_permutation_3d",
    "FMM.C33_concatenation_3d"
   ],
   "note": "2D and 3D expansions, direct sums"
  },
  {
   "property": "C34",
   "status": "proved",
   "theorems": [
    "FMM.C34_potential",
    "FMM.C34_forcefield",
    "FMM.C34_unguarded",
    "FMM.C34_coulomb_neg"
   ],
   "note": ""
  },
  {
   "property": "C35",
   "status": "proved",
   "theorems": [
    "FMM.C35_pairwise_energies",
    "FMM.C35_coincident"
   ],
   "note": ""
  },
  {
   "property": "C36",
   "status": "proved",
   "theorems": [
    "FMM.C36_pairwise_forces",
    "FMM.C36_third_law"
   ],
   "note": ""
  },
  {
   "property": "C37",
   "status": "proved",
   "theorems": [
    "FMM.C37_particle_loop",
    "FMM.C37_tree_particles"
   ],
   "note": ""
  },
  {
   "property": "C38",
   "status": "proved",
   "theorems": [
    "FMM.C38_adaptive_2d",
    "FMM.C38_balanced_2d",
    "FMM.C38_adaptive_3d",
    "FMM.C38_balanced_3d"
   ],
   "note": "2D (orders 1..1029) and 3D (orders 1..42) trees, both kinds: data-race freedom of every loop and equality of the result for all schedules."
  },
  {
   "property": "C39",
   "status": "proved",
   "theorems": [
    "FMM.C39_balanced"
   ],
   "note": "orders 1..1029"
  },
  {
   "property": "C40",
   "status": "proved",
   "theorems": [
    "FMM.C40_adaptive"
   ],
   "note": "orders 1..1029"
  },
  {
   "property": "C41",
   "status": "partial",
   "theorems": [
    "FMM.C41_false",
    "FMM.C41_squared_partial",
    "FMM.C41_squared_adaptive_partial",
    "FMM.C41_fifth_3d_partial",
    "FMM.C41_fifth_adaptive_3d_partial",
    "FMM.C41_unbounded_adaptive_3d",
    "FMM.C41_sharp_adaptive",
    "FMM.C41_sharp",
    "FMM.C41_factor",
    "FMM.C41_unbounded_3d"
   ],
   "note": "False as stated: C41_false is a balanced 2D tree whose potential is off by more than 3/2 eps, for every schedule. C41_sharp: for every order p = 8m+6 <= 1029 there is one with eps = 2^-p and total strength 1 whose error exceeds sqrt(eps)/(6(p+2)), so the exponent 1/2 of C41_squared_partial cannot be improved; C41_factor: an error of more than 2^497 eps. C41_unbounded_3d: in 3D, for every order p <= 42 and every M there are sources of total strength 1 for which the tree built with eps = 2^-p is off by more than M (the order ignores the unit of length). C41_sharp_adaptive, C41_unbounded_adaptive_3d: the same two for adaptive trees. The proved bounds are C39/C40 (2D) and C53 (3D); C41_squared_partial, C41_squared_adaptive_partial: passing eps^2 / (sum of |q|) to the constructor guarantees eps (2D); C41_fifth_3d_partial, C41_fifth_adaptive_3d_partial: in 3D passing 2 ((2-sqrt 3) b eps)^5 / (sum of |q|)^4, b the side of the smallest leaves, guarantees eps as long as the order is at most 42."
  },
  {
   "property": "C42",
   "status": "proved",
   "theorems": [
    "FMM.C42_adaptive_2d",
    "FMM.C42_balanced_2d",
    "FMM.C42_outside",
    "FMM.C42_potential_3d",
    "FMM.C42_outside_3d",
    "FMM.C42_force_3d"
   ],
   "note": "2D and 3D potential and force (3D force: sources not vertically aligned with a box centre, see C54); both halves."
  },
  {
   "property": "C43",
   "status": "proved",
   "theorems": [
    "FMM.C43_adaptive",
    "FMM.C43_balanced",
    "FMM.C43_odd_2d",
    "FMM.C43_odd_3d"
   ],
   "note": "Any dimension; instances C43_odd_2d, C43_odd_3d."
  },
  {
   "property": "C44",
   "status": "proved",
   "theorems": [
    "FMM.C44_adaptive_2d",
    "FMM.C44_balanced_2d",
    "FMM.C44_adaptive_3d",
    "FMM.C44_balanced_3d",
    "FMM.C44_adaptive_3d_force",
    "FMM.C44_balanced_3d_force"
   ],
   "note": "2D potential and force (with any smoothing), order 0 included; 3D potential and force (3D force: exact outcome at every point of the root box, including the abort on the vertical line through its centre)."
  },
  {
   "property": "C45",
   "status": "proved",
   "theorems": [
    "FMM.C45_adaptive"
   ],
   "note": "Adaptive tree; the balanced evaluation does not take the caller's vector as an argument at all; particle loops: C37_tree_particles."
  },
  {
   "property": "C46",
   "status": "proved",
   "theorems": [
    "FMM.C46_vector_space_laws",
    "FMM.C46_norm",
    "FMM.C46_dot",
    "FMM.C46_triangle"
   ],
   "note": ""
  },
  {
   "property": "C47",
   "status": "proved",
   "theorems": [
    "FMM.C47_roundtrip2",
    "FMM.C47_roundtrip3",
    "FMM.C47_ranges",
    "FMM.C47_basis_isometry"
   ],
   "note": ""
  },
  {
   "property": "C48",
   "status": "proved",
   "theorems": [
    "FMM.Glue.C48_from_array",
    "FMM.Glue.C48_from_array_undefined",
    "FMM.Glue.C48_to_array",
    "FMM.Glue.C48_roundtrip",
    "FMM.Glue.C48_roundtrip_arrays",
    "FMM.Glue.C48_derivative_2d",
    "FMM.Glue.C48_zero_mass",
    "FMM.Glue.C48_unpack",
    "FMM.Glue.C48_unpack_undefined",
    "FMM.Glue.C48_fmm_forces_2d",
    "FMM.Glue.C48_fmm_forces_3d",
    "FMM.Glue.C48_fmm2d_forces",
    "FMM.Glue.C48_fmm_energies_2d",
    "FMM.Glue.C48_fmm_energies_3d",
    "FMM.Glue.C48_fmm_potentials_2d",
    "FMM.Glue.C48_fmm_potentials_3d",
    "FMM.Glue.C48_direct_potentials",
    "FMM.Glue.C48_direct_forces",
    "FMM.Glue.C48_direct_energies"
   ],
   "note": "Both directions, undefined behaviour for short arrays and int overflow, all execution orders. Integrator: 2D (the dimension it is compiled for). Memory management of MTensor objects is not modelled."
  },
  {
   "property": "C49",
   "status": "proved",
   "theorems": [
    "FMM.C49_m2m_exact",
    "FMM.C49_empty_undefined"
   ],
   "note": "orders 1..42"
  },
  {
   "property": "C50",
   "status": "proved",
   "theorems": [
    "FMM.C50_l2l_exact"
   ],
   "note": "orders 1..42"
  },
  {
   "property": "C51",
   "status": "proved",
   "theorems": [
    "FMM.C51_multipole_bound"
   ],
   "note": "orders 0..42"
  },
  {
   "property": "C52",
   "status": "proved",
   "theorems": [
    "FMM.C52_s2l_bound",
    "FMM.C52_m2l_bound",
    "FMM.C52_m2l_list"
   ],
   "note": "orders 1..42"
  },
  {
   "property": "C53",
   "status": "proved",
   "theorems": [
    "FMM.C53_adaptive",
    "FMM.C53_balanced"
   ],
   "note": "Potential of both trees, orders 1..42, every table history and schedule; the bound is stated with the side of the smallest box."
  },
  {
   "property": "C54",
   "status": "partial",
   "theorems": [
    "FMM.C54_balanced_aborts",
    "FMM.C54_adaptive_aborts",
    "FMM.C54_local_aborts",
    "FMM.C54_multipole_aborts",
    "FMM.C54_false",
    "FMM.C54_local_partial",
    "FMM.C54_multipole_partial"
   ],
   "note": "False as stated: on the vertical line through the centre the GSL derivative routine aborts the process (C54_local_aborts, C54_multipole_aborts, C54_false). C54_*_partial: the evaluation succeeds exactly off that line; its value is minus the gradient (C31_local_3d, C31_multipole_3d). In trees: C54_balanced_aborts, C54_adaptive_aborts."
  },
  {
   "property": "C55",
   "status": "proved",
   "theorems": [
    "FMM.C55_adaptive",
    "FMM.C55_balanced"
   ],
   "note": "orders 1..1029"
  },
  {
   "property": "C56",
   "status": "proved",
   "theorems": [
    "FMM.Dump.C56_line_readable",
    "FMM.Dump.C56_point_line_readable",
    "FMM.Dump.C56_adaptive",
    "FMM.Dump.C56_points",
    "FMM.Dump.C56_balanced"
   ],
   "note": ""
  },
  {
   "property": "C57",
   "status": "proved",
   "theorems": [
    "FMM.C57_pow_table"
   ],
   "note": ""
  },
  {
   "property": "C58",
   "status": "proved",
   "theorems": [
    "FMM.C58_adaptive",
    "FMM.C58_balanced"
   ],
   "note": "Both trees, orders 1..42, every table history and schedule. Balanced tree: exactly the aligned points are excluded (C54_balanced_aborts)."
  },
  {
   "property": "C59",
   "status": "proved",
   "theorems": [
    "FMM.C59_tail",
    "FMM.C59_multipole_force_bound",
    "FMM.C59_s2l_force_bound",
    "FMM.C59_m2l_force_bound"
   ],
   "note": "orders 0..42 (multipole-to-local 1..42)"
  },
  {
   "property": "C60",
   "status": "proved",
   "theorems": [
    "FMM.C60_adaptive_2d",
    "FMM.C60_balanced_2d",
    "FMM.C60_adaptive_3d",
    "FMM.C60_balanced_3d"
   ],
   "note": "Both trees, both dimensions (3D: off the aligned points, orders 1..42); with f = 0 this is C55/C58."
  },
  {
   "property": "C61",
   "status": "proved",
   "theorems": [
    "FMM.FileIO.C61_read",
    "FMM.FileIO.C61_read_wellformed",
    "FMM.FileIO.C61_blank_line_duplicates",
    "FMM.FileIO.C61_blank_line_hangs",
    "FMM.FileIO.C61_first_line_short",
    "FMM.FileIO.C61_locations_unreadable",
    "FMM.FileIO.C61_vector_stops",
    "FMM.FileIO.C61_vector",
    "FMM.FileIO.C61_setup",
    "FMM.FileIO.C61_setup_overflow",
    "FMM.FileIO.C61_setup_missing"
   ],
   "note": "Text is modelled as tokens; conversion of decimal text to doubles is not modelled."
  },
  {
   "property": "C62",
   "status": "proved",
   "theorems": [
    "FMM.Rounded.C62_adjacent"
   ],
   "note": "Every rounding with a bounded relative error; overflow and underflow are not modelled. The functions with rounding are proved to be those of the exact model when nothing is rounded."
  },
  {
   "property": "C63",
   "status": "partial",
   "theorems": [
    "FMM.Rounded.C63_partial",
    "FMM.Rounded.C63_false"
   ],
   "note": "False as stated: C63_false is a tree over four sources, in IEEE double arithmetic, in which the look-up of a source fails. C63_partial: true away from the planes between boxes."
  },
  {
   "property": "C64",
   "status": "proved",
   "theorems": [
    "FMM.Rounded.C64_leaf_centres",
    "FMM.Rounded.C64_points"
   ],
   "note": "Heights below 32. For points on the planes between leaves the leaf is not determined; such a point may be assigned to either neighbour."
  },
  {
   "property": "C65",
   "status": "partial",
   "theorems": [
    "FMM.Rounded.C65_partial",
    "FMM.Rounded.C65_false"
   ],
   "note": "False as stated: C65_false is a list of four different sources, in IEEE double arithmetic, for which the refinement never ends. C65_partial: true for sources that are far enough apart."
  },
  {
   "property": "C66",
   "status": "proved",
   "theorems": [
    "FMM.Rounded.C66_partition",
    "FMM.Rounded.C66_contained",
    "FMM.Rounded.C66_terminates"
   ],
   "note": ""
  },
  {
   "property": "C67",
   "status": "proved",
   "theorems": [
    "FMM.Rounded.C67_no_throw",
    "FMM.Rounded.C67_lists"
   ],
   "note": ""
  },
  {
   "property": "C68",
   "status": "proved",
   "theorems": [
    "FMM.Rounded.C68_exactly_once"
   ],
   "note": ""
  },
  {
   "property": "C69",
   "status": "proved",
   "theorems": [
    "FMM.Rounded.C69_succeeds_iff",
    "FMM.Rounded.C69_inside",
    "FMM.Rounded.C69_distribution",
    "FMM.Rounded.C69_contained"
   ],
   "note": "Under 100 (8h+15) 4u (C+L) < L/2^(h+1), which for doubles and a box around the origin holds up to height 32. Overflow and underflow are not modelled."
  },
  {
   "property": "C70",
   "status": "proved",
   "theorems": [
    "FMM.Rounded.C70_lists",
    "FMM.Rounded.C70_exactly_once"
   ],
   "note": "Same hypotheses as C69."
  },
  {
   "property": "C71",
   "status": "partial",
   "theorems": [
    "FMM.Rounded.C71_partial",
    "FMM.Rounded.C71_false"
   ],
   "note": "False as stated: C71_false is a pair of sources, in IEEE double arithmetic, one of which gets an undefined leaf index. C71_partial: true if the sources reach far enough on both sides of the origin."
  },
  {
   "property": "C72",
   "status": "proved",
   "theorems": [
    "FMM.C72_adaptive",
    "FMM.C72_points",
    "FMM.C72_adaptive_rounded",
    "FMM.C72_copy",
    "FMM.C72_balanced",
    "FMM.C72_balanced_rounded",
    "FMM.C72_balanced_wraps"
   ],
   "note": ""
  },
  {
   "property": "C73",
   "status": "proved",
   "theorems": [
    "FMM.C73_potential",
    "FMM.C73_potential_unguarded",
    "FMM.C73_force",
    "FMM.C73_force_unguarded",
    "FMM.C73_self",
    "FMM.C73_double"
   ],
   "note": "Overflow and underflow are not modelled. FltIeee shows that round-to-nearest-even with the school-book complex product and quotient is such an arithmetic with u = 2^-49."
  },
  {
   "property": "C74",
   "status": "proved",
   "theorems": [
    "FMM.C74_energies",
    "FMM.C74_schedules",
    "FMM.C74_forces"
   ],
   "note": "Overflow and underflow are not modelled."
  },
  {
   "property": "C75",
   "status": "proved",
   "theorems": [
    "FMM.C75_multipole",
    "FMM.C75_translated"
   ],
   "note": ""
  },
  {
   "property": "C76",
   "status": "proved",
   "theorems": [
    "FMM.C76_sources",
    "FMM.C76_chain"
   ],
   "note": ""
  },
  {
   "property": "C77",
   "status": "proved",
   "theorems": [
    "FMM.C77_adaptive",
    "FMM.C77_everywhere",
    "FMM.C77_well_placed"
   ],
   "note": "Two dimensions. Overflow and underflow are not modelled; the containing leaf of a point on a plane between boxes may not be found (finding 19), then the direct sum is used."
  },
  {
   "property": "C78",
   "status": "proved",
   "theorems": [
    "FMM.C78_order"
   ],
   "note": "Overflow and underflow are not modelled."
  },
  {
   "property": "C79",
   "status": "proved",
   "theorems": [
    "FMM.C79_balanced",
    "FMM.C79_placed"
   ],
   "note": "Two dimensions. Overflow and underflow are not modelled."
  },
  {
   "property": "C80",
   "status": "proved",
   "theorems": [
    "FMM.C80_height"
   ],
   "note": "Overflow and underflow are not modelled."
  },
  {
   "property": "C81",
   "status": "proved",
   "theorems": [
    "FMM.C81_potential",
    "FMM.C81_potential_unguarded",
    "FMM.C81_coincident",
    "FMM.C81_force",
    "FMM.C81_force_unguarded",
    "FMM.C81_self",
    "FMM.C81_double"
   ],
   "note": "Three dimensions. Overflow and underflow are not modelled."
  },
  {
   "property": "C82",
   "status": "proved",
   "theorems": [
    "FMM.C82_energies",
    "FMM.C82_schedules",
    "FMM.C82_forces"
   ],
   "note": "Three dimensions. Overflow and underflow are not modelled."
  },
  {
   "property": "C83",
   "status": "proved",
   "theorems": [
    "FMM.C83_multipole",
    "FMM.C83_translated"
   ],
   "note": "Three dimensions. Overflow and underflow are not modelled. The accuracy of the GSL Legendre functions is an assumption (absolute error at most g); double_cost: k = 2^37 for double."
  },
  {
   "property": "C84",
   "status": "proved",
   "theorems": [
    "FMM.C84_sources",
    "FMM.C84_chain"
   ],
   "note": "Three dimensions. Overflow and underflow are not modelled. The accuracy of the GSL Legendre functions is an assumption (absolute error at most g)."
  },
  {
   "property": "C85",
   "status": "proved",
   "theorems": [
    "FMM.C85_adaptive",
    "FMM.C85_everywhere",
    "FMM.C85_well_placed",
    "FMM.C85_double"
   ],
   "note": "Three dimensions. Overflow and underflow are not modelled. C85_double: for a billion sources and height 10 the rounding part is below 2% of the majorant."
  },
  {
   "property": "C86",
   "status": "proved",
   "theorems": [
    "FMM.C86_balanced",
    "FMM.C86_placed"
   ],
   "note": "Three dimensions. Overflow and underflow are not modelled."
  },
  {
   "property": "C87",
   "status": "proved",
   "theorems": [
    "FMM.C87_cone",
    "FMM.C87_open",
    "FMM.C87_trees"
   ],
   "note": "A defect: the positive statement for exact arithmetic is C54, which is false on the vertical."
  },
  {
   "property": "C88",
   "status": "proved",
   "theorems": [
    "FMM.C88_multipole",
    "FMM.C88_local",
    "FMM.C88_chain",
    "FMM.C88_double"
   ],
   "note": "Three dimensions. Overflow and underflow are not modelled. For double the gap between sines 2^-29 (abort, C87) and 2^-21 (bound) is open."
  },
  {
   "property": "C89",
   "status": "proved",
   "theorems": [
    "FMM.C89_adaptive",
    "FMM.C89_everywhere",
    "FMM.C89_well_placed",
    "FMM.C89_double"
   ],
   "note": "Three dimensions. Overflow and underflow are not modelled. C89_double: angles of at least 2^-15, a billion sources, height 10: the rounding part is below 2% of the majorant."
  },
  {
   "property": "C90",
   "status": "proved",
   "theorems": [
    "FMM.C90_balanced",
    "FMM.C90_placed"
   ],
   "note": "Three dimensions. Overflow and underflow are not modelled."
  },
  {
   "property": "C91",
   "status": "proved",
   "theorems": [
    "FMM.C91_direct_force",
    "FMM.C91_direct_torque",
    "FMM.C91_adaptive_2d",
    "FMM.C91_balanced_2d",
    "FMM.C91_adaptive_3d",
    "FMM.C91_balanced_3d"
   ],
   "note": "Exact arithmetic; see C92 for rounding."
  },
  {
   "property": "C92",
   "status": "proved",
   "theorems": [
    "FMM.C92_total_force",
    "FMM.C92_found",
    "FMM.C92_adaptive_2d",
    "FMM.C92_well_placed_2d",
    "FMM.C92_balanced_2d",
    "FMM.C92_adaptive_3d_energies",
    "FMM.C92_adaptive_3d_forces",
    "FMM.C92_balanced_3d_energies",
    "FMM.C92_balanced_3d_forces"
   ],
   "note": "Overflow and underflow are not modelled."
  },
  {
   "property": "C93",
   "status": "proved",
   "theorems": [
    "FMM.C93_potential_2d",
    "FMM.C93_field_2d",
    "FMM.C93_sequential_potential_2d",
    "FMM.C93_sequential_field_2d",
    "FMM.C93_potential_3d",
    "FMM.C93_field_3d",
    "FMM.C93_sequential_potential_3d",
    "FMM.C93_sequential_field_3d"
   ],
   "note": "Guarded kernels. The part of -ffast-math that assumes finite values is outside: results after .nonFinite are arbitrary. Fused multiply-add is not modelled (it only removes roundings)."
  },
  {
   "property": "C94",
   "status": "proved",
   "theorems": [
    "FMM.TestProgs.C94_uniform",
    "FMM.TestProgs.C94_clusters",
    "FMM.TestProgs.C94_clusters_apart",
    "FMM.TestProgs.C94_tree_sources",
    "FMM.TestProgs.C94_errors",
    "FMM.TestProgs.C94_threads",
    "FMM.TestProgs.C94_verdict",
    "FMM.TestProgs.C94_verdict_negative",
    "FMM.TestProgs.C94_verdict_zero",
    "FMM.TestProgs.C94_verdict_nan",
    "FMM.TestProgs.C94_adjacent"
   ],
   "note": "Random numbers are arbitrary reals in [0,1]; timings and file names are not modelled. expansions.cpp includes headers that no longer exist, so its verdict is modelled as a function of the computed and reference values. C94_verdict_zero: reference potentials zero."
  },
  {
   "property": "C95",
   "status": "proved",
   "theorems": [
    "FMM.D64.C95_potential_2d",
    "FMM.D64.C95_potential_3d",
    "FMM.D64.C95_force_2d",
    "FMM.D64.C95_force_3d",
    "FMM.D64.C95_error_2d",
    "FMM.D64.C95_error_3d",
    "FMM.D64.C95_close_2d",
    "FMM.D64.C95_distant_2d",
    "FMM.D64.C95_close_3d",
    "FMM.D64.C95_distant_3d",
    "FMM.D64.C95_far_potential_2d",
    "FMM.D64.C95_far_sum_2d",
    "FMM.D64.C95_far_potential_3d",
    "FMM.D64.C95_far_force_3d",
    "FMM.D64.C95_far_force_2d",
    "FMM.D64.C95_coincident_3d",
    "FMM.D64.C95_coincident_2d",
    "FMM.D64.C95_coincident_force",
    "FMM.D64.C95_coincident_sum"
   ],
   "note": "Direct sums of fields.hpp with the coincidence check; C95_far_* and C95_coincident_* also without. The expansions are covered for overflow only where stated elsewhere. -ffast-math may flush subnormal numbers to zero and assumes that no infinity or NaN occurs; in the moderate range neither matters."
  },
  {
   "property": "C96",
   "status": "proved",
   "theorems": [
    "FMM.D64.C96_far_source",
    "FMM.D64.C96_close_boxes",
    "FMM.D64.C96_close_source",
    "FMM.D64.C96_far_translation",
    "FMM.D64.C96_evaluation"
   ],
   "note": "Overflow of the powers only. Spherical harmonics, angles, sines, cosines and static tables are arbitrary functions, so no claim depends on them. That results are finite inside the range is not part of this property."
  },
  {
   "property": "C97",
   "status": "proved",
   "theorems": [
    "FMM.D64.C97_adaptive",
    "FMM.D64.C97_balanced",
    "FMM.D64.C97_placed"
   ],
   "note": "The geometry (root box, boxes, lists, indices) is computed with rounding but without underflow and overflow. Heights up to 10 for the balanced tree (the range of the lemmas on indices)."
  },
  {
   "property": "C98",
   "status": "proved",
   "theorems": [
    "FMM.D64.C98_adaptive",
    "FMM.D64.C98_balanced",
    "FMM.D64.C98_silent"
   ],
   "note": "The geometry uses the arithmetic without a largest number; with these bounds it does not overflow (BoxMod). The comparison keeps gradual underflow, so the accuracy theorems (C85-C90), which are for arithmetics without underflow, do not apply to it directly."
  },
  {
   "property": "C99",
   "status": "proved",
   "theorems": [
    "FMM.Minimal.C99_prints",
    "FMM.Minimal.C99_prints_order_one",
    "FMM.Minimal.C99_order_zero",
    "FMM.Minimal.C99_weak",
    "FMM.Minimal.C99_never_ends"
   ],
   "note": "Exact arithmetic; the random numbers are reals in [0,1]."
  },
  {
   "property": "C100",
   "status": "proved",
   "theorems": [
    "FMM.D2.C100_adaptive",
    "FMM.D2.C100_balanced",
    "FMM.D2.C100_silent"
   ],
   "note": "As C98: the geometry uses the arithmetic without a largest number, and gradual underflow is kept. Products and quotients of complex numbers by the textbook formulas, as with -ffast-math (no rescaling of operands)."
  },
  {
   "property": "C101",
   "status": "proved",
   "theorems": [
    "FMM.Integrator.C101_small",
    "FMM.Integrator.C101_large",
    "FMM.Integrator.C101_missing",
    "FMM.Integrator.C101_empty",
    "FMM.Integrator.C101_weak",
    "FMM.Integrator.C101_lost"
   ],
   "note": "Exact arithmetic. The solver of GSL is a specification from its documentation and source (classical Runge-Kutta with step doubling, first derivative reused); its step size controller is an oracle, of which only positive steps that add up to the save interval are assumed. (b) is about runs that end; the requirement on the states is checked at every evaluation."
  },
  {
   "property": "C102",
   "status": "proved",
   "theorems": [
    "FMM.C102_adaptive_2d",
    "FMM.C102_balanced_2d",
    "FMM.C102_adaptive_3d_first",
    "FMM.C102_balanced_3d_first",
    "FMM.C102_adaptive_3d_later",
    "FMM.C102_balanced_3d_later"
   ],
   "note": "Order 0 is a legal return value of the order computation; the 3D outcome depends on the static tables. The theorems for the failing cases cover every schedule."
  },
  {
   "property": "C103",
   "status": "proved",
   "theorems": [
    "FMM.Print.C103_vector",
    "FMM.Print.C103_vector_inj",
    "FMM.Print.C103_source",
    "FMM.Print.C103_exp2",
    "FMM.Print.C103_exp2_ub",
    "FMM.Print.C103_exp2_inj",
    "FMM.Print.C103_exp3",
    "FMM.Print.C103_exp3_ub",
    "FMM.Print.C103_exp3_inj",
    "FMM.Print.C103_stamp_inj",
    "FMM.Print.C103_stamp_width",
    "FMM.Print.C103_duration",
    "FMM.Print.C103_iterable",
    "FMM.Print.C103_vec",
    "FMM.Print.C103_file",
    "FMM.Print.C103_vecToFile"
   ],
   "note": "A stream is the list of characters written; the format of a double is a parameter (flags, precision)."
  },
  {
   "property": "C104",
   "status": "proved",
   "theorems": [
    "FMM.TreeMain.C104_report",
    "FMM.TreeMain.C104_deviation",
    "FMM.TreeMain.C104_nan",
    "FMM.TreeMain.C104_aborts",
    "FMM.TreeMain.C104_main",
    "FMM.TreeMain.C104_weak"
   ],
   "note": "Exact arithmetic; the random numbers are reals in [0,1], the random choices arbitrary. rho = sqrt 3/2, b is the side of the smallest box."
  },
  {
   "property": "C105",
   "status": "proved",
   "theorems": [
    "FMM.C105_floor",
    "FMM.C105_floor_everywhere",
    "FMM.C105_floor_well_placed",
    "FMM.C105_adaptive",
    "FMM.C105_well_placed"
   ],
   "note": "As C100 for the format. The complex logarithm is an oracle with relative error 2^-49 (absolute below 2^-1019). Infinite results are not excluded here (they are visible, C100)."
  },
  {
   "property": "C106",
   "status": "proved",
   "theorems": [
    "FMM.C106_adaptive",
    "FMM.C106_everywhere",
    "FMM.C106_well_placed"
   ],
   "note": "As C105 for format and logarithm; the logarithm is here exactly an oracle of the kind of C100 on finite non-zero numbers, so it does not overflow."
  },
  {
   "property": "C107",
   "status": "proved",
   "theorems": [
    "FMM.C107_floor",
    "FMM.C107_balanced",
    "FMM.C107_placed"
   ],
   "note": "As C105 and C106 for format and logarithm. Heights up to 16 as in C79 (Morton codes of 32 bits). C107_floor is the statement for any arithmetic with a floor, C107_balanced and C107_placed are for doubles."
  },
  {
   "property": "C108",
   "status": "proved",
   "theorems": [
    "FMM.C108_floor",
    "FMM.C108_floor_everywhere",
    "FMM.C108_floor_well_placed",
    "FMM.C108_adaptive",
    "FMM.C108_well_placed"
   ],
   "note": "Library functions (Legendre functions, atan2, hypot, cos, sin) are oracles with relative error 2^-49 above 2^-1021 (Legendre functions: absolute error about 2^-51), satisfied by correctly rounded ones. Potentials only; infinite results are not excluded here (they are visible, C98)."
  },
  {
   "property": "C109",
   "status": "proved",
   "theorems": [
    "FMM.C109_floor",
    "FMM.C109_balanced",
    "FMM.C109_placed"
   ],
   "note": "As for C108: potentials only; infinite results are not excluded here (they are visible, C98)."
  },
  {
   "property": "C110",
   "status": "proved",
   "theorems": [
    "FMM.C110_adaptive",
    "FMM.C110_everywhere",
    "FMM.C110_well_placed",
    "FMM.C110_balanced",
    "FMM.C110_placed"
   ],
   "note": "Library functions as in C108; in addition the harmonics returned by GSL are assumed finite up to degree 84 (an oracle: satisfied by correctly rounded functions). Potentials only."
  },
  {
   "property": "C111",
   "status": "proved",
   "theorems": [
    "FMM.PropsFailures.C111_add_assign_2d",
    "FMM.PropsFailures.C111_add_assign_3d",
    "FMM.PropsFailures.C111_local_to_local_asserts",
    "FMM.PropsFailures.C111_local_to_local",
    "FMM.PropsFailures.C111_vector_access",
    "FMM.PropsFailures.C111_dump_cast",
    "FMM.PropsFailures.C111_dump_cast_points",
    "FMM.PropsFailures.C111_sanity_check",
    "FMM.PropsFailures.C111_sanity_check_balanced"
   ],
   "note": ""
  },
  {
   "property": "C112",
   "status": "proved",
   "theorems": [
    "FMM.C112_floor",
    "FMM.C112_floor_everywhere",
    "FMM.C112_floor_well_placed",
    "FMM.C112_adaptive",
    "FMM.C112_well_placed"
   ],
   "note": "Library functions as in C108, with the derivatives of the Legendre functions; infinite results are not excluded here (they are visible, C98). On the axes of the boxes used see C87."
  },
  {
   "property": "C113",
   "status": "proved",
   "theorems": [
    "FMM.C113_floor",
    "FMM.C113_balanced",
    "FMM.C113_placed"
   ],
   "note": "As for C112."
  },
  {
   "property": "C114",
   "status": "proved",
   "theorems": [
    "FMM.C114_adaptive",
    "FMM.C114_everywhere",
    "FMM.C114_well_placed",
    "FMM.C114_balanced",
    "FMM.C114_placed"
   ],
   "note": "Library functions as in C112; in addition the harmonics returned by GSL are assumed finite up to degree 84 and the derivatives computed from its Legendre functions finite up to degree 42 off the vertical (oracles: satisfied by correctly rounded functions). On the axes see C87."
  },
  {
   "property": "C115",
   "status": "proved",
   "theorems": [
    "FMM.C115_adaptive",
    "FMM.C115_balanced",
    "FMM.C115_adaptive_exact",
    "FMM.C115_balanced_exact",
    "FMM.C115_adaptive_2d",
    "FMM.C115_balanced_2d"
   ],
   "note": "Counts of kernel operations, not of time; the cost of one operation depends on the order only. The counter is added to an arbitrary kit by Kit.counted and shown not to change anything. C115_adaptive and C115_balanced cover exact arithmetic (rnd = id, u = 0) and rounding; C115_*_exact and C115_*_2d are the instances without rounding and for the plane, where construction and evaluation are known to succeed."
  },
  {
   "property": "C116",
   "status": "proved",
   "theorems": [
    "FMM.C116_combine_adaptive",
    "FMM.C116_combine_balanced",
    "FMM.C116_scale_adaptive",
    "FMM.C116_scale_balanced",
    "FMM.C116_adaptive_2d",
    "FMM.C116_balanced_2d",
    "FMM.C116_adaptive_3d",
    "FMM.C116_balanced_3d"
   ],
   "note": "Real arithmetic. AdaptiveSuperposition and BalancedSuperposition are the statements; C116_combine_* and C116_scale_* draw the consequences. The function h is the sum of what a unit charge contributes through the interaction lists, the lists X and W and the near neighbours; how well it approximates the kernel is the subject of C39 to C41, C53, C55 and C58."
  },
  {
   "property": "C117",
   "status": "proved",
   "theorems": [
    "FMM.C117_adaptive_2d",
    "FMM.C117_balanced_2d",
    "FMM.C117_adaptive_3d",
    "FMM.C117_balanced_3d"
   ],
   "note": "Real arithmetic. AdaptiveUnits and BalancedUnits are the statements; both trees are constructed from the same state of the tables. Evaluation outside the root box, which is a direct sum over the caller's sources, is the subject of C13."
  },
  {
   "property": "C118",
   "status": "proved",
   "theorems": [
    "FMM.C118_adaptive_off",
    "FMM.C118_balanced_off",
    "FMM.C118_adaptive_2d",
    "FMM.C118_balanced_2d",
    "FMM.C118_adaptive_3d",
    "FMM.C118_balanced_3d"
   ],
   "note": "Real arithmetic, smoothing parameter 0. AdaptiveGradient and BalancedGradient are the statements; C118_*_off: at points without a source the computed potential itself is differentiable. On the boundary of a box the computed potential may jump, because the expansions change."
  },
  {
   "property": "C119",
   "status": "proved",
   "theorems": [
    "FMM.C119_adaptive_3d",
    "FMM.C119_balanced_3d"
   ],
   "note": "Real arithmetic. AdaptiveReciprocal and BalancedReciprocal are the statements. The contribution h(x, y) of C116 is shown to be symmetric: conversions by exchange of the two truncated sums, evaluations of multipole expansions against local expansions of sources, lists by their symmetry (Rc.kern_exchange)."
  },
  {
   "property": "C120",
   "status": "proved",
   "theorems": [
    "FMM.C120_order_one_adaptive",
    "FMM.C120_order_one_balanced",
    "FMM.C120_highest_coefficient",
    "FMM.C120_asymmetric"
   ],
   "note": "Real arithmetic. C120_highest_coefficient for the conversion, C120_asymmetric for the failure in a fresh program (the binomial table is grown to order p only, C23), C120_order_one_* for order 1. Finding 35."
  },
  {
   "property": "C121",
   "status": "proved",
   "theorems": [
    "FMM.C121_adaptive_laplacian",
    "FMM.C121_balanced_laplacian",
    "FMM.C121_adaptive_2d",
    "FMM.C121_balanced_2d",
    "FMM.C121_adaptive_3d",
    "FMM.C121_balanced_3d"
   ],
   "note": "Real arithmetic, order at least 1, no smoothing of forces, points in the interior of the boxes of the leaves. In space the statement about forces is about points off the vertical lines through box centres (C54)."
  },
  {
   "property": "C122",
   "status": "proved",
   "theorems": [
    "FMM.TestProgs.C122_efficiency",
    "FMM.TestProgs.C122_no_directory",
    "FMM.TestProgs.C122_sequential",
    "FMM.TestProgs.C122_first_run_lost",
    "FMM.TestProgs.C122_columns",
    "FMM.TestProgs.C122_headings",
    "FMM.TestProgs.C122_positions",
    "FMM.TestProgs.C122_short"
   ],
   "note": "For runs in which no tree and no direct sum throws (work is a parameter of the model). C122_efficiency, C122_sequential for what is left, C122_columns for the rows, C122_first_run_lost and C122_no_directory. Finding 36. C122_headings: as many headings as columns; C122_positions: the content of source_locs.dat. C122_short: vectors of different lengths."
  },
  {
   "property": "C123",
   "status": "proved",
   "theorems": [
    "FMM.C123_adaptive2",
    "FMM.C123_adaptive3",
    "FMM.C123_balanced2",
    "FMM.C123_balanced3",
    "FMM.C123_double2",
    "FMM.C123_double3",
    "FMM.C123_exact_adaptive",
    "FMM.C123_exact_balanced",
    "FMM.C123_particles"
   ],
   "note": "C123_adaptive2/3, C123_balanced2/3 for the floating-point kits with arbitrary operations, C123_double2/3 with infinities and NaN, C123_exact_adaptive/_balanced, C123_particles. An unsuccessful construction may end with different errors under different schedules. Direct sums are not reproducible in this sense (C74, C93)."
  },
  {
   "property": "C124",
   "status": "proved",
   "theorems": [
    "FMM.Wolfram.C124_forces",
    "FMM.Wolfram.C124_energies",
    "FMM.Wolfram.C124_potentials",
    "FMM.Wolfram.C124_direct_forces",
    "FMM.Wolfram.C124_direct_energies",
    "FMM.Wolfram.C124_direct_potentials",
    "FMM.Wolfram.C124_no_misread",
    "FMM.Wolfram.C124_usage_rejected",
    "FMM.Wolfram.C124_usage_forces",
    "FMM.Wolfram.C124_script",
    "FMM.Wolfram.C124_script_symbols",
    "FMM.Wolfram.C124_script_intended",
    "FMM.Wolfram.C124_negative_items",
    "FMM.Wolfram.C124_energies_2d",
    "FMM.Wolfram.C124_forces_2d",
    "FMM.Wolfram.C124_energies_3d",
    "FMM.Wolfram.C124_direct_potentials_exact",
    "FMM.Wolfram.C124_unchecked"
   ],
   "note": "C124_forces, _energies, _potentials, _direct_* characterise the calls that evaluate (both directions, every argument list); C124_no_misread; C124_usage_rejected (finding 37), C124_usage_forces; C124_script, C124_script_intended; results in C124_energies_2d/3d, C124_forces_2d, C124_direct_potentials_exact by C48. Trusted: a LibraryFunction checks number and types of its arguments, exact integers convert to Real. C124_unchecked: the C functions by themselves, called with any arguments. C124_script_symbols: what the symbols of the script mean."
  },
  {
   "property": "C125",
   "status": "proved",
   "theorems": [
    "FMM.C125_box",
    "FMM.C125_inside",
    "FMM.C125_adaptive_diverges",
    "FMM.C125_balanced_ub",
    "FMM.C125_adaptive_origin_matters",
    "FMM.C125_balanced_origin_matters",
    "FMM.C125_centred",
    "FMM.C125_invariance_false",
    "FMM.C125_adaptive_2d",
    "FMM.C125_balanced_2d",
    "FMM.C125_adaptive_3d",
    "FMM.C125_balanced_3d",
    "FMM.C125_force_adaptive_2d",
    "FMM.C125_force_balanced_2d",
    "FMM.C125_force_adaptive_3d",
    "FMM.C125_force_balanced_3d"
   ],
   "note": "C125_box, C125_inside: exact law of the root box; C125_adaptive_diverges, C125_balanced_ub if the box is moved beyond all sources in every coordinate, C125_*_origin_matters for every source list; C125_invariance_false: translation invariance of the construction fails; C125_centred: the origin in the middle satisfies AdaptiveInput and BalancedInput; C125_adaptive_2d/3d, C125_balanced_2d/3d compare the potentials for two origins, C125_force_adaptive_2d/3d, C125_force_balanced_2d/3d the forces. Exact arithmetic."
  },
  {
   "property": "C126",
   "status": "proved",
   "theorems": [
    "FMM.C126_adaptive_2d",
    "FMM.C126_balanced_2d",
    "FMM.C126_adaptive_3d",
    "FMM.C126_balanced_3d",
    "FMM.C126_adaptive_perm",
    "FMM.C126_balanced_perm",
    "FMM.C126_adaptive_perm_force",
    "FMM.C126_balanced_perm_force",
    "FMM.C126_reflection_false"
   ],
   "note": "C126_adaptive_2d/3d, C126_balanced_2d/3d: potentials equal, forces with exchanged components, for every exchange of two axes; C126_adaptive_perm, C126_balanced_perm: potentials in space for all permutations; C126_adaptive_perm_force, C126_balanced_perm_force: forces. Exact arithmetic. C126_reflection_false: three sources whose mirror images have a tree of smaller height (sources on box boundaries belong to the upper box)."
  },
  {
   "property": "C127",
   "status": "proved",
   "theorems": [
    "FMM.C127_adaptive_2d",
    "FMM.C127_balanced_2d",
    "FMM.C127_adaptive_3d",
    "FMM.C127_balanced_3d"
   ],
   "note": "C127_adaptive_2d/3d, C127_balanced_2d/3d: potentials equal, forces reflected, for all combinations of signs. Exact arithmetic. OffFaces excludes the faces of the boxes of all levels; C126_reflection_false shows that some such condition is needed."
  },
  {
   "property": "C128",
   "status": "proved",
   "theorems": [
    "FMM.C128_no_expansions",
    "FMM.C128_evaluate_2d",
    "FMM.C128_sources_2d",
    "FMM.C128_convert_2d",
    "FMM.C128_convert_all_2d",
    "FMM.C128_translate_2d",
    "FMM.C128_order_zero",
    "FMM.C128_rounded_2d",
    "FMM.C128_direct_2d",
    "FMM.C128_direct_3d",
    "FMM.C128_evaluate_3d",
    "FMM.C128_sources_3d",
    "FMM.C128_convert_3d",
    "FMM.C128_convert_all_3d",
    "FMM.C128_translate_3d",
    "FMM.C128_default_2d",
    "FMM.C128_default_3d"
   ],
   "note": "C128_no_expansions (exact, rounded and double models), C128_evaluate_2d/3d, C128_sources_2d/3d, C128_convert_2d/3d, C128_convert_all_2d/3d (vectors of expansions), C128_translate_2d/3d: exact arithmetic, both directions. C128_rounded_2d: the failing arguments in rounded arithmetic; C128_order_zero: the assertions in rounded arithmetic and double. Evaluation in the plane is stated for expansions of real total charge; forces in space are the subject of C54, order zero in space of C102. C128_direct_2d/3d: direct sums, any rounding with rnd 0 = 0 and norm 0 = 0. C128_default_2d/3d: default-constructed expansions."
  },
  {
   "property": "C129",
   "status": "proved",
   "theorems": [
    "FMM.C129_multipole_2d",
    "FMM.C129_local_2d",
    "FMM.C129_multipole_3d",
    "FMM.C129_local_3d"
   ],
   "note": "C129_multipole_2d/3d, C129_local_2d/3d. Exact arithmetic; in the plane multipole expansions of real total charge."
  }
 ]
}