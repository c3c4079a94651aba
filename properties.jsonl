{"id": "C01", "title": "Orthant index and child directions are inverse", "statement": "getOrthant(c, c + t*getChildCenterDirections()[i]) returns i for every child index i and every t > 0, and for every point x the direction with index getOrthant(c, x) has component +1 in exactly the coordinates where x[j] >= c[j].", "quantifier": "all dimensions d, all centers, points, child indices and t > 0", "why_tests_cant": "Continuum of centers/points and every dimension; tests sample d in {2,3} and a few points.", "anchors": ["fmm/adaptive_orthtree.hpp:getOrthant", "fmm/abstract_orthtree.hpp:getChildCenterDirections"]}
{"id": "C02", "title": "A point of a box lies in the child box selected for it", "statement": "If a (closed) box contains x then the child box whose index is getOrthant(center, x) contains x; every child box is contained in its parent; two different children overlap at most in their boundary.", "quantifier": "all boxes, all points, all dimensions", "why_tests_cant": "Boundary points (ties) form a measure-zero set random tests never hit.", "anchors": ["fmm/abstract_orthtree.hpp:BaseNode::contains", "fmm/adaptive_orthtree.hpp:getOrthant", "fmm/adaptive_fmm_tree.hpp:buildTree"]}
{"id": "C03", "title": "adjacent() decides whether two tree boxes touch", "statement": "For any two boxes of one tree (equal or different depth) BaseNode::adjacent returns true iff the two closed boxes intersect; it is reflexive and symmetric, and a box adjacent to x has its parent adjacent to x.", "quantifier": "all root boxes with positive side, all pairs of descendants at any depths, all dimensions", "why_tests_cant": "Infinitely many pairs of depths; a tolerance is used that is only right because of the regular layout.", "anchors": ["fmm/abstract_orthtree.hpp:BaseNode::adjacent"]}
{"id": "C04", "title": "The root box contains every source", "statement": "After construction of an FMM tree the root box contains all source positions (strictly, as the comment in getDataRange claims).", "quantifier": "all non-empty source lists", "why_tests_cant": "Test data are centred at the origin; the padding is multiplicative, so only particular data ranges expose a failure.", "anchors": ["fmm/abstract_fmm_tree.hpp:getDataRange", "fmm/abstract_orthtree.hpp:getDataRange"]}
{"id": "C05", "title": "Leaf box indices locate the point", "statement": "For a point of the half-open root box, getLeafBoxIndices returns the unique index tuple whose leaf cell (half-open) contains the point; for a point on or beyond an upper face (index still below 2^32) it throws runtime_error; below a lower face the conversion to an unsigned integer is undefined behaviour.", "quantifier": "all root boxes with positive side, all heights < 32, all points", "why_tests_cant": "Boundary points and points outside the domain are measure-zero or never tested.", "anchors": ["fmm/balanced_orthtree.hpp:getLeafBoxIndices"]}
{"id": "C06", "title": "Flat index is a bijection onto the bucket array", "statement": "For a tree with d*height <= 32 the flat index maps index tuples with components < 2^height one-to-one onto [0, 2^(d*height)); for larger trees the 32-bit arithmetic wraps and distinct leaves collide.", "quantifier": "all dimensions, all heights, all index tuples", "why_tests_cant": "The wrap-around needs more than 2^32 leaves.", "anchors": ["fmm/balanced_orthtree.hpp:getFlatIndex"]}
{"id": "C07", "title": "Morton index is a bijection", "statement": "For every height below the throwing limit getMortonIndex maps index tuples with components < 2^height one-to-one onto [0, 2^(d*height)), and throws exactly when height >= 64/d.", "quantifier": "all dimensions >= 1, all heights, all index tuples", "why_tests_cant": "Domain grows as 2^(d*height).", "anchors": ["fmm/balanced_orthtree.hpp:getMortonIndex"]}
{"id": "C08", "title": "Array position = Morton index in the balanced tree", "statement": "After construction the i-th leaf of the leaf array is the leaf whose box has the index tuple with Morton index i, and the nodes of depth k occupy exactly the slice starting at (c^k-1)/(c-1) (c = 2^d) of the node array; the two arrays are filled completely and never overrun.", "quantifier": "all dimensions >= 2, all heights >= 1", "why_tests_cant": "Needs induction over height; tests only see small heights.", "anchors": ["fmm/balanced_fmm_tree.hpp:expandNode", "fmm/abstract_orthtree.hpp:traverseBFSCore", "fmm/balanced_fmm_tree.hpp:BalancedFmmTree"]}
{"id": "C09", "title": "Balanced tree: every source is stored in exactly one leaf, whose cell contains it", "statement": "distributePointSources puts every source (with multiplicity) in exactly one leaf, the one whose half-open cell contains it; evaluating at a source position looks up that same leaf.", "quantifier": "all source lists inside the half-open root box, all heights with d*height <= 32", "why_tests_cant": "All placements of sources, including on cell boundaries.", "anchors": ["fmm/balanced_fmm_tree.hpp:distributePointSources", "fmm/balanced_fmm_tree.hpp:evaluatePotential"]}
{"id": "C10", "title": "Balanced tree height", "statement": "The height of a balanced tree is the least h with N <= sources_per_cell * (2^d)^h whenever N > sources_per_cell/2^d; for smaller N the conversion of a negative double to an unsigned integer is undefined behaviour. (The documented 'maximal number of sources per leaf' is only an average: individual leaves may hold more.)", "quantifier": "all N >= 1, all sources_per_cell >= 1", "why_tests_cant": "All ratios; the failing range N <= s/2^d is not exercised.", "anchors": ["fmm/balanced_fmm_tree.hpp:BalancedFmmTree"]}
{"id": "C11", "title": "Adaptive tree: sources are partitioned and leaves respect the capacity", "statement": "When the adaptive tree is built every source is in exactly one leaf (with multiplicity, original order within a leaf), every leaf holds at most max_sources_per_leaf sources, every refined node other than the root holds more, and every box stores exactly the sources routed to it by getOrthant.", "quantifier": "all source lists, all capacities, all dimensions, every tree depth", "why_tests_cant": "Structural induction over an unbounded recursive refinement.", "anchors": ["fmm/adaptive_fmm_tree.hpp:buildTree", "fmm/adaptive_fmm_tree.hpp:refineOrthant", "fmm/adaptive_point_orthtree.hpp:buildTree"]}
{"id": "C12", "title": "Adaptive tree construction terminates", "statement": "Construction terminates when all sources lie in the root box and no point carries more than max_sources_per_leaf sources; it never terminates when more than max_sources_per_leaf sources share one position (and refinement starts).", "quantifier": "all source lists and capacities", "why_tests_cant": "Non-termination cannot be observed by a test; termination for all inputs cannot be enumerated.", "anchors": ["fmm/adaptive_fmm_tree.hpp:buildTree", "fmm/adaptive_point_orthtree.hpp:buildTree"]}
{"id": "C13", "title": "Containing-leaf lookup", "statement": "The adaptive evaluation uses the leaf box that contains the evaluation point iff the point lies in the root box, otherwise it falls back to the direct sum; a source position is looked up in the leaf that stores the source.", "quantifier": "all trees, all evaluation points", "why_tests_cant": "All points incl. faces shared by several boxes.", "anchors": ["fmm/adaptive_fmm_tree.hpp:getContainingLeaf", "fmm/adaptive_fmm_tree.hpp:evaluatePotential"]}
{"id": "C14", "title": "Breadth-first traversal", "statement": "traverseBFSCore calls the visitor exactly once on every node, in order of non-decreasing depth, so that a parent is visited before its children.", "quantifier": "all finite trees", "why_tests_cant": "All tree shapes.", "anchors": ["fmm/abstract_orthtree.hpp:traverseBFSCore"]}
{"id": "C15", "title": "Balanced tree: near neighbours", "statement": "After the neighbourhood pass the near-neighbour list of a node consists of exactly the nodes of the same depth whose boxes touch it (itself included), each once.", "quantifier": "all heights, all nodes, all dimensions", "why_tests_cant": "Induction over depth.", "anchors": ["fmm/balanced_fmm_tree.hpp:computeNodeNeighbourhood"]}
{"id": "C16", "title": "Interaction lists are well separated and the sanity exception is never thrown", "statement": "Every member of an interaction list has the same depth as the node, its parent touches the node's parent, its box does not touch the node's box, its centre is at distance >= 2 box lengths; hence the 'Node too close' exception can never be thrown; and the list has at most 6^d - 3^d members.", "quantifier": "all trees (balanced and adaptive), all nodes, all dimensions", "why_tests_cant": "Induction over depth, unbounded tree sizes.", "anchors": ["fmm/balanced_fmm_tree.hpp:computeNodeNeighbourhood", "fmm/adaptive_fmm_tree.hpp:computeNodeNeighbourhood"]}
{"id": "C17", "title": "Balanced tree: every source is accounted for exactly once", "statement": "For every leaf L and every source s exactly one of the following holds: s is stored in a near neighbour of L, or s lies below exactly one member of the interaction list of exactly one ancestor-or-self of L.", "quantifier": "all heights, all leaves, all sources", "why_tests_cant": "Double counting or omission may need particular relative positions at depth.", "anchors": ["fmm/balanced_fmm_tree.hpp:computeNodeNeighbourhood", "fmm/balanced_fmm_tree.hpp:evaluatePotential", "fmm/abstract_fmm_tree.hpp:multipoleToLocal"]}
{"id": "C18", "title": "Adaptive tree: contents of the U, V, W, X lists", "statement": "After the neighbourhood pass: U(leaf) = all touching leaves of any depth; V(node) = same-depth boxes not touching it whose parents touch its parent; X(node) = coarser leaves touching its parent but not it; W(leaf) = finer boxes not touching it whose parents do; each list is duplicate free; X and W are dual and U is symmetric.", "quantifier": "all adaptive trees, all nodes and leaves", "why_tests_cant": "Lists of a leaf are completed by pushes performed while processing deeper nodes; all tree shapes matter.", "anchors": ["fmm/adaptive_fmm_tree.hpp:computeNodeNeighbourhood"]}
{"id": "C19", "title": "Adaptive tree: every source is accounted for exactly once", "statement": "For every leaf L every source is counted exactly once among: U-list leaves of L, W-list boxes of L, V-list boxes of L or of one ancestor, X-list leaves of L or of one ancestor.", "quantifier": "all adaptive trees, all leaves, all sources", "why_tests_cant": "As C17, with mixed depths.", "anchors": ["fmm/adaptive_fmm_tree.hpp:computeNodeNeighbourhood", "fmm/adaptive_fmm_tree.hpp:evaluatePotential", "fmm/adaptive_fmm_tree.hpp:constructLocalExpansion"]}
{"id": "C20", "title": "Coefficient and table indexing is injective and in bounds", "statement": "The index maps (n,m) -> n(n+1)+m, (n,k) -> n(n+1)/2+k and the sign-table index are injective on their domains and stay inside the allocated vectors; every table lookup performed by the 2D and 3D expansion operations of order >= 1 is in bounds.", "quantifier": "all orders >= 1, all index pairs in range, all refresh histories", "why_tests_cant": "All orders.", "anchors": ["fmm/fmm_tables.hpp:getTableIndex", "fmm/series_expansion.hpp:operator()", "fmm/multipole_expansion.hpp:shift", "fmm/local_expansion.hpp:LocalExpansion"]}
{"id": "C21", "title": "The sign functions are total and correct", "statement": "sign_fun1/2/3(k, m) never throw and equal i^(|k|-|m|-|k-m|), i^(|k-m|-|k|-|m|), i^(|m|-|m-k|-|k|).", "quantifier": "all integers k, m", "why_tests_cant": "All of Z^2.", "anchors": ["fmm/fmm_general.hpp:sign_fun1", "fmm/fmm_general.hpp:sign_fun2", "fmm/fmm_general.hpp:sign_fun3"]}
{"id": "C22", "title": "Cached tables hold the right values after any history", "statement": "After any sequence of refresh calls with maximum M the A-table equals A_l^m for l <= 2M, the sign tables equal the sign functions for |l|,|m| <= M, the binomial table equals C(n,k) for n <= M; the maximum never decreases and a refresh with a smaller order changes nothing.", "quantifier": "all sequences of refresh calls", "why_tests_cant": "Arbitrary histories of a process-wide mutable cache.", "anchors": ["fmm/fmm_tables.hpp:AlmTable", "fmm/fmm_tables.hpp:SignTable", "fmm/fmm_tables.hpp:BinomialTable"]}
{"id": "C23", "title": "2D multipole-to-local conversion does not depend on what was computed before", "statement": "Constructing a local expansion from a multipole expansion yields the same coefficients whatever expansions were constructed earlier in the process.", "quantifier": "all histories of expansion constructions, all expansions", "why_tests_cant": "Depends on process-wide state left by unrelated objects.", "anchors": ["fmm/fmm_tables.hpp:BinomialTable::refresh", "fmm/local_expansion.hpp:LocalExpansion<2>::multipoleToLocal"]}
{"id": "C24", "title": "Expansion order formula", "statement": "getOrder() is the least p >= 0 with sum|q| <= 2^p * eps whenever sum|q| > eps/2; otherwise the conversion to unsigned is undefined behaviour; a resulting order of 0 makes every 3D translation read outside the (empty) tables.", "quantifier": "all source lists, all eps > 0", "why_tests_cant": "Real-valued inputs; the failing range is not exercised.", "anchors": ["fmm/abstract_fmm_tree.hpp:AbstractFmmTree"]}
{"id": "C25", "title": "3D tables can be built for every order", "statement": "Filling the 3D A-table for a given order succeeds for every order.", "quantifier": "all orders", "why_tests_cant": "Only fails for accuracies beyond those in the tests (factorial overflow in GSL aborts the process).", "anchors": ["fmm/fmm_tables.hpp:AlmTable::refresh", "fmm/fmm_general.hpp:A_coeff"]}
{"id": "C26", "title": "2D multipole expansion error bound", "statement": "For sources within distance R of the centre and an evaluation point at distance r > R, the order-p 2D multipole potential differs from the direct sum by at most (sum|q|) (R/r)^(p+1) / ((p+1)(1-R/r)).", "quantifier": "all source lists, centres, orders, evaluation points (exact arithmetic)", "why_tests_cant": "Real-analytic estimate.", "anchors": ["fmm/multipole_expansion.hpp:MultipoleExpansion<2>"]}
{"id": "C27", "title": "2D multipole-to-multipole translation is exact", "statement": "The multipole expansion built from the expansions of several groups of sources at arbitrary centres has exactly the coefficients of the expansion built directly from all those sources about the new centre.", "quantifier": "all groups of sources, centres, orders >= 1, all table histories (exact arithmetic)", "why_tests_cant": "Continuum of inputs, all orders.", "anchors": ["fmm/multipole_expansion.hpp:MultipoleExpansion<2>::shift", "fmm/multipole_expansion.hpp:MultipoleExpansion<2>"]}
{"id": "C28", "title": "2D local-to-local translation is exact", "statement": "A local expansion of order at least 1 shifted to another centre has the same potential and force field at every point; at order 0 the constructor fails its assertion.", "quantifier": "all local expansions, centres, points (exact arithmetic)", "why_tests_cant": "Continuum of inputs, all orders.", "anchors": ["fmm/local_expansion.hpp:LocalExpansion<2>::shift"]}
{"id": "C29", "title": "2D multipole-to-local error bound", "statement": "Converting the multipole expansion of sources within R of its centre to a local expansion about a centre at distance D gives, at every point within r of the new centre with r + R < D, a potential within (sum|q|) rho^(p+1)/((p+1)(1-rho)), rho = (r+R)/D, of the direct sum - for every history of the shared binomial table.", "quantifier": "all sources, centres, orders >= 1, evaluation points, table histories (exact arithmetic)", "why_tests_cant": "Real-analytic estimate over all inputs and process histories.", "anchors": ["fmm/local_expansion.hpp:LocalExpansion<2>::multipoleToLocal"]}
{"id": "C30", "title": "2D local expansion from sources: error bound", "statement": "The local expansion built directly from sources at distance >= D from its centre is within (sum|q|) (r/D)^(p+1)/((p+1)(1-r/D)) of the direct sum at points within r < D.", "quantifier": "all sources, centres, orders, evaluation points (exact arithmetic)", "why_tests_cant": "Real-analytic estimate.", "anchors": ["fmm/local_expansion.hpp:LocalExpansion<2>"]}
{"id": "C31", "title": "Force field is minus the gradient of the potential", "statement": "evaluateForcefield of a multipole or local expansion (in 3D off the vertical line through its centre), and of a single 2D/3D point source (eps = 0), is exactly minus the gradient of evaluatePotential / potential at every point where the latter is differentiable.", "quantifier": "all expansions, sources and points (exact arithmetic)", "why_tests_cant": "Derivative identity at every point.", "anchors": ["fmm/multipole_expansion.hpp:evaluateForcefield", "fmm/local_expansion.hpp:evaluateForcefield", "fmm/fields.hpp:forcefield"]}
{"id": "C32", "title": "Adding series expansions", "statement": "operator+= throws logic_error exactly when coefficient counts or centres differ and otherwise adds potentials pointwise; during tree construction it never throws.", "quantifier": "all pairs of expansions", "why_tests_cant": "All inputs.", "anchors": ["fmm/series_expansion.hpp:operator+="]}
{"id": "C33", "title": "Expansions do not depend on the order of the sources", "statement": "Permuting the source list changes neither the coefficients of an expansion nor a direct sum (exact arithmetic); expansions are additive under concatenation of source lists.", "quantifier": "all source lists and permutations", "why_tests_cant": "n! orders.", "anchors": ["fmm/multipole_expansion.hpp:MultipoleExpansion", "fmm/fields.hpp:potential"]}
{"id": "C34", "title": "Direct potential and force: self-exclusion and sign conventions", "statement": "With safe = true a source located at the evaluation point contributes zero and every other source contributes q log r (2D), -q/r (3D); the Coulomb variants are the negatives of the gravitational ones; without safe a coincident source yields an undefined value.", "quantifier": "all sources and evaluation points", "why_tests_cant": "Coincidence is measure zero.", "anchors": ["fmm/fields.hpp:potential", "fmm/fields.hpp:forcefield"]}
{"id": "C35", "title": "Pairwise potential energies are schedule independent and correct", "statement": "For every assignment of iterations to threads and every interleaving of the atomic updates, particlePotentialEnergies returns for particle i the sum over j != i of q_i times the potential of j at i.", "quantifier": "all particle lists, all schedules and interleavings", "why_tests_cant": "Exponentially many interleavings.", "anchors": ["fmm/fields.hpp:particlePotentialEnergies"]}
{"id": "C36", "title": "Pairwise forces are schedule independent, correct and obey Newton's third law", "statement": "For every interleaving particleForces returns for particle i the sum over j != i of q_i times the field of j at i (with smoothing eps), and the forces sum to zero.", "quantifier": "all particle lists, all schedules and interleavings", "why_tests_cant": "Exponentially many interleavings.", "anchors": ["fmm/fields.hpp:particleForces"]}
{"id": "C37", "title": "Particle evaluation through the tree is schedule independent", "statement": "evaluateParticlePotentialEnergies / evaluateParticleForces return q_i * evaluatePotential(x_i) / q_i * evaluateForcefield(x_i) at index i for every schedule of the parallel loop.", "quantifier": "all schedules", "why_tests_cant": "All interleavings.", "anchors": ["fmm/abstract_fmm_tree.hpp:evaluateParticlePotentialEnergies", "fmm/abstract_fmm_tree.hpp:evaluateParticleForces"]}
{"id": "C38", "title": "The parallel up- and downward passes are schedule independent", "statement": "The parallel loops of tree construction compute the same expansions for every order/interleaving of their iterations.", "quantifier": "all trees, all iteration orders of every level", "why_tests_cant": "All interleavings.", "anchors": ["fmm/balanced_fmm_tree.hpp:BalancedFmmTree", "fmm/adaptive_fmm_tree.hpp:AdaptiveFmmTree"]}
{"id": "C39", "title": "Balanced 2D FMM: end-to-end error bound", "statement": "For a 2D balanced tree whose sources lie in the half-open root box, construction succeeds and evaluatePotential(x) differs from the direct self-excluding sum by at most (sum|q|) rho^(p+1)/((p+1)(1-rho)), rho = 1/sqrt(2), p = getOrder(), for every x in the half-open root box.", "quantifier": "all source lists, leaf capacities, orders >= 1, evaluation points, table histories (exact arithmetic)", "why_tests_cant": "Real-analytic estimate over all inputs.", "anchors": ["fmm/balanced_fmm_tree.hpp:evaluatePotential"]}
{"id": "C40", "title": "Adaptive 2D FMM: end-to-end error bound", "statement": "As C39 for the adaptive tree, for every x in the root box; outside it the result is exactly the direct sum.", "quantifier": "all source lists, capacities, orders >= 1, evaluation points, table histories (exact arithmetic)", "why_tests_cant": "Real-analytic estimate over all inputs and tree shapes.", "anchors": ["fmm/adaptive_fmm_tree.hpp:evaluatePotential"]}
{"id": "C41", "title": "The requested accuracy eps is attained", "statement": "|evaluatePotential(x) - direct sum| <= eps for every x in the root box ('eps: a double specifying the desired accuracy').", "quantifier": "all inputs (exact arithmetic)", "why_tests_cant": "Random tests measure average-case errors; the worst case is a corner configuration.", "anchors": ["fmm/abstract_fmm_tree.hpp:AbstractFmmTree", "fmm/local_expansion.hpp:multipoleToLocal"]}
{"id": "C42", "title": "No singular evaluation at source positions", "statement": "Evaluating a tree at the position of a source inside the root box never evaluates an unguarded source or an expansion at its singularity: coincident sources are all in the containing leaf, where the guarded kernel is used; at a source outside the root box the adaptive tree uses the unguarded direct sum and hits the singularity.", "quantifier": "all trees, all sources", "why_tests_cant": "Needs coincidence or sources outside the padded box.", "anchors": ["fmm/adaptive_fmm_tree.hpp:evaluatePotential", "fmm/balanced_fmm_tree.hpp:evaluatePotential"]}
{"id": "C43", "title": "Coulomb trees are the negative of gravitational trees", "statement": "A tree with field_type = false returns exactly the negative of the tree with field_type = true, for potentials and forces, inside and outside the root box.", "quantifier": "all inputs", "why_tests_cant": "All inputs.", "anchors": ["fmm/adaptive_fmm_tree.hpp:evaluatePotential", "fmm/balanced_fmm_tree.hpp:evaluatePotential", "fmm/fields.hpp:potential"]}
{"id": "C44", "title": "Small problems are evaluated exactly", "statement": "If all sources fit into a single leaf (adaptive: N <= max_sources_per_leaf; balanced: height 0) the tree returns exactly the direct self-excluding sum at points of the root box.", "quantifier": "all source lists with N <= capacity, all points", "why_tests_cant": "All inputs.", "anchors": ["fmm/adaptive_fmm_tree.hpp:AdaptiveFmmTree", "fmm/balanced_fmm_tree.hpp:BalancedFmmTree"]}
{"id": "C45", "title": "Later changes of the caller's source vector do not change in-domain evaluations", "statement": "After construction the value of evaluatePotential at a point of the root box does not depend on subsequent modifications of the vector passed by the caller, while particle evaluation and out-of-domain evaluation read the current contents of that vector.", "quantifier": "all histories of caller modifications", "why_tests_cant": "Arbitrary histories.", "anchors": ["fmm/abstract_fmm_tree.hpp:sources", "fmm/adaptive_fmm_tree.hpp:evaluatePotential"]}
{"id": "C46", "title": "Vector algebra", "statement": "Vector_ operations satisfy the vector-space laws; norm() is the Euclidean norm; norm_sq() its square; dot is symmetric and bilinear.", "quantifier": "all dimensions and vectors (exact arithmetic)", "why_tests_cant": "Continuum.", "anchors": ["fmm/vector.hpp:Vector_"]}
{"id": "C47", "title": "Spherical and polar coordinates round-trip", "statement": "v.toSpherical().toCartesian() == v for every v in 2 and 3 dimensions; r >= 0, theta in [0, pi], phi in (-pi, pi]; toCartesianBasis is an isometry.", "quantifier": "all vectors (exact arithmetic)", "why_tests_cant": "Branch cuts and axis points are measure zero.", "anchors": ["fmm/vector.hpp:toSpherical", "fmm/vector.hpp:toCartesian", "fmm/vector.hpp:toCartesianBasis"]}
{"id": "C48", "title": "Packing for Mathematica / GSL arrays", "statement": "Packing sources into flat arrays and unpacking them (arrayToSources/sourcesToArray, positions_data[DIM*i+j]) is the identity, every slot is written exactly once, and the integrator's derivative has velocity/force halves in the documented places (the force half within the error bound of the force evaluation). The functions exported to Mathematica return, in the order of the input, the values of the library functions.", "quantifier": "all source lists and dimensions, all schedules", "why_tests_cant": "All sizes.", "anchors": ["fmm/examples/integrator.cpp:arrayToSources", "fmm/examples/integrator.cpp:sourcesToArray", "fmm/mathematica/MathematicaFMM.cpp", "fmm/mathematica/mathematica.cpp:FMM2D_Forces"]}
{"id": "C49", "title": "3D multipole-to-multipole translation is exact", "statement": "As C27 in 3 dimensions: shifting and summing 3D multipole expansions gives exactly the coefficients of the expansion built directly from the sources about the new centre.", "quantifier": "all sources, centres, orders >= 1 (exact arithmetic)", "why_tests_cant": "Continuum; depends on a delicate sign/normalisation convention for all (n,m).", "anchors": ["fmm/multipole_expansion.hpp:MultipoleExpansion<3>::shift"]}
{"id": "C50", "title": "3D local-to-local translation is exact", "statement": "A 3D local expansion shifted to another centre has the same potential at every point.", "quantifier": "all local expansions, centres, points (exact arithmetic)", "why_tests_cant": "Continuum, all orders.", "anchors": ["fmm/local_expansion.hpp:LocalExpansion<3>::shift"]}
{"id": "C51", "title": "3D multipole expansion error bound", "statement": "For sources within R of the centre and an evaluation point at distance r > R the order-p 3D multipole potential differs from the direct sum by at most (sum|q|)/(r-R) * (R/r)^(p+1).", "quantifier": "all sources, centres, orders, points (exact arithmetic)", "why_tests_cant": "Real-analytic estimate.", "anchors": ["fmm/multipole_expansion.hpp:MultipoleExpansion<3>"]}
{"id": "C52", "title": "3D multipole-to-local and source-to-local error bounds", "statement": "The 3D local expansion obtained from sources or from a multipole expansion approximates the direct sum with a geometric error bound in (r+R)/D.", "quantifier": "all sources, centres, orders, points (exact arithmetic)", "why_tests_cant": "Real-analytic estimate.", "anchors": ["fmm/local_expansion.hpp:LocalExpansion<3>"]}
{"id": "C53", "title": "3D FMM: end-to-end error bound", "statement": "As C39/C40 for 3D trees with ratio sqrt(3)/2.", "quantifier": "all inputs (exact arithmetic)", "why_tests_cant": "Real-analytic estimate over all inputs.", "anchors": ["fmm/balanced_fmm_tree.hpp", "fmm/adaptive_fmm_tree.hpp"]}
{"id": "C54", "title": "3D force evaluation is defined everywhere", "statement": "evaluateForcefield of a 3D expansion returns the gradient for every evaluation point at which the potential is smooth.", "quantifier": "all expansions and points", "why_tests_cant": "Fails only on the polar axis through the expansion centre (division by sin(theta) = 0).", "anchors": ["fmm/multipole_expansion.hpp:MultipoleExpansion<3>::evaluateForcefield", "fmm/local_expansion.hpp:LocalExpansion<3>::evaluateForcefield"]}
{"id": "C55", "title": "2D FMM force: end-to-end error bound", "statement": "evaluateForcefield of a 2D tree (force_smoothing_eps = 0) differs from the direct self-excluding sum by at most a geometric bound in 1/sqrt(2).", "quantifier": "all inputs (exact arithmetic)", "why_tests_cant": "Real-analytic estimate over all inputs.", "anchors": ["fmm/balanced_fmm_tree.hpp:evaluateForcefield", "fmm/adaptive_fmm_tree.hpp:evaluateForcefield"]}
{"id": "C56", "title": "Tree dump", "statement": "toFile() writes one geometry line per node in breadth-first order with consecutive ids, one data line per leaf whose points together are exactly the sources, and one line per node (W lists: per leaf) with the centres of the members of each list.", "quantifier": "all trees", "why_tests_cant": "All shapes.", "anchors": ["fmm/adaptive_fmm_tree.hpp:toFile", "fmm/balanced_fmm_tree.hpp:toFile", "fmm/adaptive_point_orthtree.hpp:toFile"]}
{"id": "C57", "title": "Power table", "statement": "PowTable(x, n)(k) == x^k for all k <= n.", "quantifier": "all bases and exponents", "why_tests_cant": "All orders.", "anchors": ["fmm/fmm_tables.hpp:PowTable"]}
{"id": "C58", "title": "3D FMM force: end-to-end error bound", "statement": "evaluateForcefield of a 3D tree (force_smoothing_eps = 0) succeeds at every point of the root box that is not vertically aligned with the centre of a box, and differs from the direct self-excluding sum by at most (sum|q|) ((p+1) rho^p/(2(2-sqrt3)) + rho^(p+1)/(2-sqrt3)^2)/b^2, rho = sqrt(3)/2, b the side of the smallest box.", "quantifier": "all inputs, orders 1..42, table histories, schedules (exact arithmetic)", "why_tests_cant": "Real-analytic estimate over all inputs; the exceptional points have measure zero.", "anchors": ["fmm/balanced_fmm_tree.hpp:evaluateForcefield", "fmm/adaptive_fmm_tree.hpp:evaluateForcefield"]}
{"id": "C59", "title": "3D expansions: error bounds of the force field", "statement": "The force field of a 3D multipole expansion, source-to-local and multipole-to-local expansion differs from the direct sum by at most (sum|q|) times the tail of sum (n+1) b^n/D^(n+2).", "quantifier": "all sources, centres, orders, points off the polar axis (exact arithmetic)", "why_tests_cant": "Real-analytic estimate.", "anchors": ["fmm/multipole_expansion.hpp:MultipoleExpansion<3>::evaluateForcefield", "fmm/local_expansion.hpp:LocalExpansion<3>::evaluateForcefield"]}
{"id": "C60", "title": "Force smoothing in trees", "statement": "With force_smoothing_eps = f > 0 the trees smooth only the near field: evaluateForcefield differs from the direct smoothed self-excluding sum by at most the bound without smoothing plus (sum|q|) f/b^3 (2D) or f/b^5 (3D), b the side of the smallest box.", "quantifier": "all inputs, all f >= 0, table histories, schedules (exact arithmetic)", "why_tests_cant": "Real-analytic estimate over all inputs.", "anchors": ["fmm/adaptive_fmm_tree.hpp:evaluateForcefield", "fmm/balanced_fmm_tree.hpp:evaluateForcefield", "fmm/fields.hpp:forcefield"]}
{"id": "C61", "title": "Reading input files", "statement": "readSourcesFromFile returns one source per line holding the line's d+1 numbers when every line starts with d+1 numbers; a variable for which a line has no number keeps its value from the previous line (an empty line repeats the previous source, making trees with one source per leaf refine forever), and is indeterminate if there is none. vectorFromFile returns the numbers before the first token that is no number, and the rest of the file is ignored without a message; vectorFromFile(dest) fills the array in order and overflows it if the file has too many numbers; the integrator's setup stores positions, velocities, strengths and masses in the documented places.", "quantifier": "all files as sequences of lines of tokens", "why_tests_cant": "All file contents, including malformed ones, whose behaviour is undefined.", "anchors": ["fmm/fmm_general.hpp:readSourcesFromFile", "fmm/fmm_general.hpp:vectorFromFile", "fmm/fmm_general.hpp:sourceLocationsToFile", "fmm/examples/integrator.cpp:main"]}
{"id": "C62", "title": "Adjacency in floating-point arithmetic", "statement": "BaseNode::adjacent, evaluated with rounded arithmetic on the computed centres and side lengths of two nodes up to depth k, has the result of the exact test, for every rounding with relative error at most u, as long as (8k+15) 4u (C+L) < L/2^(k+1), where L is the side of the root box and C bounds the coordinates of its centre (doubles, box around the origin: k = 40).", "quantifier": "all root boxes, nodes, dimensions, roundings with the stated relative error", "why_tests_cant": "Touching boxes differ by rounding errors that depend on every step of the descent; tests see a few boxes.", "anchors": ["fmm/abstract_orthtree.hpp:BaseNode::adjacent", "fmm/adaptive_fmm_tree.hpp:buildTree", "fmm/balanced_fmm_tree.hpp:BalancedFmmTree"]}
{"id": "C63", "title": "Look-up in floating-point arithmetic", "statement": "getContainingLeaf finds the leaf of every point of the root box, in particular of every source. (False with rounding: a source on a plane between boxes can be reported as outside the tree; true at a distance of (4k+5) 4u (C+L) from the planes.)", "quantifier": "all sources, points, roundings with relative error at most u", "why_tests_cant": "The failing inputs have measure zero and random tests do not hit them, but sources on grid planes are common in practice.", "anchors": ["fmm/adaptive_fmm_tree.hpp:getContainingLeaf", "fmm/abstract_orthtree.hpp:BaseNode::contains", "fmm/adaptive_orthtree.hpp:getOrthant"]}
{"id": "C64", "title": "Leaf box indices in floating-point arithmetic", "statement": "getLeafBoxIndices, evaluated with rounded arithmetic, assigns to the computed centre of every leaf of a balanced tree the grid coordinates of that leaf (no two leaves share an entry of the table of leaves), and to every point that is further than 36u (C+L) from the planes between leaves the leaf that contains it.", "quantifier": "all root boxes, heights, leaves, points, roundings with relative error at most u <= 1/100", "why_tests_cant": "A single wrong index corrupts the table silently; tests see a few heights and boxes.", "anchors": ["fmm/balanced_orthtree.hpp:getLeafBoxIndices", "fmm/balanced_fmm_tree.hpp:BalancedFmmTree"]}
{"id": "C65", "title": "Separation of sources in floating-point arithmetic", "statement": "The refinement of an adaptive tree over distinct sources ends. (False with rounding: two sources that differ in the last bit can stay together in all boxes, because the computed centres stop moving; true for sources that are further apart than L/2^k + 32 k u (C+L) for an admissible depth k.)", "quantifier": "all lists of sources, roundings with relative error at most u", "why_tests_cant": "The failing inputs are pairs of neighbouring doubles close to a plane between boxes; the program then does not stop and exhausts the memory.", "anchors": ["fmm/adaptive_fmm_tree.hpp:buildTree", "fmm/adaptive_orthtree.hpp:getOrthant"]}
{"id": "C66", "title": "Construction of the adaptive tree in floating-point arithmetic", "statement": "With rounded arithmetic the construction of an adaptive tree, if it ends, still yields a well-formed tree in which every source is stored in exactly one leaf and no leaf holds more than the capacity - for any rounding function whatsoever; with relative error at most u every stored source lies in the computed box of its leaf up to the accumulated rounding error; and the construction ends with height at most k if any two sources are further apart than L/2^k plus the rounding error of k steps.", "quantifier": "all lists of sources, capacities, root boxes, rounding functions", "why_tests_cant": "Quantifies over all inputs and over every way of rounding.", "anchors": ["fmm/adaptive_fmm_tree.hpp:buildTree", "fmm/adaptive_orthtree.hpp:refineOrthant", "fmm/adaptive_orthtree.hpp:getOrthant"]}
{"id": "C67", "title": "Interaction lists of the adaptive tree in floating-point arithmetic", "statement": "With rounded arithmetic the neighbourhood computation of the adaptive tree does not throw (the 1.99 sanity check passes), and the lists it computes are the lists U, V, W, X of the exact boxes with the same addresses, as long as the height h satisfies 100 (8h+15) 4u (C+L) < L/2^(h+1).", "quantifier": "all lists of sources, capacities, root boxes, roundings with relative error at most u, norms with relative error at most 1/1000", "why_tests_cant": "The sanity check and the adjacency test compare rounded numbers that are close to each other for touching boxes.", "anchors": ["fmm/adaptive_fmm_tree.hpp:computeNodeNeighbourhood", "fmm/adaptive_fmm_tree.hpp:buildTree", "fmm/abstract_orthtree.hpp:BaseNode::adjacent"]}
{"id": "C68", "title": "Exactly-once accounting in floating-point arithmetic", "statement": "In the adaptive tree built with rounded arithmetic every source contributes to every leaf exactly once, through exactly one of near neighbours, W list, X list of an ancestor or interaction list of an ancestor.", "quantifier": "all lists of sources, capacities, root boxes, leaves, roundings with relative error at most u", "why_tests_cant": "A single wrong adjacency test would drop or double a contribution; tests with tolerances do not see it.", "anchors": ["fmm/adaptive_fmm_tree.hpp:computeNodeNeighbourhood", "fmm/adaptive_fmm_tree.hpp:buildTree"]}
{"id": "C69", "title": "Construction of the balanced tree in floating-point arithmetic", "statement": "With rounded arithmetic the construction of a balanced tree of height h succeeds exactly if h = 0 or every source has computed leaf indices in range, in particular if the sources are further than 36u (C+L) from the faces of the root box; every source is then stored in exactly one leaf, the one with the same computed indices, within the rounding error of its box, and no two leaves share a bucket.", "quantifier": "all lists of sources, root boxes, heights with d h <= 32, roundings with relative error at most u, norms with relative error at most 1/1000", "why_tests_cant": "Quantifies over all inputs and over every way of rounding.", "anchors": ["fmm/balanced_fmm_tree.hpp:BalancedFmmTree", "fmm/balanced_fmm_tree.hpp:distributePointSources", "fmm/balanced_orthtree.hpp:getLeafBoxIndices"]}
{"id": "C70", "title": "Interaction lists and accounting of the balanced tree in floating-point arithmetic", "statement": "With rounded arithmetic the near neighbour and interaction lists of a balanced tree are those of the exact boxes with the same addresses, and every source contributes to every leaf exactly once.", "quantifier": "all lists of sources, root boxes, heights with d h <= 32, leaves, roundings with relative error at most u", "why_tests_cant": "A single wrong adjacency test would drop or double a contribution; tests with tolerances do not see it.", "anchors": ["fmm/balanced_fmm_tree.hpp:computeNodeNeighbourhood", "fmm/balanced_fmm_tree.hpp:BalancedFmmTree"]}
{"id": "C71", "title": "Sources lie in the root box in floating-point arithmetic", "statement": "If the data range contains the origin in its interior, all sources get leaf indices in range in every balanced tree over the computed root box. (False with rounding: a source with a coordinate -2^-70 next to one with coordinate 1 leads to the conversion of a negative number to unsigned, which is undefined; true if the sources reach on both sides of the origin, in every coordinate, by more than 200u/padding times the largest coordinate.)", "quantifier": "all lists of sources, heights < 32, roundings with relative error at most u", "why_tests_cant": "The failing inputs have coordinates of very different size; the result is undefined behaviour.", "anchors": ["fmm/abstract_fmm_tree.hpp:getDataRange", "fmm/balanced_fmm_tree.hpp:BalancedFmmTree", "fmm/balanced_orthtree.hpp:getLeafBoxIndices"]}
{"id": "C72", "title": "Destructors free every node and source vector exactly once", "statement": "Destroying a tree that was built without error frees every node (adaptive trees) and the source vector of every leaf (balanced tree) exactly once: nothing is freed twice, nothing leaks. For the balanced tree this needs d * height <= 32; beyond that the flat index wraps, two leaves share one vector, and the destructor frees it twice. Destroying a copy of a tree and the original is undefined, because the copy shares the nodes.", "quantifier": "all lists of sources, leaf capacities, heights; exact arithmetic and any rounding of the coordinates", "why_tests_cant": "Double frees and leaks depend on the shape of the tree; the wrap-around needs 2^32 leaves.", "anchors": ["fmm/adaptive_fmm_tree.hpp:~AdaptiveFmmTree", "fmm/adaptive_fmm_tree.hpp:FmmNode", "fmm/adaptive_point_orthtree.hpp:~AdaptivePointOrthtree", "fmm/balanced_fmm_tree.hpp:~BalancedFmmTree", "fmm/balanced_fmm_tree.hpp:distributePointSources"]}
{"id": "C73", "title": "Direct sums in floating-point arithmetic", "statement": "The computed potential of N sources in two dimensions differs from the exact sum by at most (1+u)^(N+6)-1 times the sum of |q| (|log r|+1); the computed force with smoothing eps >= 0 by at most (1+u)^(N+13)-1 times the sum of the norms of the forces. Sources at the evaluation point contribute exactly zero also after rounding.", "quantifier": "all lists of sources, evaluation points, smoothing parameters eps >= 0, both signs, all arithmetics whose operations have relative error at most u <= 1/16", "why_tests_cant": "Quantifies over all inputs and over every way of rounding.", "anchors": ["fmm/fields.hpp:potential", "fmm/fields.hpp:forcefield", "fmm/vector.hpp:norm", "fmm/vector.hpp:norm_sq"]}
{"id": "C74", "title": "Parallel all-pairs loops in floating-point arithmetic", "statement": "For distinct positions every execution of particlePotentialEnergies and particleForces in two dimensions gives every particle its energy and force up to (1+u)^(N+7)-1 and (1+u)^(N+14)-1 times the sum of the absolute values of the contributions, whatever the order of the atomic updates; two executions agree up to twice that.", "quantifier": "all lists of sources with distinct positions, all schedules and interleavings, all arithmetics whose operations have relative error at most u <= 1/16", "why_tests_cant": "Rounded addition is not associative, so the results of two executions differ; tests see some schedules only.", "anchors": ["fmm/fields.hpp:particlePotentialEnergies", "fmm/fields.hpp:particleForces"]}
{"id": "C75", "title": "Multipole expansions in floating-point arithmetic", "statement": "In two dimensions the potential and the field of a computed multipole expansion of order p <= 1029 differ from the direct sum by at most the truncation error plus (1+u)^n-1 times the total strength times an explicit constant, with n = 6p+N+5 roundings (potential) for N sources; the same with n = 9p+N+m+8 after the expansions of m groups have been translated to a common centre and added.", "quantifier": "all lists of sources within R of the centre, evaluation points at distance at least r > R, orders, histories of the binomial table, all arithmetics whose operations have relative error at most u <= 1/16", "why_tests_cant": "Tests cannot distinguish truncation from rounding errors, and see only one arithmetic.", "anchors": ["fmm/multipole_expansion.hpp:MultipoleExpansion", "fmm/multipole_expansion.hpp:shift", "fmm/multipole_expansion.hpp:evaluatePotential", "fmm/multipole_expansion.hpp:evaluateForcefield"]}
{"id": "C76", "title": "Local expansions in floating-point arithmetic", "statement": "In two dimensions the potential and the field of a computed local expansion of sources, and of a computed local expansion that results from a multipole expansion by conversion and translation, differ from the direct sum by at most the truncation error plus (1+u)^n-1 times the total strength times an explicit constant, with n = 6p+N+7 and n = 17p+N+8 roundings (potential).", "quantifier": "all well-separated lists of sources and evaluation points, orders 1 <= p <= 1029, histories of the binomial table, all arithmetics whose operations have relative error at most u <= 1/16", "why_tests_cant": "Tests cannot distinguish truncation from rounding errors, and see only one arithmetic; the Horner-like shift and the conversion could amplify rounding errors exponentially.", "anchors": ["fmm/local_expansion.hpp:LocalExpansion", "fmm/local_expansion.hpp:multipoleToLocal", "fmm/local_expansion.hpp:shift", "fmm/local_expansion.hpp:evaluatePotential", "fmm/local_expansion.hpp:evaluateForcefield"]}
{"id": "C77", "title": "Adaptive tree in the plane in floating-point arithmetic", "statement": "With rounding in every operation (expansion order, root box, tree, lists, expansions, passes, look-up, evaluation) the constructor of the two-dimensional adaptive tree returns the same tree for every schedule of the passes, as long as the boxes of the leaves are large against the rounding errors of the coordinates. At every point whose leaf is found the computed potential differs from the direct sum by at most A (29/40)^(p+1) / ((p+1) 11/40) + ((1+u)^n - 1) (A (|log len| + h + 13) + sum |q| (|log r| + 1)) where A is the sum of |q| and n = N + 14p + 38 + 3m + h (6p + 9 + m) for lists of at most m members; similarly for the force. At points whose leaf is not found the result is the direct sum over the current sources. For separated sources around the origin everything, including termination, follows from properties of the sources.", "quantifier": "all lists of sources, leaf capacities, accuracies with order 1..1029, histories of the binomial table, schedules, evaluation points, smoothing parameters, all arithmetics whose operations have relative error at most u", "why_tests_cant": "Tests see one arithmetic and one schedule; rounding decides which boxes are neighbours, and could make lists inconsistent or errors grow exponentially with the height.", "anchors": ["fmm/adaptive_fmm_tree.hpp:AdaptiveFmmTree", "fmm/adaptive_fmm_tree.hpp:evaluatePotential", "fmm/adaptive_fmm_tree.hpp:evaluateForcefield", "fmm/adaptive_fmm_tree.hpp:getContainingLeaf", "fmm/abstract_fmm_tree.hpp:AbstractFmmTree"]}
{"id": "C78", "title": "Expansion order in floating-point arithmetic", "statement": "If the exact order is at least 1 and s = 4u |log2(A/eps)| + 4((1+u)^(N+1) - 1) < 1, the order computed with rounding exists, differs from the exact one by at most one, and A <= eps 2^(order + s).", "quantifier": "all lists of sources, accuracies eps, roundings and logarithms with relative error at most u <= 1/16, all dimensions", "why_tests_cant": "The ceiling is discontinuous: a rounding error in the last place changes the order when A/eps is close to a power of two.", "anchors": ["fmm/abstract_fmm_tree.hpp:AbstractFmmTree"]}
{"id": "C79", "title": "Balanced tree in the plane in floating-point arithmetic", "statement": "With rounding in every operation (order, height, root box, centres, leaf indices, expansions, passes, evaluation) the constructor of the two-dimensional balanced tree returns the same tree for every schedule of the passes, as long as the leaves are large against the rounding errors of the coordinates and the computed indices of all sources are in range. At every point whose computed indices are in range, the sources included, potential and force have the error bounds of C77 with lists of at most nine leaves; at every other point the evaluation ends like the index computation, with an exception or an undefined conversion. For sources around the origin in general position everything follows from the positions and the computed height.", "quantifier": "all lists of sources, sources per cell with height at most 16, accuracies with order 1..1029, histories of the binomial table, schedules, evaluation points, smoothing parameters, all arithmetics whose operations have relative error at most u", "why_tests_cant": "Tests see one arithmetic; rounding moves sources near the faces of a leaf into the neighbouring leaf, so expansions are used slightly outside the boxes they were made for.", "anchors": ["fmm/balanced_fmm_tree.hpp:BalancedFmmTree", "fmm/balanced_fmm_tree.hpp:evaluatePotential", "fmm/balanced_fmm_tree.hpp:evaluateForcefield", "fmm/balanced_fmm_tree.hpp:distributePointSources", "fmm/balanced_orthtree.hpp:getLeafBoxIndices"]}
{"id": "C80", "title": "Height of the balanced tree in floating-point arithmetic", "statement": "If s <= N and t = 4u |log(N/s) / log(2^d)| + 20u < 1, the height h computed with rounding is defined, N <= s 2^(d (h + t)), and for h > 0 also s 2^(d (h - 1)) < N 2^(d t).", "quantifier": "all numbers of sources N and sources per cell s, dimensions d >= 1, roundings and logarithms with relative error at most u <= 1/20", "why_tests_cant": "The ceiling is discontinuous: when N/s is a power of 2^d the last bit of the logarithms decides about one level.", "anchors": ["fmm/balanced_fmm_tree.hpp:BalancedFmmTree"]}
{"id": "C81", "title": "Direct sums in space in floating-point arithmetic", "statement": "In three dimensions the direct potential computed with rounding differs from the exact one by at most ((1+u)^(N+5)-1) sum |q|/r, and every component of the (smoothed) force by at most ((1+u)^(N+21)-1) times the sum of the absolute values of that component. Coincident sources contribute exactly zero with the coincidence check, and make the result non-finite without it.", "quantifier": "all lists of sources, evaluation points, smoothing parameters >= 0, all arithmetics whose operations have relative error at most u", "why_tests_cant": "Tests see one arithmetic and finitely many configurations; cancellation makes relative errors of the result unbounded, so no fixed tolerance is right.", "anchors": ["fmm/fields.hpp:potential", "fmm/fields.hpp:forcefield", "fmm/vector.hpp:norm"]}
{"id": "C82", "title": "Parallel all-pairs loops in space in floating-point arithmetic", "statement": "For particles at distinct positions the parallel loops for energies and forces have a result, and for every assignment of iterations to threads and every interleaving of the atomic updates the error of every entry is at most ((1+u)^(N+6)-1) (energies) or ((1+u)^(N+22)-1) (forces, per component) times the sum of the absolute values of the summands; two executions agree up to twice that bound.", "quantifier": "all lists of particles at distinct positions, all schedules, smoothing parameters >= 0, arithmetics with relative error at most u", "why_tests_cant": "Floating-point addition is not associative: different schedules give different bits, and a test sees a few schedules.", "anchors": ["fmm/fields.hpp:particlePotentialEnergies", "fmm/fields.hpp:particleForces"]}
{"id": "C83", "title": "Multipole expansions in space in floating-point arithmetic", "statement": "In three dimensions the potential of a computed multipole expansion of N sources differs from the direct sum by at most A/(r-R) ((R/r)^(p+1) + (1+u)^(N+2k)-1); the sum of translated expansions by the same with R+s for R and N + (number of groups) + 3k roundings. k is the number of roundings charged for one operation on expansions of order p; it is determined by the error of the computed spherical harmonics, which is of order sqrt(u) because the code passes cos(theta) to GSL. For double k = 2^37 suffices for all orders up to 42.", "quantifier": "all lists of sources, centres, evaluation points, orders p <= 42, histories of the tables, arithmetics with relative error at most u <= 1/16 and Legendre functions with absolute error at most g", "why_tests_cant": "Tests cannot separate truncation from rounding; the loss of half of the digits happens only for directions within sqrt(u) of the vertical.", "anchors": ["fmm/multipole_expansion.hpp:MultipoleExpansion", "fmm/multipole_expansion.hpp:shift", "fmm/multipole_expansion.hpp:evaluatePotential", "fmm/fmm_tables.hpp:YlmTable"]}
{"id": "C84", "title": "Local expansions in space in floating-point arithmetic", "statement": "In three dimensions the potential of a computed local expansion of N sources differs from the direct sum by at most A/(D-r) ((r/D)^(p+1) + (1+u)^(N+2k)-1), and after the whole chain multipole expansion, conversion, translation, evaluation by at most A/(D-(R+r)) (((R+r)/D)^(p+1) + sqrt(2p+1) ((1+u)^(N+4k)-1)).", "quantifier": "all well-separated lists of sources and evaluation points, orders p <= 42, histories of the tables, arithmetics with relative error at most u <= 1/16 and Legendre functions with absolute error at most g", "why_tests_cant": "Tests cannot separate truncation from rounding; the quadruple sums of the conversion could amplify rounding errors exponentially in the order.", "anchors": ["fmm/local_expansion.hpp:LocalExpansion", "fmm/local_expansion.hpp:multipoleToLocal", "fmm/local_expansion.hpp:shift", "fmm/local_expansion.hpp:evaluatePotential", "fmm/fmm_tables.hpp:YlmTable"]}
{"id": "C85", "title": "Adaptive tree in space in floating-point arithmetic: potentials", "statement": "With rounding in every operation the constructor of the three-dimensional adaptive tree returns the same tree for every schedule of the passes, as long as the boxes of the leaves are large against the rounding errors of the coordinates. At every point whose leaf is found the computed potential differs from the direct sum by at most A (5/a) (8/9)^(p+1) + ((1+u)^n - 1) (A (5/a) sqrt(2p+1) + sum |q|/r) where a is the side of the smallest box and n = N + 191 + 3k + 3m + h (2k + 10 + m) for lists of at most m members and k as in C83. At points whose leaf is not found the result is the direct sum over the current sources. For separated sources around the origin everything, including termination, follows from properties of the sources.", "quantifier": "all lists of sources, leaf capacities, accuracies with order 1..42, histories of the tables, schedules, evaluation points, arithmetics with relative error at most u and Legendre functions with absolute error at most g", "why_tests_cant": "Tests see one arithmetic and one schedule; rounding decides which boxes are neighbours, and could make lists inconsistent or errors grow exponentially with the height.", "anchors": ["fmm/adaptive_fmm_tree.hpp:AdaptiveFmmTree", "fmm/adaptive_fmm_tree.hpp:evaluatePotential", "fmm/adaptive_fmm_tree.hpp:getContainingLeaf", "fmm/abstract_fmm_tree.hpp:AbstractFmmTree"]}
{"id": "C86", "title": "Balanced tree in space in floating-point arithmetic: potentials", "statement": "With rounding in every operation the constructor of the three-dimensional balanced tree returns the same tree for every schedule of the passes, as long as the leaves are large against the rounding errors of the coordinates and the computed indices of all sources are in range. At every point whose computed indices are in range, the sources included, the potential has the error bound of C85 with lists of at most 27 leaves; at every other point the evaluation ends like the index computation. For sources around the origin everything follows from the positions and the computed height.", "quantifier": "all lists of sources, sources per cell with height at most 10, accuracies with order 1..42, histories of the tables, schedules, evaluation points, arithmetics with relative error at most u and Legendre functions with absolute error at most g", "why_tests_cant": "Tests see one arithmetic; rounding moves sources near the faces of a leaf into the neighbouring leaf, so expansions are used slightly outside the boxes they were made for.", "anchors": ["fmm/balanced_fmm_tree.hpp:BalancedFmmTree", "fmm/balanced_fmm_tree.hpp:evaluatePotential", "fmm/balanced_fmm_tree.hpp:distributePointSources", "fmm/balanced_orthtree.hpp:getLeafBoxIndices"]}
{"id": "C87", "title": "With double arithmetic the force in space cannot be evaluated in a cone around the vertical", "statement": "With IEEE double arithmetic evaluateForcefield of every three-dimensional expansion ends in a GSL domain error (abort) at every point x with hypot(x0-c0, x1-c1) <= 2^-29 |x2-c2|, c the centre of the expansion: std::cos(theta) rounds to +-1. Around every point above or below the centre there is a ball of such points. The same holds for both trees at points in the cone of the leaf in which they are found.", "quantifier": "all expansions (orders, coefficients, centres), all points of the cone, all trees", "why_tests_cant": "In exact arithmetic the failure happens on a set of measure zero (C54); random tests miss a cone of slope 2^-29, long simulations do not.", "anchors": ["fmm/fmm_tables.hpp:YlmDerivTable", "fmm/multipole_expansion.hpp:evaluateForcefield", "fmm/local_expansion.hpp:evaluateForcefield", "fmm/vector.hpp:toSpherical"]}
{"id": "C88", "title": "Forces of the expansions in space in floating-point arithmetic", "statement": "In three dimensions the force of a computed multipole expansion, of a computed local expansion, and of the whole chain multipole expansion, conversion, translation, differs in every component from the direct sum by the truncation error plus an explicit rounding error, at every point at which the angle between the vertical and the vector from the last centre has sine at least s. The rounding error has a part 80 u/s (displacement of the point that the computed angles describe) and a part (1+u)^n - 1 with n = N + (operations) k + (p+1)^2 + 11p + 3k' + 28, where k' >= 32/s^2. For double the bound applies for s >= 2^-21; C87 shows that there is no bound below 2^-29.", "quantifier": "all lists of sources, centres, evaluation points off the cone, orders p <= 42, histories of the tables, arithmetics with relative error at most u and Legendre functions and derivatives with absolute error at most g", "why_tests_cant": "Tests cannot separate truncation from rounding; the loss of accuracy towards the vertical is invisible on random points.", "anchors": ["fmm/multipole_expansion.hpp:evaluateForcefield", "fmm/local_expansion.hpp:evaluateForcefield", "fmm/fmm_tables.hpp:YlmDerivTable", "fmm/vector.hpp:toCartesianBasis", "fmm/vector.hpp:toSpherical"]}
{"id": "C89", "title": "Adaptive tree in space in floating-point arithmetic: forces", "statement": "With rounding in every operation, at every point whose leaf is found and which is off the cones of the computed boxes of this leaf and of its list W, every component of the force of the three-dimensional adaptive tree differs from the (smoothed) direct sum by at most an explicit bound: truncation of order p (8/9)^p / a^2, displacement u/s / a^2, smoothing eps/a^5, and (1+u)^n - 1 times a majorant. It does not depend on the current content of the caller's vector. At points whose leaf is not found the force is the direct sum. For separated sources around the origin everything, including termination, follows from properties of the sources.", "quantifier": "all lists of sources, leaf capacities, accuracies with order 1..42, histories of the tables, schedules, evaluation points off the cones, smoothing parameters >= 0, both signs, arithmetics with relative error at most u and Legendre functions with absolute error at most g", "why_tests_cant": "Tests see one arithmetic and one schedule, and random points miss the cones.", "anchors": ["fmm/adaptive_fmm_tree.hpp:evaluateForcefield", "fmm/adaptive_fmm_tree.hpp:AdaptiveFmmTree", "fmm/adaptive_fmm_tree.hpp:getContainingLeaf", "fmm/fields.hpp:forcefield"]}
{"id": "C90", "title": "Balanced tree in space in floating-point arithmetic: forces", "statement": "With rounding in every operation, at every point whose computed indices are in range and which is off the cone of the computed box of its leaf, every component of the force of the three-dimensional balanced tree has the error bound of C89 with at most 27 near neighbours; at every other point with indices out of range the evaluation ends like the index computation. For sources around the origin everything follows from the positions and the computed height.", "quantifier": "all lists of sources, sources per cell with height at most 10, accuracies with order 1..42, histories of the tables, schedules, evaluation points off the cone, smoothing parameters >= 0, both signs, arithmetics with relative error at most u and Legendre functions with absolute error at most g", "why_tests_cant": "Tests see one arithmetic; rounding moves points near the faces of a leaf into the neighbouring leaf, where the expansion is evaluated slightly outside of its box.", "anchors": ["fmm/balanced_fmm_tree.hpp:evaluateForcefield", "fmm/balanced_fmm_tree.hpp:BalancedFmmTree", "fmm/balanced_orthtree.hpp:getLeafBoxIndices", "fmm/fields.hpp:forcefield"]}
{"id": "C91", "title": "Total force and torque of the particles", "statement": "The exact direct forces on all particles have total force zero and total torque zero in every coordinate plane. The forces computed by the trees (adaptive and balanced, two and three dimensions, exact arithmetic) have total force and total torque at most the sum over the particles of charge (times distance for the torque) and the error bound of the field, although a tree does not compute the forces in opposite pairs.", "quantifier": "all lists of sources that the constructors accept, orders of execution of the loop, smoothing parameters >= 0, both signs; in space no source exactly above or below the centre of a box", "why_tests_cant": "Conservation laws are sums over all pairs; a test on a sample of particles or one with a tolerance per particle does not see a systematic drift.", "anchors": ["fmm/abstract_fmm_tree.hpp:evaluateParticleForces", "fmm/adaptive_fmm_tree.hpp:evaluateForcefield", "fmm/balanced_fmm_tree.hpp:evaluateForcefield", "fmm/fields.hpp:forcefield"]}
{"id": "C92", "title": "Energies and forces of all particles through the trees, in floating-point arithmetic", "statement": "With rounding in every operation: evaluateParticlePotentialEnergies and evaluateParticleForces on a balanced tree return arrays with one entry per source, each within |q| ((1+u) B + u |D|) of the exact q D, where D is the direct sum over the other sources and B the error bound of the tree. On an adaptive tree the same holds if the look-up of every source finds a leaf, which is the case for sources further than rounding errors from the planes between boxes; if it does not for some source, the energies, and the forces without smoothing, are not finite, while the forces with positive smoothing keep the bound. The total force is at most the sum of the bounds.", "quantifier": "all lists of sources placed as in C77, C79, C85, C86, C89, C90, execution orders of the loops, both signs, smoothing parameters >= 0, arithmetics with relative error at most u; forces in space: no source in the cone above or below the centre of a box", "why_tests_cant": "The failure for a source on a plane between boxes depends on the last bits of the box centres and of that source.", "anchors": ["fmm/abstract_fmm_tree.hpp:evaluateParticlePotentialEnergies", "fmm/abstract_fmm_tree.hpp:evaluateParticleForces", "fmm/adaptive_fmm_tree.hpp:getContainingLeaf", "fmm/fields.hpp:potential"]}
{"id": "C93", "title": "Direct sums for every order of the additions", "statement": "The makefile compiles with -ffast-math, so the compiler may add the terms of the direct sums in any order and with any parentheses, use several accumulators, and multiply with rounded reciprocals. Every such result is within ((1+u)^(m+n) - 1) times the sum of the absolute values of the terms of the exact direct sum, where n is the largest number of additions that a term goes through (always less than the number of terms and accumulators) and m is 6 for potentials, 14 and 22 for the components of the force in two and three dimensions. The order of the source text is one of these.", "quantifier": "all lists of sources, evaluation points, orders and associations of the additions, numbers of accumulators, choices between division and reciprocal term by term, both signs, smoothing parameters >= 0, arithmetics with relative error at most u", "why_tests_cant": "A test sees the order chosen by one compiler version for one processor.", "anchors": ["fmm/fields.hpp:potential", "fmm/fields.hpp:forcefield", "fmm/makefile:OFLAGS"]}
{"id": "C94", "title": "What the programs in test/ generate, measure and accept", "statement": "generateUniformDistribution returns exactly N sources in the cube, charges at most 1 with the documented signs; generateNonUniformDistribution returns at least N and fewer than N plus the number of clusters, in cubes that are at least eleven edge lengths apart; fmm_tree.cpp puts its sources into a cube of four times the extent. The error measures are the largest and the mean absolute and relative deviations; they are undefined for empty vectors and too short references. The loop over the numbers of threads runs over 1 and the multiples of the increment and ends iff the increment is at least 2. expansions.cpp accepts iff eight of its ten relative errors are below eps, provided that the reference potentials are positive; for negative references the computed potentials have no influence on the verdict, the local expansion from sources is never compared, and NaNs are accepted under -ffast-math. The output of adjacent.cpp is determined.", "quantifier": "all random sequences with values in [0,1], extents >= 0, numbers of sources, lists of computed and reference values of any length, maxima and increments of the number of threads, computed values and references of expansions.cpp", "why_tests_cant": "These are the tests; nothing tests them.", "anchors": ["fmm/test/accuracy_seq_speedup.cpp:generateUniformDistribution", "fmm/test/accuracy_seq_speedup.cpp:generateNonUniformDistribution", "fmm/test/accuracy_seq_speedup.cpp:abs_rel_pot_error", "fmm/test/fmm_efficiency.cpp:par_fmm_efficiencies", "fmm/test/expansions.cpp:main", "fmm/test/adjacent.cpp:main", "fmm/test/fmm_tree.cpp:main"]}
{"id": "C95", "title": "The range of exponents of double in the direct sums", "statement": "In binary64 with gradual underflow, infinities and NaN: if all charges and coordinate differences are zero or between 2^-100 and 2^100, there are at most 2^50 sources and 0 <= eps <= 2^200, then no operation of the guarded direct sums (potentials and forces, two and three dimensions) overflows or underflows, and the results are those of the arithmetic with unbounded exponents, so the error bounds hold for double itself. Outside: in two dimensions the force between distinct points closer than 2^-538 in both coordinates is computed as zero, because the coincidence check sees the underflowed square, and from 2^512 it is zero or NaN; in three dimensions the force without smoothing is infinite or NaN for distinct points closer than 2^-361, which the coincidence check does not notice, and exactly zero from 2^342. If a difference of coordinates is no double (2^1024 or more), the force in that direction is NaN; the potential of the source is infinite or, without charge, NaN in two dimensions, so that the whole sum is, and zero in three. Without the coincidence check, the potential at the place of a source is infinite, or NaN without charge, and the unsmoothed force NaN.", "quantifier": "all lists of sources, evaluation points, both signs, smoothing parameters in the range", "why_tests_cant": "Tests use coordinates of order one; cancellation in a sum can produce arbitrarily small intermediate results, which only an argument about all sums excludes from underflowing.", "anchors": ["fmm/fields.hpp:potential", "fmm/fields.hpp:forcefield", "fmm/vector.hpp:norm", "fmm/vector.hpp:norm_sq"]}
{"id": "C96", "title": "Overflow of powers of distances in the three-dimensional expansions", "statement": "In binary64 with infinities and NaN, whatever the spherical harmonics, angles and static tables return: if a source is at least 2^k away (in some coordinate) from the centre of its box and k n >= 1024 for some n <= order, then potential and force of the multipole expansion of the box, of every expansion translated from it and of every local expansion computed from those are infinite or NaN at every point. The same holds for local expansions computed from a multipole expansion whose centre is closer than 2^(-k-1) in every coordinate if k (2 order + 1) >= 1024, for local expansions with a source closer than 2^(-k-1) if k (order + 1) >= 1024, and for translations by 2^k or more, even of expansions all of whose coefficients are zero.", "quantifier": "all orders, sources, strengths (zero included), centres, evaluation points, library functions and tables, all sequences of translations and additions", "why_tests_cant": "Tests use the unit cube; overflow depends on the unit of length and the order together, and one infinite coefficient turns all results below it into NaN.", "anchors": ["fmm/multipole_expansion.hpp:MultipoleExpansion", "fmm/multipole_expansion.hpp:shift", "fmm/local_expansion.hpp:LocalExpansion", "fmm/local_expansion.hpp:multipoleToLocal", "fmm/local_expansion.hpp:shift", "fmm/fmm_tables.hpp:PowTable"]}
{"id": "C97", "title": "Trees in space whose boxes are too large or too small for the order", "statement": "With the expansions, kernels and sums in binary64 with infinities and NaN, and a geometry that does not overflow: both three-dimensional trees are built without an error whatever overflows, the same for every order of the threads. In the adaptive tree, potential and force are infinite or NaN at every point of a leaf of depth at least 2 if 99/800 of the side length of the root box is at least 2^k with k (order - 1) >= 1024, and at every point of a leaf that lies in a box with a non-empty interaction list and side length at most 2^(-k-3) with k (2 order + 1) >= 1024. In the balanced tree of height at least 2, this holds at every point of the tree if the root box is that large or the leaves are that small. Nine unit charges in a cube of 6 nm (coordinates in metres) with accuracy 2^-20 are an instance.", "quantifier": "all lists of sources, orders, schedules, evaluation points, library functions and tables; both trees", "why_tests_cant": "The code has no check for finite results and tests choose coordinates of order one; no error is reported in any of these runs.", "anchors": ["fmm/adaptive_fmm_tree.hpp:AdaptiveFmmTree", "fmm/balanced_fmm_tree.hpp:BalancedFmmTree", "fmm/abstract_fmm_tree.hpp:evaluatePotential", "fmm/abstract_fmm_tree.hpp:evaluateForcefield", "fmm/local_expansion.hpp:LocalExpansion"]}
{"id": "C98", "title": "Overflow in the three-dimensional solver is never silent", "statement": "Compare a run of the three-dimensional solver in binary64, with subnormal numbers, infinities and NaN in strengths, expansions and sums, with a run in the same arithmetic without a largest number. For sources with coordinates of at most 2^297 and orders from 1 to 42: if the second run builds a tree, the first one builds it too, with the same order, nodes and lists, and every coefficient of every expansion is either the same or not finite. At every point with coordinates of at most 2^300 at which the second run returns a potential, the first returns the same number, an infinity or NaN; the same for every component of the force (smoothing at most 2^906). An overflow of an intermediate result is hence visible in the result or has no effect on it. Without the bound on the point this is false: one source of strength 2^900, a point at distance 2^350, the force is 2^200 and the computed force is 0.", "quantifier": "all lists of sources with bounded coordinates and arbitrary strengths, all orders up to 42, schedules, points with bounded coordinates, signs, smoothing parameters; both trees; all library functions that agree on finite arguments", "why_tests_cant": "An intermediate overflow that is divided away (1/inf = 0) gives a plausible finite number; tests cannot enumerate the places where this might happen.", "anchors": ["fmm/adaptive_fmm_tree.hpp:AdaptiveFmmTree", "fmm/balanced_fmm_tree.hpp:BalancedFmmTree", "fmm/multipole_expansion.hpp:MultipoleExpansion", "fmm/local_expansion.hpp:LocalExpansion", "fmm/fields.hpp:forcefield", "fmm/fields.hpp:potential"]}
{"id": "C99", "title": "The program examples/minimal.cpp", "statement": "For every sequence of values of rand(): if the 10000 drawn positions surround the origin, no position is drawn more than 50 times and the absolute strengths add up to A > 20, the program ends and prints two numbers, which do not depend on the schedule of the threads. The second is the sum of the strengths, with alternating signs, times the logarithms of the distances to the first source, without the sources at that position; the first differs from it by at most sqrt(10 A) <= 317. If 10 < A <= 20 the same holds with the bound 0.86 A, and if 5 < A <= 10 the program is terminated by an assertion. If A <= 5 the number of terms is computed by an undefined conversion, and if A > 5 and a position is drawn more than 50 times the program never ends.", "quantifier": "all sequences of random numbers in [0,1], all schedules", "why_tests_cant": "The program prints two numbers without comparing them; what rand() returns is up to the platform.", "anchors": ["fmm/examples/minimal.cpp:main", "fmm/adaptive_fmm_tree.hpp:AdaptiveFmmTree", "fmm/fields.hpp:potential"]}
{"id": "C100", "title": "Overflow in the two-dimensional solver is never silent", "statement": "Compare a run of the two-dimensional solver in binary64, with subnormal numbers, infinities and NaN in strengths, expansions and sums, with a run in the same arithmetic without a largest number. For sources with coordinates of at most 2^251 and every order: if the second run builds a tree, the first one builds it too, with the same order, nodes and lists, and every coefficient of every expansion is either the same or not finite. At every point with coordinates of at most 2^254 at which the second run returns a potential, the first returns the same number, an infinity or NaN; the same for every component of the force (smoothing at most 2^1000). Without the bound on the point this is false: the multipole expansion with the coefficients 0 and 2^700 has the force 2^100 at distance 2^300, and the computed force is 0.", "quantifier": "all lists of sources with bounded coordinates and arbitrary strengths, all orders, schedules, points with bounded coordinates, signs, smoothing parameters; both trees; all complex logarithms that agree on finite arguments", "why_tests_cant": "An intermediate overflow that is divided away (1/inf = 0) gives a plausible finite number; tests cannot enumerate the places where this might happen.", "anchors": ["fmm/adaptive_fmm_tree.hpp:AdaptiveFmmTree", "fmm/balanced_fmm_tree.hpp:BalancedFmmTree", "fmm/multipole_expansion.hpp:MultipoleExpansion", "fmm/local_expansion.hpp:LocalExpansion", "fmm/fields.hpp:forcefield", "fmm/fields.hpp:potential"]}
{"id": "C101", "title": "The integrator", "statement": "For input files with N sources, 2 N velocity components and N non-zero masses, and for every choice of step sizes by the controller of the ODE solver. (a) N <= 90 and total strength above 1/2000: for every schedule and every content of uninitialised memory, the trajectory file is the one that the Runge-Kutta method with step doubling gives for the equations of motion with the direct smoothed field; line r carries the time (r+1)/10 and 4 N numbers, the total momentum is that of the input, and the centre of mass moves uniformly. (b) Any N: as long as every state at which the field is computed has its particles inside the root box, at most 90 of them at one place and leaves with sides of at least l, the total momentum at time t differs from the initial one by at most B t and the mass moment from uniform motion by at most B t^2/2, where B = A^2 ((1/sqrt 2)^p/((2-sqrt 2) l) + 1e-6/l^3). (c) A missing input file throws, empty files abort, a total strength of at most 1/2000 (for instance uncharged particles) is undefined behaviour, and if logs/trajectory.dat cannot be opened the program computes everything and writes nothing.", "quantifier": "all input files, all schedules and numbers of evaluations, all sequences of accepted and rejected steps, all contents of uninitialised memory", "why_tests_cant": "A run takes many evaluations whose step sizes depend on the data, and conservation laws hold over all of them; a drift of the momentum is small in any test.", "anchors": ["fmm/examples/integrator.cpp:main", "fmm/examples/integrator.cpp:derivative_func", "fmm/fmm_general.hpp:readSourcesFromFile", "fmm/adaptive_fmm_tree.hpp:AdaptiveFmmTree"]}
{"id": "C102", "title": "Order zero", "statement": "If the sum A of the absolute strengths satisfies eps/2 < A <= eps, the constructors choose the order 0. In two dimensions every tree with more than one leaf then fails an assertion, for every schedule. In three dimensions the outcome of the same call depends on the past: if no expansion of positive order has been constructed in the process, the first multipole-to-multipole shift reads outside the empty coefficient table (undefined behaviour); if one has, the tree is built, and the potential is within the error bound of order 0 of the direct sum.", "quantifier": "all lists of sources for which a tree with more than one leaf exists, all eps and strengths in the range, all schedules, all reachable states of the static tables; both trees, two and three dimensions", "why_tests_cant": "Tests choose eps far below the strengths, and whether the three-dimensional fault shows up depends on which tests ran before in the same process.", "anchors": ["fmm/abstract_fmm_tree.hpp:AbstractFmmTree", "fmm/adaptive_fmm_tree.hpp:AdaptiveFmmTree", "fmm/balanced_fmm_tree.hpp:BalancedFmmTree", "fmm/multipole_expansion.hpp:MultipoleExpansion", "fmm/local_expansion.hpp:LocalExpansion", "fmm/series_expansion.hpp:AlmTable"]}
{"id": "C103", "title": "Text output", "statement": "Vectors are written as their coordinates separated by a comma and a space, sources with the strength appended; if written numbers contain no separators, the text determines how every coordinate was written. An expansion is written as a table with one line for every coefficient, in space with the coefficient that operator() returns for the degree and order of the line; the table determines the order and how every coefficient was written. Writing an expansion that was default-constructed reads outside of its coefficients. The stamps of time_proc_stamp are different for different iterations or processes and equally long up to iteration 9999; chrono_duration is right up to a nanosecond for every clock; printVec and vecToFile agree with printIterable and iterableToFile for lengths up to the size and are undefined beyond; the words of a file written with a separator of white space are the elements.", "quantifier": "all vectors, sources, expansions of every order, number formats without separators, lengths, separators, iteration and process numbers, clocks", "why_tests_cant": "Output is inspected by eye, if at all.", "anchors": ["fmm/vector.hpp:Vector_", "fmm/vector.hpp:PointSource_", "fmm/series_expansion.hpp:operator<<", "fmm/debugging.hpp:time_proc_stamp", "fmm/debugging.hpp:chrono_duration", "fmm/debugging.hpp:printIterable", "fmm/debugging.hpp:printVec", "fmm/debugging.hpp:iterableToFile", "fmm/debugging.hpp:vecToFile"]}
{"id": "C104", "title": "The program test/fmm_tree.cpp", "statement": "For every sequence of values of rand(): the program draws N = 150000 sources, each in one of eight cubes. If the sources surround the origin, are distinct, none is vertically aligned with the centre of a box, no strength, direct potential or direct field at a source is zero, and the absolute strengths add up to A > 1/1000, then the order p is between 1 and 28 and a complete report is printed, the same for all schedules of the tree, of the evaluation loops and of the direct sums. It contains height, centre and side of the root box; the direct potential and field at the second source; potential and field by the tree, which differ from these by at most A rho^(p+1)/((2-sqrt 3) b) and A ((p+1) rho^p/(2(2-sqrt 3)) + rho^(p+1)/(2-sqrt 3)^2)/b^2; the maxima and means of the relative deviations over all sources, where the mean is at most the maximum and the maximum is at most the bound divided by the smallest direct value. If one strength is zero the deviations are not numbers; if the second source is above or below the centre of its leaf the program is aborted after two numbers; if A <= 1/2000 its behaviour is undefined.", "quantifier": "all sequences of random numbers in [0,1], all outcomes of the random choices, all numbers of sources from 2 to 150000, all schedules of all parallel loops; the second half of the program for all lists of sources, leaf capacities and parameters", "why_tests_cant": "The program is itself a test: it prints deviations without judging them, for one seed.", "anchors": ["fmm/test/fmm_tree.cpp:main", "fmm/adaptive_fmm_tree.hpp:AdaptiveFmmTree", "fmm/abstract_fmm_tree.hpp:evaluateParticleForces", "fmm/fields.hpp:particlePotentialEnergies", "fmm/fields.hpp:particleForces"]}
{"id": "C105", "title": "Underflow in the two-dimensional solver", "statement": "The adaptive tree in the plane, with doubles including gradual underflow: let theta <= 1/5 be such that every box has a side of at least 25/18 theta and the root box one of at most 1/(2 theta), let every strength be zero or at least tau in absolute value, and let (p+1) 2^-1019 <= tau theta^(2p+6) for the order p. Then the constructor returns a tree for every schedule, and at points whose distance to every source is zero or at least theta the computed potential and force are not finite, or have the error bounds of C77 (which ignore underflow) with accuracy 2^-49. For well placed sources this follows from properties of the sources only, at all points at distances between theta and 2/theta from all sources. The same holds for every arithmetic whose errors are relative above a floor.", "quantifier": "all sources, leaf capacities, orders from 1 to 1029, points, schedules, scales theta and tau within the stated range, all arithmetics with the stated laws", "why_tests_cant": "Underflow appears only for tiny or huge units of length in combination with high orders; results lose digits without any sign.", "anchors": ["fmm/multipole_expansion.hpp:MultipoleExpansion", "fmm/local_expansion.hpp:LocalExpansion", "fmm/adaptive_fmm_tree.hpp:AdaptiveFmmTree", "fmm/adaptive_fmm_tree.hpp:evaluatePotential", "fmm/adaptive_fmm_tree.hpp:evaluateForcefield", "fmm/fields.hpp:fields::potential", "fmm/fields.hpp:fields::forcefield"]}
{"id": "C106", "title": "No overflow in the two-dimensional solver", "statement": "In the situation of C105, let theta >= 2^(2-e), let the absolute strengths add up to at most 2^q, let q + p e + 2 (p+3)(e+2) + 3 p + 23 <= 930 for the order p, let there be at most 2^48 roundings on the way to a result, and let the complex logarithm of finite non-zero numbers be finite. Then the potential and the force computed with doubles are finite numbers (no infinity and no NaN appears in a result) and have the error bounds of C77 with accuracy 2^-49, for every schedule, at points of leaves whose distance to every source is zero or at least theta. The same holds for well placed sources at all points at distances between theta and 2/theta from all sources, inside and outside of the leaves.", "quantifier": "all sources, leaf capacities, orders, points, schedules, scales theta, tau, e, q within the stated range", "why_tests_cant": "Overflow of high powers in the shifts and conversions appears only for extreme units of length or high orders; tests use coordinates of order one.", "anchors": ["fmm/multipole_expansion.hpp:MultipoleExpansion", "fmm/local_expansion.hpp:LocalExpansion", "fmm/adaptive_fmm_tree.hpp:AdaptiveFmmTree", "fmm/adaptive_fmm_tree.hpp:evaluatePotential", "fmm/adaptive_fmm_tree.hpp:evaluateForcefield", "fmm/fields.hpp:fields::potential", "fmm/fields.hpp:fields::forcefield"]}
{"id": "C107", "title": "Underflow and overflow in the balanced tree in the plane", "statement": "With gradual underflow, the balanced two-dimensional tree has the error bounds of C79 at points whose computed indices are in range and whose distance to every source is zero or at least theta, if leaves have sides of at least 25/18 theta, the root box of at most 1/(2 theta), and strengths are zero or at least tau in absolute value, as in C105. With doubles and strengths and orders as in C106, the constructor succeeds with the same tree for every schedule, potentials and forces at such points are finite numbers with the error bounds of C79 with accuracy 2^-49, and at all other points the evaluation fails with the error of the index computation. For sources placed as in C79 this holds at all sources and at all points further than the rounding error from the faces of the root box, with the indices of all sources in range.", "quantifier": "all sources, numbers of sources per cell, orders, points, schedules, scales theta, tau, e, q within the stated range, heights up to 16", "why_tests_cant": "The computed indices of leaves depend on a reciprocal and products that can underflow or overflow for extreme units of length; tests use coordinates of order one.", "anchors": ["fmm/balanced_fmm_tree.hpp:BalancedFmmTree", "fmm/balanced_fmm_tree.hpp:evaluatePotential", "fmm/balanced_fmm_tree.hpp:evaluateForcefield", "fmm/balanced_orthtree.hpp:getLeafBoxIndices", "fmm/multipole_expansion.hpp:MultipoleExpansion", "fmm/local_expansion.hpp:LocalExpansion"]}
{"id": "C108", "title": "Underflow in the adaptive tree in space: potentials", "statement": "With gradual underflow, the adaptive three-dimensional tree has the error bounds of C85 for potentials at points whose distance to every source is zero or at least theta (in leaves), or between theta and 1/theta (everywhere), if leaves have sides of at least 25/22 theta, the root box of at most 1/(4 theta), strengths are zero or at least tau in absolute value, and 2^-844 sqrt((2p)!) <= tau theta^(3p+2) for the order p. With doubles, the constructor succeeds and the computed potential is either not finite or has the error bound of C85 with accuracy 2^-49: underflow never makes a finite result wrong. For sources placed as in C85 this follows from properties of the sources alone.", "quantifier": "all sources, numbers of sources per leaf, orders 1 to 42, points, schedules, scales theta and tau within the stated range", "why_tests_cant": "The quotients of factorials, powers of distances and spherical harmonics span hundreds of orders of magnitude, so whether some product underflows depends on units and order; tests use coordinates of order one and do not look at small terms.", "anchors": ["fmm/adaptive_fmm_tree.hpp:AdaptiveFmmTree", "fmm/adaptive_fmm_tree.hpp:evaluatePotential", "fmm/multipole_expansion.hpp:MultipoleExpansion", "fmm/local_expansion.hpp:LocalExpansion", "fmm/fmm_tables.hpp:YlmTable", "fmm/fields.hpp:potential"]}
{"id": "C109", "title": "Underflow in the balanced tree in space: potentials", "statement": "With gradual underflow, the balanced three-dimensional tree has the error bounds of C86 for potentials at points whose computed indices are in range and whose distance to every source is zero or at least theta, if leaves have sides of at least 25/22 theta, the root box of at most 1/(4 theta), and theta, the strengths and the order are as in C108. With doubles, the constructor succeeds for every schedule, the potential at such points is either not finite or has the error bound of C86 with accuracy 2^-49, and at all other points the evaluation fails with the error of the index computation. For sources placed as in C86 this holds at all sources and at all points further than the rounding error from the faces of the root box.", "quantifier": "all sources, numbers of sources per cell, orders 1 to 42, points, schedules, scales theta and tau within the stated range, heights up to 10", "why_tests_cant": "As for C108; in addition the computed leaf indices depend on reciprocals and products that can underflow for extreme units of length, and tests use coordinates of order one.", "anchors": ["fmm/balanced_fmm_tree.hpp:BalancedFmmTree", "fmm/balanced_fmm_tree.hpp:evaluatePotential", "fmm/balanced_orthtree.hpp:getLeafBoxIndices", "fmm/multipole_expansion.hpp:MultipoleExpansion", "fmm/local_expansion.hpp:LocalExpansion"]}
{"id": "C110", "title": "No overflow in the trees in space: potentials", "statement": "With doubles, let the smallest length theta be at least 2^-e with e at most 190, the strengths add up to at most 2^q, (e+1)(2p+1) be at most 900 and q + e + 9p + 27 + (e+1)(p+1) be at most 930 for expansions of order p, and let the spherical harmonics returned by GSL be finite up to degree 84. Then, under the conditions of C108 and C109 on sizes and distances and with at most 2^48 roundings, the constructors of both three-dimensional trees succeed for every schedule and the computed potentials are finite numbers with the error bounds of C85 and C86: in the adaptive tree at all points at distances between theta and 1/theta from the sources, in and outside of the leaves; in the balanced tree at all points with indices in range and distance zero or at least theta from the sources (at all other points the evaluation fails with the error of the index computation). For well placed sources all conditions follow from properties of the sources.", "quantifier": "all sources, numbers of sources per cell, orders 1 to 42, points, schedules, scales theta and strengths within the stated range, heights up to 10 in the balanced tree", "why_tests_cant": "Coefficients of high degree contain high powers of distances and square roots of factorials; whether one of them overflows depends on units, order and number of levels, and a test with coordinates of order one never comes near the limit.", "anchors": ["fmm/adaptive_fmm_tree.hpp:AdaptiveFmmTree", "fmm/adaptive_fmm_tree.hpp:evaluatePotential", "fmm/balanced_fmm_tree.hpp:BalancedFmmTree", "fmm/balanced_fmm_tree.hpp:evaluatePotential", "fmm/multipole_expansion.hpp:MultipoleExpansion", "fmm/local_expansion.hpp:LocalExpansion", "fmm/fmm_tables.hpp:AlmTable", "fmm/fields.hpp:potential"]}
{"id": "C111", "title": "How single operations fail", "statement": "operator+= of the expansions throws std::logic_error exactly for different numbers of coefficients or different centres, in the model with doubles as well as in exact arithmetic, and otherwise adds coefficient by coefficient. localToLocal ends in an assertion for a node without a parent and for a parent with an empty local expansion; otherwise it adds the translated expansion of the parent to the local expansion of the node and changes nothing else, or throws what translation or addition throw. Access to a coordinate of a vector is undefined exactly for indices of at least d. toFile of the balanced tree and of the point tree is undefined for an inner node without children. The neighbourhood computation throws std::logic_error exactly for boxes that are not adjacent and closer than 1.99 side lengths.", "quantifier": "all expansions, trees, nodes, vectors and indices", "why_tests_cant": "The library never reaches these failures in a correct run, so tests do not exercise them; which failure it is decides whether a caller can recover.", "anchors": ["fmm/series_expansion.hpp:SeriesExpansion::operator+=", "fmm/abstract_fmm_tree.hpp:localToLocal", "fmm/vector.hpp:Vector_::operator[]", "fmm/balanced_fmm_tree.hpp:toFile", "fmm/adaptive_fmm_tree.hpp:computeNodeNeighbourhood", "fmm/balanced_fmm_tree.hpp:computeNodeNeighbourhood"]}
{"id": "C112", "title": "Underflow in the adaptive tree in space: forces", "statement": "With gradual underflow, the adaptive three-dimensional tree has the error bounds of C89 for the components of the force, with rounding errors of the direct sums relative to the norms of the forces of the sources, if boxes, distances, strengths and order are as in C108, the smoothing eps is at most 1/theta^3, and the point is off the vertical axes of the boxes used and not closer than twice the floor to their centres. With doubles and angles of at least 2^-k, k at most 21, the constructor succeeds for every schedule and every component of the force at such a point of a leaf is either not finite or has this error with accuracy 2^-49. For well placed sources this follows from properties of the sources, at all points at distances between theta and 1/theta from the sources, in and outside of the leaves.", "quantifier": "all sources, numbers of sources per leaf, orders 1 to 42, points, schedules, scales theta and tau within the stated range, smoothing between 0 and 1/theta^3, slopes down to 2^-21", "why_tests_cant": "The gradient is computed in spherical coordinates from derivatives of Legendre functions, quotients by sines and powers of the distance; a component of it can be arbitrarily small, so any product can underflow on some input, and no finite set of points shows how the errors add up.", "anchors": ["fmm/adaptive_fmm_tree.hpp:evaluateForcefield", "fmm/adaptive_fmm_tree.hpp:AdaptiveFmmTree", "fmm/multipole_expansion.hpp:evaluateForcefield", "fmm/local_expansion.hpp:evaluateForcefield", "fmm/fields.hpp:forcefield"]}
{"id": "C113", "title": "Underflow in the balanced tree in space: forces", "statement": "With gradual underflow, the balanced three-dimensional tree has the error bounds of C90 for the components of the force, as in C112, at points whose computed indices are in range, off the vertical axis of their leaf and at distance zero or at least theta from every source. With doubles, the constructor succeeds for every schedule, every component of the force at such points is either not finite or has this error with accuracy 2^-49, and at all other points the evaluation fails with the error of the index computation. For sources placed as in C86 this holds at all points off the axes of the leaves further than the rounding error from the faces of the root box.", "quantifier": "all sources, numbers of sources per cell, orders 1 to 42, points, schedules, scales theta and tau within the stated range, smoothing between 0 and 1/theta^3, slopes down to 2^-21, heights up to 10", "why_tests_cant": "As for C112; in addition the leaf is found by computed indices.", "anchors": ["fmm/balanced_fmm_tree.hpp:evaluateForcefield", "fmm/balanced_fmm_tree.hpp:BalancedFmmTree", "fmm/balanced_orthtree.hpp:getLeafBoxIndices", "fmm/local_expansion.hpp:evaluateForcefield", "fmm/fields.hpp:forcefield"]}
{"id": "C114", "title": "No overflow in the trees in space: forces", "statement": "With doubles, under the conditions of C110 on strengths, sizes and order and of C112 and C113 on distances, smoothing and angles (at least 2^-k with the vertical, k at most 21), and if the harmonics and derivatives computed from what GSL returns are finite off the vertical up to degree 42, the constructors of both three-dimensional trees succeed for every schedule and all three components of the computed force are finite numbers with the error bounds of C112 and C113: in the adaptive tree at all points at distances between theta and 1/theta from the sources and off the axes of the boxes, in and outside of the leaves; in the balanced tree at all points with indices in range, off the axis of their leaf, at distance zero or at least theta from every source (at all other points the evaluation fails with the error of the index computation). For well placed sources all other conditions follow from properties of the sources.", "quantifier": "all sources, numbers of sources per cell, orders 1 to 42, points, schedules, scales theta and strengths within the stated range, smoothing between 0 and 1/theta^3, slopes down to 2^-21, heights up to 10 in the balanced tree", "why_tests_cant": "The force is a sum of quotients by the distance and by the sine of the polar angle, applied to coefficients that contain high powers of distances; near the axis the quotients grow without bound, so whether an intermediate result overflows depends on the point as well as on units, order and levels.", "anchors": ["fmm/adaptive_fmm_tree.hpp:evaluateForcefield", "fmm/adaptive_fmm_tree.hpp:AdaptiveFmmTree", "fmm/balanced_fmm_tree.hpp:evaluateForcefield", "fmm/balanced_fmm_tree.hpp:BalancedFmmTree", "fmm/multipole_expansion.hpp:evaluateForcefield", "fmm/local_expansion.hpp:evaluateForcefield", "fmm/fields.hpp:forcefield"]}
{"id": "C115", "title": "The number of operations", "statement": "A constructor that counts, next to the state of the tables, how many sources and expansions the constructors of the expansions process builds the same tree with the same expansions, for every schedule, and evaluations that count compute the same values. Adaptive tree with N sources, more than max, I inner nodes, L leaves, height h: every source enters exactly one multipole expansion (N operations), at most I 2^d shifts of multipole and I + L of local expansions, at most (I + L)(6^d - 3^d) conversions and (I + L)(3^d - 1) max sources entering local expansions; I (max + 1) <= N h and I + L <= 1 + 2^d I. The evaluations at all sources evaluate N local expansions, at most max (I + L)(3^d - 1) multipole expansions and at most max^2 L (2 3^d - 1) pairs of sources. Balanced tree of height h >= 1: N sources, at most 2 (2^d)^h shifts of either kind, 2 (2^d)^h (6^d - 3^d) conversions, no source enters a local expansion, and an evaluation uses one local expansion, no multipole expansion and the sources of at most 3^d leaves; per_cell (2^d)^h < 2^d N. In exact arithmetic, and in floating-point arithmetic as long as the tests on boxes are reliable.", "quantifier": "all dimensions (at least 2 for the balanced tree), sources, numbers of sources per leaf, kernels, orders, schedules, arithmetics with a relative rounding error that is small against the smallest box", "why_tests_cant": "That the method needs O(N) operations is what it exists for; a test measures time on some distributions of sources and cannot see that a list is visited twice, nor bound the worst distribution.", "anchors": ["fmm/adaptive_fmm_tree.hpp:AdaptiveFmmTree", "fmm/adaptive_fmm_tree.hpp:evaluatePotential", "fmm/balanced_fmm_tree.hpp:BalancedFmmTree", "fmm/balanced_fmm_tree.hpp:evaluatePotential", "fmm/multipole_expansion.hpp:MultipoleExpansion", "fmm/local_expansion.hpp:LocalExpansion", "fmm/abstract_fmm_tree.hpp:multipoleToLocal"]}
{"id": "C116", "title": "Superposition", "statement": "The potential and the force field computed by a tree are linear in the charges. For the positions of the sources, the parameters of the tree and the expansion order there is a function h such that, whatever the charges at these positions, whatever the tolerance that leads to this order, and in whatever order the sources are given, the tree is constructed and the value computed at every point x of the root box is the sum of q h(x, y) over the sources. So the results of trees for charges q, q' combine to the result for a q + b q', multiplying the charges by c and the tolerance by |c| multiplies the results by c, and the result does not depend on the order of the sources. Adaptive and balanced tree, plane and space, also with force smoothing; forces in space off the vertical lines through box centres.", "quantifier": "all positions, charges, tolerances leading to the given order (1 to 1029 in the plane, 1 to 42 in space), permutations of the sources, schedules, evaluation points in the root box, smoothing parameters", "why_tests_cant": "A test compares with direct sums up to the truncation error, which hides an error that depends nonlinearly on the charges or on the order of the sources, such as a normalisation by the total charge or a list from which one source is dropped.", "anchors": ["fmm/adaptive_fmm_tree.hpp:AdaptiveFmmTree", "fmm/adaptive_fmm_tree.hpp:evaluatePotential", "fmm/balanced_fmm_tree.hpp:BalancedFmmTree", "fmm/balanced_fmm_tree.hpp:evaluateForcefield", "fmm/multipole_expansion.hpp:MultipoleExpansion", "fmm/local_expansion.hpp:LocalExpansion", "fmm/fields.hpp:potential"]}
{"id": "C117", "title": "Units of length", "statement": "Multiplying the coordinates of all sources by c > 0, with the same charges, tolerance and tree parameters, gives a tree of the same height, and the values computed at c x follow from those computed at x as for the exact fields, though both are approximations: in the plane the potential changes by log c times the total charge of the sources not at x and the force is divided by c; in space the potential is divided by c and the force by c squared. The smoothing parameter has to be multiplied by c squared in the plane and by c cubed in space. Adaptive and balanced tree; forces in space off the vertical lines through box centres.", "quantifier": "all c > 0, positions, charges, tolerances leading to orders 1 to 1029 in the plane and 1 to 42 in space, schedules, evaluation points in the root box, smoothing parameters", "why_tests_cant": "Tests use coordinates of order one. An absolute length hidden in the code, such as a fixed padding of the root box, a fixed tolerance of the adjacency test or a power of the distance that is off by one in one term of one order, changes the results only in other units or by less than the truncation error.", "anchors": ["fmm/adaptive_fmm_tree.hpp:AdaptiveFmmTree", "fmm/balanced_fmm_tree.hpp:BalancedFmmTree", "fmm/abstract_fmm_tree.hpp:getDataRange", "fmm/abstract_orthtree.hpp:adjacent", "fmm/multipole_expansion.hpp:MultipoleExpansion", "fmm/local_expansion.hpp:LocalExpansion", "fmm/fields.hpp:forcefield"]}
{"id": "C118", "title": "Forces and gradients of trees", "statement": "The force computed by a tree without smoothing is exactly minus the gradient of the potential computed by the same tree, at every point in the interior of the box of a leaf, though both are approximations. At the position of particles this holds for the computed potential minus the potential of the particles at this position: the rest is differentiable there, its value is the potential computed at the particle and minus its gradient the force computed on it. Adaptive and balanced tree; in space off the vertical lines through box centres.", "quantifier": "all positions, charges, tolerances leading to orders 1 to 1029 in the plane and 1 to 42 in space, schedules, leaves, and points in the interior of their boxes", "why_tests_cant": "Tests compare forces with direct sums up to the truncation error. A force evaluation that drops the last order, or uses another list than the potential, stays within that error; difference quotients of the potential cannot show an identity.", "anchors": ["fmm/adaptive_fmm_tree.hpp:evaluateForcefield", "fmm/adaptive_fmm_tree.hpp:evaluatePotential", "fmm/balanced_fmm_tree.hpp:evaluateForcefield", "fmm/balanced_fmm_tree.hpp:evaluatePotential", "fmm/abstract_fmm_tree.hpp:evaluateForcefield", "fmm/multipole_expansion.hpp:evaluateForcefield", "fmm/local_expansion.hpp:evaluateForcefield"]}
{"id": "C119", "title": "Reciprocity in space", "statement": "A unit charge at y has at x the potential that a unit charge at x has at y. The potentials computed by the trees in space keep this symmetry exactly, though they are approximations, for every expansion order: for two distributions of charges q and q' at the same positions, and trees of the same order built for each, the sum of q' times the computed potential of q over the positions is the sum of q times the computed potential of q'. Adaptive and balanced tree, both signs of the kernel.", "quantifier": "all positions, pairs of charge distributions, numbers of sources per leaf, tolerances leading to the same order from 1 to 42, schedules", "why_tests_cant": "The two sides differ from the exact value by truncation errors; a test that compares with direct sums cannot tell whether these errors are equal. Reciprocity fails if lists are not symmetric (a box in the interaction list of another but not conversely, a source treated by a local expansion whose leaf does not evaluate the multipole expansion in return) or if a conversion truncates the two expansions differently.", "anchors": ["fmm/adaptive_fmm_tree.hpp:AdaptiveFmmTree", "fmm/adaptive_fmm_tree.hpp:evaluatePotential", "fmm/balanced_fmm_tree.hpp:BalancedFmmTree", "fmm/balanced_fmm_tree.hpp:evaluatePotential", "fmm/multipole_expansion.hpp:MultipoleExpansion", "fmm/local_expansion.hpp:multipoleToLocal", "fmm/abstract_fmm_tree.hpp:multipoleToLocal"]}
{"id": "C120", "title": "The highest coefficient in the plane", "statement": "In the plane, the highest coefficient of a multipole expansion enters only the constant term of the local expansion it is converted to: two multipole expansions of order p about the same centre that differ only in the coefficient of order p are converted to local expansions with the same coefficients 1 to p, because the inner loop of multipoleToLocal ends one too early. Hence reciprocity (C119) fails in the plane for every order p from 2 to 1029: in a fresh program there are five positions such that, in the balanced tree, unit charges at two of them do not have the same computed potential at the position of the other. For order 1 it holds, for both trees.", "quantifier": "all tables reachable in the program, multipole expansions of orders 1 to 1029 and centres; all orders 2 to 1029 for the failure; all positions, charges and schedules for order 1", "why_tests_cant": "The omitted terms are of the size of the truncation error, which the error estimate allows anyway, so no comparison with direct sums shows them.", "anchors": ["fmm/local_expansion.hpp:multipoleToLocal", "fmm/local_expansion.hpp:LocalExpansion", "fmm/balanced_fmm_tree.hpp:BalancedFmmTree", "fmm/balanced_fmm_tree.hpp:evaluatePotential", "fmm/adaptive_fmm_tree.hpp:AdaptiveFmmTree"]}
{"id": "C121", "title": "Laplace's equation", "statement": "The potential computed by a tree satisfies Laplace's equation exactly, though it is an approximation: at every point in the interior of the box of a leaf where there is no source, the sum of its second derivatives along the axes is zero. At the position of particles this holds for the computed potential minus the potential of the particles at this position. The force computed without smoothing near such a point is differentiable there and has divergence zero. Adaptive and balanced tree, plane and space; in space the potentials have the property also on the vertical lines through box centres, on which forces are not computed.", "quantifier": "all positions, charges, tolerances leading to orders 1 to 1029 in the plane and 1 to 42 in space, schedules, leaves, and points in the interior of their boxes", "why_tests_cant": "Tests compare values with direct sums up to the truncation error. A wrong power of the distance, a wrong degree of a Legendre function or a wrong derivative in one term of high order stays below it; second differences of computed values amplify it and cannot show an identity at all points.", "anchors": ["fmm/adaptive_fmm_tree.hpp:evaluatePotential", "fmm/adaptive_fmm_tree.hpp:evaluateForcefield", "fmm/balanced_fmm_tree.hpp:evaluatePotential", "fmm/balanced_fmm_tree.hpp:evaluateForcefield", "fmm/multipole_expansion.hpp:evaluatePotential", "fmm/local_expansion.hpp:evaluatePotential", "fmm/fields.hpp:forcefield"]}
{"id": "C122", "title": "Logs of the benchmark programs", "statement": "Every row that fmm_efficiency.cpp and accuracy_seq_speedup.cpp write belongs to one number of threads and contains the differences of consecutive readings of the clock of that iteration; totals are sums of the parts, and with a clock that does not run backwards no time is negative. fmm_efficiency.cpp leaves three files with floor(M/k)+1 rows each (uniform sources with both trees, clusters with the adaptive tree), each with its own run. accuracy_seq_speedup.cpp measures one configuration twice and writes both results to the same file: only the second run is left, and the files do not depend on what the clock showed during the first. If the directory logs does not exist, both programs end normally without having written anything.", "quantifier": "all readings of the clock, random numbers, largest numbers of threads and increments (at least 2 for fmm_efficiency.cpp), contents of the directory before, and numbers of sources", "why_tests_cant": "The programs take hours and their output is read by people; nobody compares the rows with the readings of the clock, and a file that has been overwritten looks like one that has not.", "anchors": ["fmm/test/fmm_efficiency.cpp:main", "fmm/test/fmm_efficiency.cpp:par_fmm_efficiencies", "fmm/test/fmm_efficiency.cpp:logEfficiencesToFile", "fmm/test/accuracy_seq_speedup.cpp:main", "fmm/test/accuracy_seq_speedup.cpp:par_fmm_efficiencies", "fmm/test/accuracy_seq_speedup.cpp:logEfficiencesToFile"]}
{"id": "C123", "title": "Trees do not depend on the schedule, for any arithmetic", "statement": "If the constructor of an adaptive or balanced tree succeeds with one order of the iterations of its parallel loops, it succeeds with every order and leaves exactly the same object: nodes, lists, static tables and all coefficients, to the last bit. The same holds for the arrays of evaluateParticlePotentialEnergies and evaluateParticleForces. Nothing is assumed about the arithmetic (any rounding, any library functions, infinities and NaN included), about the places of the sources, the accuracy or the state of the tables before.", "quantifier": "all rounding and library functions, source lists, limits per leaf or cell, accuracies, states of the static tables, amounts of fuel and pairs of schedules, in two and three dimensions; particle loops with any evaluation function", "why_tests_cant": "A result that varies with the timing of threads shows up in the last bits and in a few runs only. The earlier results (C77, C79, C85, C86) need sources for which the computed boxes are right; a test cannot tell whether a different arithmetic or a refresh of the tables during a loop would break them.", "anchors": ["fmm/adaptive_fmm_tree.hpp:AdaptiveFmmTree", "fmm/balanced_fmm_tree.hpp:BalancedFmmTree", "fmm/abstract_fmm_tree.hpp:localToLocal", "fmm/abstract_fmm_tree.hpp:multipoleToLocal", "fmm/abstract_fmm_tree.hpp:evaluateParticleForces", "fmm/series_expansion.hpp:SeriesExpansion"]}
{"id": "C124", "title": "The Wolfram Language package", "statement": "A call of one of the twelve functions loaded by MathematicaFMM.wl evaluates exactly if its arguments have the declared number and types, and then the C function reads each argument with the type it has and passes the lists, the number of items per leaf (modulo 2^64) and the tolerances to the library in the right places; the result is that of C48. A call written after the usage message never evaluates, except for the four functions computing forces. Of the three calls of the test script two use symbols without a value and stay unevaluated.", "quantifier": "all names, all argument lists of any length, all executions of the parallel loops, all states of the static tables", "why_tests_cant": "The declarations are untyped strings of another language, checked only when the function is called; a mismatch reads a pointer as a number and may go unnoticed. The script runs to its end with unevaluated expressions in place of numbers.", "anchors": ["fmm/mathematica/MathematicaFMM.wl:LibraryFunctionLoad", "fmm/mathematica/MathematicaFMM.cpp:FMMParticleForces", "fmm/mathematica/MathematicaFMM.cpp:FMMParticlePotentialEnergies", "fmm/mathematica/MathematicaFMM.cpp:FMMEvaluatePotentials", "fmm/mathematica/MathematicaFMM.cpp:DirectParticleForces", "fmm/mathematica/fmm_mathematica_test.m:FMMParticleForces"]}
{"id": "C125", "title": "The origin of coordinates", "statement": "Moving all sources by w moves the root box by (1 + 10^-5) w without changing its side, so the moved point x + w is in the new box exactly if x - 10^-5 w is in the old one. Hence for every set of more than max_sources_per_leaf sources there are origins for which the constructor of the adaptive tree never returns, and for every set of sources not all at one place origins for which the constructor of the balanced tree (of positive height) converts negative numbers to unsigned integers. With the origin at the middle of the bounding box of the sources the root box always contains them (and without its upper faces if they are not all at one place), which is what the theorems on construction and accuracy require of the positions. For two origins that both admit the construction the computed potentials and forces agree up to the sum of the two error bounds (forces in space at points that are not on vertical lines through box centres of either tree).", "quantifier": "all source lists of any length, all displacements, capacities, tolerances, both trees, two and three dimensions (the box and divergence statements: every dimension)", "why_tests_cant": "Test programs generate sources around the origin. The failure depends on the ratio of the distance from the origin and the extent (about 10^5), which no test varies.", "anchors": ["fmm/abstract_fmm_tree.hpp:getDataRange", "fmm/adaptive_fmm_tree.hpp:AdaptiveFmmTree", "fmm/balanced_fmm_tree.hpp:distributePointSources", "fmm/balanced_orthtree.hpp:getLeafBoxIndices"]}
{"id": "C126", "title": "Exchange of coordinate axes", "statement": "Exchanging two coordinates of all sources (in space any two, also with the vertical one), with the same charges, tolerance and tree parameters, gives a tree of the same height, and the potential computed at the point with exchanged coordinates is the same number, the computed force the same vector with the two components exchanged, though both are approximations. The potentials and forces in space are compatible with all six permutations of the axes (forces at points which are on no line through a box centre parallel to one of the axes). The potential is compared by its real part, as the code returns it. Adaptive and balanced tree, two and three dimensions; forces in space at points which are not on vertical lines through box centres before and after the exchange. The reflection of a single axis is not such a symmetry: it can change the height of the adaptive tree.", "quantifier": "all positions (including sources on the boundaries of boxes), charges, tolerances leading to orders 1 to 1029 in the plane and 1 to 42 in space, schedules, evaluation points in the root box, smoothing parameters", "why_tests_cant": "The two runs number and visit the boxes differently and compute with different complex coefficients. A sign error in one odd coefficient, a neighbour missed in one direction only or a tie broken differently in x and y gives results that are still within the truncation error in most runs.", "anchors": ["fmm/adaptive_fmm_tree.hpp:AdaptiveFmmTree", "fmm/balanced_fmm_tree.hpp:BalancedFmmTree", "fmm/abstract_orthtree.hpp:adjacent", "fmm/multipole_expansion.hpp:MultipoleExpansion", "fmm/local_expansion.hpp:LocalExpansion", "fmm/fields.hpp:forcefield"]}
{"id": "C127", "title": "Reflections of coordinate axes", "statement": "If no source is on a face of a box of any level of refinement of the root box, then reflecting any of the axes of all sources, with the same charges, tolerance and tree parameters, gives a tree of the same height; and at every evaluation point that is on no such face the computed potential is the same number after the reflection, and the computed force the reflected vector, though both are approximations. The potential is compared by its real part, as the code returns it. Adaptive and balanced tree, two and three dimensions. (With points on faces this is false, C126.)", "quantifier": "all source lists off the faces, charges, tolerances leading to orders 1 to 1029 in the plane and 1 to 42 in space, schedules, evaluation points in the root box off the faces, smoothing parameters, all four (eight) combinations of signs", "why_tests_cant": "Under a reflection all children, neighbours and interaction lists are renumbered and half of the coefficients change sign or are conjugated. An error in one child position, one direction of the neighbour test, or the sign of one odd coefficient breaks the symmetry by amounts below the truncation error.", "anchors": ["fmm/adaptive_fmm_tree.hpp:AdaptiveFmmTree", "fmm/balanced_fmm_tree.hpp:BalancedFmmTree", "fmm/abstract_orthtree.hpp:adjacent", "fmm/multipole_expansion.hpp:MultipoleExpansion", "fmm/local_expansion.hpp:LocalExpansion", "fmm/fields.hpp:forcefield"]}
{"id": "C128", "title": "When operations on single expansions fail", "statement": "A multipole expansion can be evaluated exactly at the points other than its centre. A local expansion can be built from sources exactly if none of them is at its centre. A multipole expansion of positive order can be converted to a local expansion exactly if the centres differ; a local expansion of positive order can always be translated. In the plane conversion and translation of order zero end with an assertion. Building an expansion from an empty vector of expansions throws std::out_of_range, except for the multipole expansion in space, where it is undefined behaviour. At the position of a source the direct sums in rounded arithmetic fail without the check of the distance (smoothing parameter 0), and leave this source out with it. Default-constructed expansions have no coefficients: evaluating one as a multipole expansion, or in space also as a local expansion, reads the missing first one.", "quantifier": "all expansions with coefficient vectors of the size of their order, all centres and points, all source lists, orders up to 1029 in the plane and 42 in space, all reachable contents of the static tables", "why_tests_cant": "The failing arguments are single points or empty vectors, which random tests do not generate, and the results of a division by zero are not exceptions but silent NaN coefficients.", "anchors": ["fmm/multipole_expansion.hpp:MultipoleExpansion", "fmm/local_expansion.hpp:LocalExpansion", "fmm/series_expansion.hpp:SeriesExpansion", "fmm/fields.hpp:potential", "fmm/fields.hpp:forcefield"]}
{"id": "C129", "title": "Expansions of different orders", "statement": "Building a multipole expansion from a vector of multipole expansions reads behind the end of a coefficient vector if one of them has a lower order than the first; if none has, the result is the one for the expansions cut off at the order of the first, so higher coefficients are dropped without notice. Building a local expansion from multipole expansions of different positive orders about other points throws std::logic_error.", "quantifier": "all vectors of expansions with coefficient vectors of the size of their order, all centres, orders covered by the static tables (up to 42 in space), all reachable contents of these tables; local expansions: positive orders up to 1029 in the plane and 42 in space", "why_tests_cant": "The trees only combine expansions of one order, so no run of the programs gets there, and reading a few numbers behind the end of a vector usually goes unnoticed.", "anchors": ["fmm/multipole_expansion.hpp:MultipoleExpansion", "fmm/local_expansion.hpp:LocalExpansion", "fmm/series_expansion.hpp:operator+="]}
