{"id": "C01", "title": "Traversal is complete and duplicate free", "statement": "Forest.traverse()/Tree.traverse() yield every node of the forest exactly once, in both modes; 'depth-first' yields a parent before its progeny and finishes a child's progeny before the next sibling (pre-order), 'breadth-first' yields nodes in nondecreasing depth, left to right within a depth; traverse(flag=f) yields the same sequence restricted to the nodes marked f.", "quantifier": "every forest (any shape, any missing children), every flag assignment, both modes", "why_tests_cant": "the shapes of trees are unbounded; a queue/stack mix-up only shows on particular shapes", "anchors": ["src/mesh.py:Tree.traverse", "src/mesh.py:Forest.traverse", "src/mesh.py:Tree.get_children"]}
{"id": "C02", "title": "get_leaves returns exactly the subforest leaves", "statement": "get_leaves(subforest_flag=f) returns, once each, exactly the nodes marked f none of whose children is marked f (f=None: nodes without children); with flag=g only those also marked g. If f is a rooted subforest, the leaves form a cross-section: every node marked f is an ancestor of or equal to some leaf, and no leaf is a proper ancestor of another.", "quantifier": "every forest, flag assignment, flags f and g, both modes", "why_tests_cant": "unbounded shapes and flag patterns", "anchors": ["src/mesh.py:Tree.get_leaves", "src/mesh.py:Forest.get_leaves"]}
{"id": "C03", "title": "root_subtrees computes the least rooted, sibling-closed subforest", "statement": "After forest.root_subtrees(f): all roots are marked f, every ancestor of a marked node is marked and every sibling of a marked node or of an ancestor is marked; every node marked before is still marked; nothing is marked that is not forced by these rules; no other flag and no node changes; a second call changes nothing.", "quantifier": "every forest, every flag f, every prior marking", "why_tests_cant": "marking happens during the traversal itself; correctness is a closure property over all markings", "anchors": ["src/mesh.py:Forest.root_subtrees"]}
{"id": "C04", "title": "subtrees_rooted decides rootedness", "statement": "forest.subtrees_rooted(f) returns True iff f is None or all roots are marked f, and parents and siblings of every marked node are marked; it returns True after root_subtrees(f).", "quantifier": "every forest, flag and marking", "why_tests_cant": "a decision procedure must agree with its specification on infinitely many inputs", "anchors": ["src/mesh.py:Forest.subtrees_rooted", "src/mesh.py:Forest.root_subtrees"]}
{"id": "C05", "title": "refine splits exactly the requested leaves and preserves everything else", "statement": "forest.refine(subforest_flag, refinement_flag, new_label): no node is ever removed; new nodes are exactly the children of leaves of the (rooted) subforest that carry refinement_flag (all leaves if None) and had no children; with new_label the new subforest is rooted, contains the leaves of the old one and the children of every refined leaf; without new_label the children get the subforest flag; with clean_up the refinement flag is removed from the refined leaves only.", "quantifier": "every forest, every combination of the three flags and clean_up", "why_tests_cant": "combination of flags, shape and interleaving of marking and splitting is unbounded", "anchors": ["src/mesh.py:Forest.refine", "src/mesh.py:Tree.split"]}
{"id": "C06", "title": "coarsen removes exactly the progeny of coarsened nodes", "statement": "forest.coarsen(coarsening_flag=c) without subforest/new_label deletes exactly the proper descendants of the topmost nodes marked c, keeps every root, keeps flags of the surviving nodes (except c when clean_up), and node types stay consistent. forest.coarsen(subforest_flag=s, coarsening_flag=c): afterwards s is still a rooted subforest in which the coarsened nodes are leaves.", "quantifier": "every forest and flag pattern, both clean_up values", "why_tests_cant": "deep progeny below a coarsened node is only visible on deep trees", "anchors": ["src/mesh.py:Tree.coarsen", "src/mesh.py:Forest.coarsen", "src/mesh.py:Tree.delete_children"]}
{"id": "C07", "title": "mark/unmark/is_marked obey set laws, recursively and in reverse", "statement": "node.mark(f, recursive=True) marks exactly the node and its descendants, node.mark(f, recursive=True, reverse=True) exactly the node and its ancestors; unmark is the exact inverse on the same set; no other flag or node is affected; unmark() clears all flags; mark() adds the flag True; is_marked() is True iff the flag set is nonempty. record(f) marks every node.", "quantifier": "every forest, node, flag", "why_tests_cant": "recursion over unbounded trees; frame conditions over all other nodes/flags", "anchors": ["src/mesh.py:Tree.mark", "src/mesh.py:Tree.unmark", "src/mesh.py:Tree.is_marked", "src/mesh.py:Forest.record"]}
{"id": "C08", "title": "Addresses identify nodes", "statement": "For a node of a forest built by planting unsplit trees and then splitting/refining/coarsening, forest.find_node(node.get_node_address()) is the node itself; distinct nodes have distinct addresses; the address length is depth+1; find_node of an address that denotes no node returns None.", "quantifier": "every operation history, every node, every address", "why_tests_cant": "addresses must survive arbitrary operation histories", "anchors": ["src/mesh.py:Tree.find_node", "src/mesh.py:Forest.find_node", "src/mesh.py:Tree.__init__", "src/mesh.py:Forest.add_tree", "src/mesh.py:Forest.remove_tree", "src/mesh.py:Tree.plant_in_forest"]}
{"id": "C09", "title": "Nearest flagged ancestor", "statement": "node.nearest_ancestor(f) returns the deepest node on the path from the root to the node (inclusive) that is marked f, or None if there is none; node.get_parent(f) the same for proper ancestors.", "quantifier": "every forest, node, flag, marking", "why_tests_cant": "unbounded depth", "anchors": ["src/mesh.py:Tree.nearest_ancestor", "src/mesh.py:Tree.get_parent"]}
{"id": "C10", "title": "contains is the ancestor relation", "statement": "a.contains(b) returns True iff a lies on the path from the root to b; it is reflexive, transitive and antisymmetric within a tree.", "quantifier": "every pair of nodes of every forest", "why_tests_cant": "unbounded depth and shapes", "anchors": ["src/mesh.py:Tree.contains"]}
{"id": "C11", "title": "is_contained_in decides refinement of subforests", "statement": "forest.is_contained_in(t, r) returns True iff t is None, t equals r, or every leaf of the subforest t has an ancestor-or-self marked r.", "quantifier": "every forest and pair of flags", "why_tests_cant": "decision procedure over all markings", "anchors": ["src/mesh.py:Forest.is_contained_in"]}
{"id": "C12", "title": "Depth is the maximum over nodes", "statement": "tree.tree_depth() is the maximum depth of a node of the tree, forest.depth() the maximum over trees; tree_depth(flag) is the maximum depth over the flagged subtree.", "quantifier": "every forest, every flag", "why_tests_cant": "unbounded depth; flag must be honoured at all levels", "anchors": ["src/mesh.py:Tree.tree_depth", "src/mesh.py:Forest.depth"]}
{"id": "C13", "title": "Structural invariant over all histories", "statement": "After any sequence of split, mark, unmark, record, root_subtrees, refine, coarsen, delete_children on a forest: a non-root node is of type LEAF iff it has no children and BRANCH otherwise, depths are parent depth plus one, addresses are parent address plus position, and a regular node has either all or none of its n_children children.", "quantifier": "every operation history of any length", "why_tests_cant": "history property", "anchors": ["src/mesh.py:Tree", "src/mesh.py:Forest"]}
{"id": "C14", "title": "make_rooted_subtree / is_rooted_subtree", "statement": "tree.make_rooted_subtree(f) marks exactly the ancestors of marked nodes in addition to what was marked; is_rooted_subtree(f) returns True iff the parent of every marked node is marked; the former establishes the latter and is the identity on rooted subtrees.", "quantifier": "every tree, flag, marking", "why_tests_cant": "closure property over all markings", "anchors": ["src/mesh.py:Tree.make_rooted_subtree", "src/mesh.py:Tree.is_rooted_subtree"]}
{"id": "C15", "title": "Interval refinement tiles the root interval", "statement": "Splitting an interval into n children yields consecutive subintervals that share endpoints, the first starting at the parent's left and the last ending at the parent's right vertex; consequently after any refinement history the leaves of a 1D tree, from left to right, tile the root interval with strictly increasing breakpoints.", "quantifier": "every interval with left<right, every n>=1, every refinement history", "why_tests_cant": "unbounded refinement depth, all real endpoints", "anchors": ["src/mesh.py:Interval.split", "src/mesh.py:HalfEdge.split"]}
{"id": "C16", "title": "1D physical neighbours are geometrically adjacent", "statement": "In a 1D mesh, cell.get_neighbor('left'/'right', mode='physical') returns a leaf that shares the corresponding endpoint, None exactly at the ends of a non-periodic mesh, and for two leaves being left/right neighbours is mutual.", "quantifier": "every 1D forest, every refinement history, every leaf", "why_tests_cant": "neighbour search climbs and descends trees of unbounded depth", "anchors": ["src/mesh.py:Interval.get_neighbor", "src/mesh.py:Interval.assign_previous", "src/mesh.py:Interval.assign_next"]}
{"id": "C17", "title": "Interval reference map round trips", "statement": "reference_map(mapsto='reference') inverts reference_map(mapsto='physical'); endpoints map to endpoints; the returned jacobian is the derivative; a sub-interval obtained by any refinement path has subcell_position (pos, width) such that reference_map of sub(t) = reference_map of parent(pos+width t).", "quantifier": "every interval with distinct endpoints, all points, all refinement paths", "why_tests_cant": "all reals and unbounded depth", "anchors": ["src/mesh.py:Interval.reference_map", "src/mesh.py:Interval.subcell_position"]}
{"id": "C18", "title": "bin_points assigns every point to exactly one containing leaf", "statement": "Mesh.bin_points/Cell.bin_points: every point that lies in the cell is returned in exactly one bin, and that bin's cell is a (sub)forest leaf containing the point; no index is lost or duplicated.", "quantifier": "every mesh, every refinement, every list of points in the domain", "why_tests_cant": "all point sets and refinement histories", "anchors": ["src/mesh.py:Interval.bin_points", "src/mesh.py:QuadCell.bin_points", "src/mesh.py:Mesh1D.bin_points", "src/mesh.py:QuadMesh.bin_points"]}
{"id": "C19", "title": "Quad split conserves area and orientation", "statement": "Splitting a quadrilateral cell yields four cells whose (signed) areas sum to the parent's; the children of a strictly convex counter-clockwise quadrilateral are strictly convex and counter-clockwise with positive area; by induction the leaf areas of any refinement sum to the root area.", "quantifier": "every quadrilateral with real coordinates, every refinement history", "why_tests_cant": "continuum of shapes, unbounded refinement", "anchors": ["src/mesh.py:QuadCell.split", "src/mesh.py:Cell.area"]}
{"id": "C20", "title": "Child reference map is the restriction of the parent's", "statement": "For every cell and descendant, reference_map_child(s,t) = reference_map_parent(p + w*(s,t)) where (p,w) = parent.subcell_position(child), w = 2^-(relative depth).", "quantifier": "every quadrilateral, every relative address of any length, every reference point", "why_tests_cant": "unbounded depth, continuum of shapes", "anchors": ["src/mesh.py:QuadCell.reference_map", "src/mesh.py:QuadCell.subcell_position", "src/mesh.py:QuadCell.split"]}
{"id": "C21", "title": "Quad reference map: vertices, edges, inverse on rectangles, Jacobians", "statement": "reference_map(mapsto='physical') sends the reference vertices to the cell vertices and reference edges to cell edges; on axis-parallel rectangles mapsto='reference' is its two-sided inverse; jac_r2p is the derivative of the map and jac_p2r its matrix inverse wherever the determinant is nonzero; positive on strictly convex ccw cells.", "quantifier": "every quadrilateral/rectangle, every point", "why_tests_cant": "continuum of inputs", "anchors": ["src/mesh.py:QuadCell.reference_map", "src/mesh.py:QuadCell.is_rectangle"]}
{"id": "C22", "title": "contains_points is membership in the closed convex cell", "statement": "For a convex counter-clockwise cell, contains_points with tolerance 0 returns True iff the point lies in the intersection of the edges' closed half planes, hence iff it is a convex combination of the vertices; the result is monotone in the tolerance.", "quantifier": "every convex cell and point", "why_tests_cant": "continuum", "anchors": ["src/mesh.py:Cell.contains_points"]}
{"id": "C23", "title": "Half-edge split keeps twins conforming", "statement": "Splitting a half-edge creates two children base->mid, mid->head whose lengths are equal; splitting a half-edge whose twin is already split reuses the twin's midpoint vertex and pairs children crosswise, so that twin is an involution and twins have swapped endpoints at every level.", "quantifier": "every half-edge pair and every order of splits", "why_tests_cant": "order of splitting and depth unbounded", "anchors": ["src/mesh.py:HalfEdge.split", "src/mesh.py:HalfEdge.assign_twin", "src/mesh.py:HalfEdge.make_twin"]}
{"id": "C24", "title": "Rectangular grid is a conforming tiling", "statement": "DCEL rectangular_grid(box, (nx,ny)) has (nx+1)(ny+1) points and nx*ny faces; face (i,j) has as corners the four lattice points of box cell (i,j) in counter-clockwise order; all faces have equal positive area summing to the box area.", "quantifier": "all positive nx, ny and boxes", "why_tests_cant": "all sizes", "anchors": ["src/mesh.py:DCEL.rectangular_grid"]}
{"id": "C25", "title": "Half-edge connectivity is consistent", "statement": "After determine_half_edges: next and previous are mutually inverse and cycle around the face; twin is an involution without fixed points between half-edges with swapped vertices; a half-edge has no twin iff no other face has the reversed edge.", "quantifier": "every face list in which each directed edge occurs at most once", "why_tests_cant": "all meshes", "anchors": ["src/mesh.py:DCEL.determine_half_edges"]}
{"id": "C26", "title": "get_neighbor of DCEL returns None exactly on the boundary", "statement": "dcel.get_neighbor(face, edge) returns the face on the other side of the edge, and None when the edge is on the boundary.", "quantifier": "every DCEL grid, face and edge", "why_tests_cant": "all meshes", "anchors": ["src/mesh.py:DCEL.get_neighbor"]}
{"id": "C27", "title": "balance terminates with a 2:1 balanced mesh, changing only what is forced", "statement": "QuadMesh.balance() terminates, leaves a mesh in which neighbouring leaves differ by at most one level, never removes a cell, and every split it performs is forced (the result is contained in every balanced refinement of the input); is_balanced() returns True afterwards, and balance() on a balanced mesh changes nothing.", "quantifier": "every refinement history of every quad mesh", "why_tests_cant": "termination and minimality over all meshes", "anchors": ["src/mesh.py:QuadMesh.balance", "src/mesh.py:QuadMesh.is_balanced"]}
{"id": "C28", "title": "Lagrange elements are nodal", "statement": "For elements Q1, Q2, Q3 (and DQ0..DQ3) in 1D and 2D, the i-th basis function equals 1 at the i-th reference node and 0 at the others; the basis functions sum to 1 at every point, their first derivatives sum to 0.", "quantifier": "all elements, all basis functions, all points", "why_tests_cant": "identities on a continuum", "anchors": ["src/fem.py:QuadFE.phi", "src/fem.py:QuadFE.dphi", "src/fem.py:QuadFE.d2phi"]}
{"id": "C29", "title": "Shape derivative tables are the derivatives", "statement": "For every Lagrange element and basis function the tabulated first and second derivatives are the true derivatives of the tabulated polynomial, in each variable.", "quantifier": "all elements, all points", "why_tests_cant": "identity of functions on the reals", "anchors": ["src/fem.py:QuadFE.phi", "src/fem.py:QuadFE.dphi", "src/fem.py:QuadFE.d2phi"]}
{"id": "C30", "title": "Elements reproduce their polynomial space", "statement": "Interpolating at the reference nodes any polynomial of degree <= k in each variable with Qk reproduces the polynomial everywhere (unisolvence).", "quantifier": "all polynomials of the space, all points", "why_tests_cant": "all polynomials", "anchors": ["src/fem.py:QuadFE.phi", "src/fem.py:QuadFE.dphi", "src/fem.py:QuadFE.d2phi"]}
{"id": "C31", "title": "Hanging-node constraints make the function continuous", "statement": "The constraint coefficients returned for a refined edge are the coarse edge shape functions evaluated at the fine dof positions; they sum to 1, and with constrained values the fine trace equals the coarse trace at every point of the edge.", "quantifier": "all coarse dof values, all points of the edge, all element orders", "why_tests_cant": "all functions", "anchors": ["src/fem.py:constraint_coefficients", "src/fem.py:DofHandler.set_hanging_nodes"]}
{"id": "C32", "title": "Gauss rules are exact", "statement": "GaussRule(order=n) on an interval integrates every polynomial of degree <= 2n-1 exactly and its weights sum to 1; the quadrilateral rule with n^2 nodes is exact on all products of such polynomials.", "quantifier": "all polynomials up to the degree, n=1..6", "why_tests_cant": "all polynomials; exact irrational nodes", "anchors": ["src/assembler.py:GaussRule"]}
{"id": "C33", "title": "Mapped quadrature integrates over the physical cell", "statement": "Mapping a rule to an interval/rectangle multiplies weights by the jacobian determinant so that the mapped rule is exact for polynomials on the physical cell; scale_rule to sub-cells is consistent with subcell positions, and scaled weights over the children of a cell add up to the parent's.", "quantifier": "all cells and polynomials", "why_tests_cant": "continuum", "anchors": ["src/assembler.py:GaussRule.scale_rule", "src/assembler.py:GaussRule.map_rule"]}
{"id": "C34", "title": "Dof numbering is a bijection and respects sharing", "statement": "distribute_dofs numbers the dofs of a (sub)mesh such that every cell has all its dofs assigned, two cells that share a vertex (edge) use the same dofs there, dofs not shared are distinct, numbers are 0..n_dofs-1 without gaps, and a later distribute_dofs on a refined mesh never changes dofs assigned before.", "quantifier": "every 1D/2D mesh and refinement history, every element type", "why_tests_cant": "numbering depends on traversal and neighbour order", "anchors": ["src/fem.py:DofHandler.distribute_dofs", "src/fem.py:DofHandler.fill_dofs", "src/fem.py:DofHandler.assign_dofs", "src/fem.py:DofHandler.share_dofs_with_neighbors"]}
{"id": "C35", "title": "Assembly distributes constrained contributions as P^T A P", "statement": "AssembledForm.distribute/consolidate: the consolidated matrix is the sum over cells of the local matrices with hanging-node rows/columns redistributed to their supports, Dirichlet rows dropped and Dirichlet columns moved to the right-hand side with their boundary values, independently of the order in which cells are visited and of entries within a cell.", "quantifier": "every set of cells, local matrices, constraint maps without cycles, every visiting order", "why_tests_cant": "order independence and nested constraints over all inputs", "anchors": ["src/assembler.py:AssembledForm.distribute", "src/assembler.py:AssembledForm.consolidate"]}
{"id": "C36", "title": "Cellwise data survives distribute unless cleared", "statement": "AssembledForm.distribute(cell, clear_cellwise_data=False) leaves the stored cellwise data of the cell available for another call.", "quantifier": "every cellwise state", "why_tests_cant": "history property", "anchors": ["src/assembler.py:AssembledForm.distribute"]}
{"id": "C37", "title": "LinearSystem solves the constrained problem", "statement": "After setting a matrix, right-hand side and constraints x = C x + d, solve_system and resolve_constraints deliver a vector that satisfies every constraint exactly and the Galerkin equations for all unconstrained test directions; Dirichlet dofs get their prescribed values.", "quantifier": "every matrix, vector and acyclic constraint set", "why_tests_cant": "all inputs", "anchors": ["src/solver.py:LinearSystem"]}
{"id": "C38", "title": "Repeated solves give the same answer", "statement": "Solving the same LinearSystem twice, or with several right-hand sides in sequence, gives each time the solution of the constrained problem.", "quantifier": "every history of set_rhs/solve calls", "why_tests_cant": "history property", "anchors": ["src/solver.py:LinearSystem"]}
{"id": "C39", "title": "diagonal_pseudo_inverse is Moore-Penrose", "statement": "diagonal_pseudo_inverse(D) of a diagonal matrix satisfies the four Moore-Penrose equations with entries of modulus <= eps treated as zero.", "quantifier": "every diagonal", "why_tests_cant": "all inputs", "anchors": ["src/spd.py:diagonal_pseudo_inverse"]}
{"id": "C40", "title": "Spectral decomposition operations agree", "statement": "For the eigendecomposition object: dot, solve, sqrt_dot, sqrt_solve agree with the represented matrix: sqrt_dot composed with its transpose is dot, solve inverts dot when nondegenerate, solve is the pseudo-inverse otherwise.", "quantifier": "every spd/psd matrix and vector", "why_tests_cant": "all matrices", "anchors": ["src/spd.py:EigenDecomposition"]}
{"id": "C41", "title": "Cholesky decomposition operations agree", "statement": "For the (modified) Cholesky decomposition object: reconstruct returns the represented matrix, solve inverts dot, sqrt_dot composed with its transpose is dot and sqrt_solve inverts sqrt_dot.", "quantifier": "every positive definite matrix and vector", "why_tests_cant": "all matrices", "anchors": ["src/spd.py:CholeskyDecomposition", "src/spd.py:modchol_ldlt"]}
{"id": "C42", "title": "Distance functions are (periodic) metrics", "statement": "gmrf.distance(x,y) is symmetric, nonnegative, zero on the diagonal and satisfies the triangle inequality; the periodic version is invariant under shifting a point by a period and never exceeds the non-periodic one.", "quantifier": "all pairs/triples of points and boxes", "why_tests_cant": "continuum", "anchors": ["src/gmrf.py:distance"]}
{"id": "C43", "title": "Conditioned Gaussian fields satisfy the observations", "statement": "After condition(A, e) with hard constraints, every sample X of the conditioned field satisfies A X = e, the conditional mean satisfies A mu = e, the conditional covariance K' is symmetric, psd and A K' = 0.", "quantifier": "all means, covariances, constraint matrices, observations", "why_tests_cant": "all matrices", "anchors": ["src/gmrf.py:GaussianField.condition"]}
{"id": "C44", "title": "Covariance kernels are symmetric and bounded", "statement": "The covariance kernels k(x,y) are symmetric in x,y, k(x,x)=sigma^2 for stationary kernels, and |k(x,y)| <= sigma^2.", "quantifier": "all points and parameters", "why_tests_cant": "continuum", "anchors": ["src/gmrf.py:gaussian", "src/gmrf.py:exponential", "src/gmrf.py:matern", "src/gmrf.py:rational", "src/gmrf.py:constant", "src/gmrf.py:linear"]}
{"id": "C45", "title": "Derivative requests are parsed faithfully", "statement": "parse_derivative_info maps 'u', 'ux', 'uy', 'uxx', 'uxy', 'uyx', 'uyy' (and v) to derivative orders/variables and rejects other strings.", "quantifier": "every input string", "why_tests_cant": "all strings", "anchors": ["src/fem.py:parse_derivative_info"]}
{"id": "C46", "title": "1D level-wise neighbours", "statement": "interval.get_neighbor('left'/'right', mode='level-wise') returns the cell of the same level that shares the corresponding endpoint (modulo the period in a periodic mesh) when there is one, and None otherwise.", "quantifier": "every refinement history, every cell, periodic or not", "why_tests_cant": "depends on the shape of two neighbouring subtrees, unbounded", "anchors": ["src/mesh.py:Interval.get_neighbor"]}
{"id": "C47", "title": "HalfEdge.contains_points decides membership in the segment", "statement": "half_edge.contains_points(p) is True for every point on the closed segment, and True only for points within the tolerance of the segment.", "quantifier": "every half-edge (any direction), every point", "why_tests_cant": "continuum of edges and points; the branches depend on the direction", "anchors": ["src/mesh.py:HalfEdge.contains_points"]}
{"id": "C48", "title": "Segment intersection tests are exact", "statement": "half_edge.intersects_line_segment(line) returns True iff the two closed segments share a point; cell.intersects_line_segment(line) returns True iff the segment meets the (convex) cell.", "quantifier": "every pair of segments, every convex cell and segment", "why_tests_cant": "continuum; degenerate parallel/collinear positions", "anchors": ["src/mesh.py:HalfEdge.intersects_line_segment", "src/mesh.py:Cell.intersects_line_segment"]}
{"id": "C49", "title": "Half-edge reference map and sub-edge position", "statement": "half_edge.reference_map maps [0,1] affinely onto the edge (0 to base, 1 to head), mapsto='reference' inverts it, and subcell_position of a descendant half-edge gives position and width with map_child(t)=map_parent(pos+width*t).", "quantifier": "every half-edge, every refinement path, every t", "why_tests_cant": "continuum and unbounded depth", "anchors": ["src/mesh.py:HalfEdge.reference_map", "src/mesh.py:HalfEdge.subcell_position"]}
{"id": "C50", "title": "Boundary half-edges and points", "statement": "DCEL.get_boundary_half_edges returns every half-edge without a twin exactly once, grouped into paths in which the head of a half-edge is the base of the next one; get_boundary_points returns exactly the points on the boundary.", "quantifier": "every connectivity", "why_tests_cant": "depends on the order in which half-edges were created and on the merge history", "anchors": ["src/mesh.py:DCEL.get_boundary_half_edges", "src/mesh.py:DCEL.get_boundary_points"]}
{"id": "C51", "title": "Periodic pairing", "statement": "make_periodic pairs each boundary half-edge with the boundary half-edge on the opposite side of the box; twins stay an involution and half-edges that had a twin keep it. On every rectangular grid it succeeds for every choice of directions, and afterwards the twin of a side of a cell is the opposite side of the next cell, counted cyclically. If a half-edge on one side has no partner on the other, an exception is raised.", "quantifier": "every rectangular mesh and choice of periodic coordinates, every tolerance that tells grid lines apart", "why_tests_cant": "all grids", "anchors": ["src/mesh.py:DCEL.make_periodic", "src/mesh.py:Mesh2D"]}
{"id": "C52", "title": "Refined quad meshes stay conforming", "statement": "Splitting any unsplit cell of any refined quadrilateral mesh succeeds; it adds exactly the four children. In every refined mesh the half-edges of a cell form a closed loop that belongs to the cell, and get_neighbors(half_edge) is symmetric, gives a cell of the same level, and the two facing half-edges have the same vertices.", "quantifier": "every refinement history of every conforming initial mesh (periodic or not)", "why_tests_cant": "unbounded refinement histories; the twin pointers depend on the order in which the two sides were split", "anchors": ["src/mesh.py:QuadCell.split", "src/mesh.py:HalfEdge.split", "src/mesh.py:Cell.get_neighbors"]}
{"id": "C53", "title": "Balancing a submesh", "statement": "balance(subforest_flag) applied to a rooted submesh terminates and leaves a submesh in which neighbouring leaves of the submesh differ by at most one level, whichever order the set of pending leaves is processed in.", "quantifier": "every mesh, every rooted submesh, every order of set.pop", "why_tests_cant": "set.pop order is not under the control of a test", "anchors": ["src/mesh.py:QuadMesh.balance"]}
{"id": "C54", "title": "Assembler.solve returns the constrained Galerkin solution", "statement": "After assembling a problem with hanging nodes and Dirichlet conditions, Assembler.solve returns a vector that obeys every hanging-node relation, takes the Dirichlet values, and satisfies a(v,u)=l(v) for every test function v that obeys the hanging-node relations and vanishes at the Dirichlet dofs.", "quantifier": "every mesh size, local matrices, loads, acyclic hanging nodes, Dirichlet values", "why_tests_cant": "all inputs; the order of sets and of the stack varies", "anchors": ["src/assembler.py:Assembler.solve", "src/assembler.py:Assembler.hanging_node_matrix", "src/assembler.py:AssembledForm.consolidate"]}
{"id": "C55", "title": "shape() returns physical derivatives", "statement": "QuadFE.shape(x_ref, cell=cell, derivatives, jac_p2r, hess_p2r), with the Jacobians and Hessians of cell.reference_map, returns the values and the first and second partial derivatives, with respect to the physical coordinates, of the basis functions mapped to the cell; without cell it returns the reference derivatives.", "quantifier": "every convex quadrilateral or interval, every element type and local dof, every reference point, every derivative of order <= 2", "why_tests_cant": "continuum of cells and points; tests compare a few cells", "anchors": ["src/fem.py:QuadFE.shape", "src/mesh.py:QuadCell.reference_map"]}
{"id": "C57", "title": "Covariance kernels are positive semidefinite", "statement": "For every finite set of points the matrix k(x_i,x_j) of a covariance kernel (gaussian, exponential, matern, rational, constant, linear, with or without anisotropy, periodic or not) is symmetric positive semidefinite, so it is a covariance matrix.", "quantifier": "every number of points, all points, all valid parameters", "why_tests_cant": "needs all quadratic forms over all finite point sets", "anchors": ["src/gmrf.py:gaussian", "src/gmrf.py:exponential", "src/gmrf.py:matern", "src/gmrf.py:rational", "src/gmrf.py:linear", "src/gmrf.py:distance"]}
{"id": "C58", "title": "Samples have the declared covariance", "statement": "GaussianField.sample(z) returns mean + S z for a fixed matrix S with S S' equal to the covariance (mode 'covariance') or to the inverse of the precision (mode 'precision'), whichever decomposition stores the matrix.", "quantifier": "every mean, covariance/precision matrix, decomposition and z", "why_tests_cant": "all matrices; a statistical test only sees finitely many samples", "anchors": ["src/gmrf.py:GaussianField.sample", "src/spd.py:EigenDecomposition.sqrt_dot", "src/spd.py:CholeskyDecomposition.sqrt_dot"]}
{"id": "C59", "title": "Karhunen-Loeve samples are partial sums", "statement": "KL_sample(i_min,i_max,z) returns mean + sum over i_min..i_max of sqrt(d_l) v_l z_l; the full range gives sample(z), and the fluctuations of adjacent ranges add up to that of the union.", "quantifier": "every field stored by its eigendecomposition, every range, every z", "why_tests_cant": "all ranges and matrices", "anchors": ["src/gmrf.py:GaussianField.KL_sample"]}
{"id": "C60", "title": "Discretized covariance operators have the kernel's nodal covariance", "statement": "A field whose covariance is Covariance(kernel,dofhandler,discretization) has the nodal covariance k(x_i,x_j) (interpolation) or that of the L2 projection of the kernel (galerkin), up to raising eigenvalues below the lower bound.", "quantifier": "every kernel matrix, every symmetric positive definite mass matrix", "why_tests_cant": "all meshes, kernels and matrices", "anchors": ["src/gmrf.py:Covariance.assemble"]}
{"id": "C56", "title": "Local forms are the integrals they stand for", "statement": "Form.eval on a cell returns, for the local dofs a and i and for each sample s, the integral over the marked regions of the cell ('dx' the cell, 'ds' its half-edges, 'dv' its vertices) of kernel times (derivative of) test function times (derivative of) trial function: exactly, when the Gauss rule has enough points for the polynomial integrand; with the same test and trial basis the matrix is symmetric, for nonnegative kernels positive semidefinite, mass matrices are positive definite, stiffness matrices have exactly the constants as kernel, and unmarked cells contribute zero.", "quantifier": "every convex quadrilateral or interval, element type, derivative, marker, kernel and sample", "why_tests_cant": "continuum of cells and kernels; a test evaluates a few", "anchors": ["src/assembler.py:Form.eval", "src/assembler.py:Form.regions", "src/assembler.py:Kernel.eval", "src/assembler.py:Assembler.shape_eval"]}
{"id": "C61", "title": "Assembled symmetric problems are well posed", "statement": "For every mesh of convex cells the assembled matrix of a form with equal test and trial bases is symmetric, positive semidefinite for nonnegative kernels, positive definite for mass matrices, and the matrix of the Poisson problem on a connected mesh with at least one Dirichlet dof is invertible, whatever the hanging nodes: Assembler.solve has exactly one answer.", "quantifier": "every mesh, dof numbering, positive kernel, acyclic hanging nodes, Dirichlet data", "why_tests_cant": "all meshes and kernels at once", "anchors": ["src/assembler.py:Assembler.assemble", "src/assembler.py:AssembledForm.consolidate", "src/assembler.py:Form.eval", "src/assembler.py:Assembler.solve"]}
{"id": "C62", "title": "Hanging node constraints mean continuity", "statement": "After distribute_dofs on a balanced mesh (or rooted submesh), set_hanging_nodes returns without error; a vector of dof values obeys the constraints it stores if and only if the finite element function it defines has one value at every point where leaves meet. Exactly the dofs whose node lies on a leaf without being one of its nodes are constrained, each once, by unconstrained dofs only, so that the solution of the constrained linear system is continuous on the whole mesh.", "quantifier": "every refinement history of every conforming initial mesh, every element Q1-Q3, every rooted submesh, every coefficient vector", "why_tests_cant": "unbounded refinement histories and all coefficient vectors; continuity is a statement about all points", "anchors": ["src/fem.py:DofHandler.set_hanging_nodes", "src/fem.py:DofHandler.distribute_dofs", "src/mesh.py:QuadMesh.is_balanced"]}
{"id": "C63", "title": "Every dof has its vertex", "statement": "After distribute_dofs, get_dof_vertices(dofs) returns one point per dof, in the order asked for: in every cell that has the dof, the image under cell.reference_map of the corresponding reference node; dofs of a continuous element have pairwise distinct points; no dof of the mesh lacks one. The coordinates of the vertices of a refined mesh are the images of the reference corners of the initial cell under the position of the subcell.", "quantifier": "every history of refinements, flags and distributions on every conforming initial mesh, every element, every dof", "why_tests_cant": "histories of distributions on submeshes and refinements are unbounded; the stored dictionary depends on the history", "anchors": ["src/fem.py:DofHandler.set_dof_vertices", "src/fem.py:DofHandler.get_dof_vertices", "src/mesh.py:QuadCell.split", "src/mesh.py:Mesh2D"]}
{"id": "C64", "title": "The boundary segments are the boundary", "statement": "get_boundary_segments terminates without error; each segment is a list of half-edges in which each starts where the previous one ends; every half-edge in a segment is a side of a leaf on the boundary of the domain, and every boundary side of every leaf occurs in exactly one segment, exactly once; the segments of a domain bounded by one closed curve (every rectangular grid) are one closed loop; get_boundary_vertices returns the vertices of these sides; with a flag only marked half-edges are returned.", "quantifier": "every initial mesh, every refinement history, every rooted submesh, every flag", "why_tests_cant": "the number of boundary sides and the order in which curves are merged are unbounded; the merge loop changes the list it traverses", "anchors": ["src/mesh.py:Mesh2D.get_boundary_segments", "src/mesh.py:Mesh2D.get_boundary_vertices"]}
{"id": "C65", "title": "Regions and their dofs", "statement": "mark_region(flag, f) marks exactly the vertices, half-edges or cells of the leaves of the (sub)mesh, on request only those at the boundary, at whose vertices f holds (at all of them with strict_containment, else at some), and get_region(flag) returns exactly the marked ones, each with its cell. get_cell_dofs(cell, entity) returns exactly the dofs of the cell whose nodes lie on the entity (with interior: inside it), and get_region_dofs exactly the dofs with nodes on the entities of the region, without repetition. For half-edges on the boundary these are exactly the dofs whose node is a point of the boundary of the domain.", "quantifier": "every conforming initial mesh, refinement history, rooted submesh, region function, flag, entity type, element", "why_tests_cant": "all meshes and all region functions; a boundary corner of one cell may be reached through cells with no boundary side", "anchors": ["src/mesh.py:Mesh2D.mark_region", "src/mesh.py:Mesh2D.get_region", "src/fem.py:DofHandler.get_cell_dofs", "src/fem.py:DofHandler.get_region_dofs"]}
{"id": "C66", "title": "Dirichlet conditions reach the solution", "statement": "add_dirichlet_constraint(marker, g) adds exactly one constraint dof = g(vertex of the dof) for each dof whose node lies on a marked boundary side, and never constrains a hanging node, so that the hanging-node constraints and the Dirichlet constraints are together well formed. After distribute_dofs, set_hanging_nodes, any number of compatible conditions and solve_system, the solution is single-valued on the (sub)mesh and equals g at every node on the marked part of the boundary; on the whole boundary with a constant g it equals g at every boundary point. Assembler.add_dirichlet prescribes the same values.", "quantifier": "every conforming initial mesh, refinement history, rooted submesh, continuous element, list of conditions, matrix and right-hand side", "why_tests_cant": "the path crosses mesh, dof handler, constraints and solver; tests check one grid", "anchors": ["src/solver.py:LinearSystem.add_dirichlet_constraint", "src/assembler.py:Assembler.add_dirichlet", "src/assembler.py:Assembler.add_hanging_nodes"]}
{"id": "C67", "title": "Nodal functions are evaluated correctly", "statement": "Nodal.eval(x) on a refined mesh returns, for every point of the domain, in any order, and for every sample, the value there of the finite element function with the stored dof values (its first or second partial derivative on request); at the vertices of the dofs these are the stored data if the function is continuous. A Nodal function made from polynomials f of at most the degree of the element equals f everywhere, and differentiate returns the derivative. bin_points puts each point into exactly one leaf of the (sub)mesh that contains it, and raises an exception for points outside.", "quantifier": "every conforming initial mesh of convex cells, refinement history, rooted submesh, element, list of points, data, number of samples", "why_tests_cant": "points, meshes and data range over a continuum; the result depends on the cell a point is binned to", "anchors": ["src/function.py:Nodal.eval", "src/function.py:Nodal.set_data", "src/function.py:Nodal.differentiate", "src/fem.py:Basis", "src/mesh.py:Mesh2D.bin_points", "src/mesh.py:QuadCell.bin_points", "src/mesh.py:QuadCell.reference_map"]}
{"id": "C68", "title": "Interpolation onto a finer mesh changes nothing", "statement": "f.interpolant(dofhandler) of a continuous finite element function f on a refined mesh (or larger submesh) with an element of at least the same degree is the same function: both evaluate to the same values at every point of the domain, and the result obeys the hanging node conditions of the finer mesh. On meshes without hanging nodes the interpolant of any function has its values at the dof vertices.", "quantifier": "every pair of refinement histories of the same initial mesh, the second finer than the first, every pair of elements with increasing degree, every data, every point", "why_tests_cant": "all pairs of meshes and all points at once", "anchors": ["src/function.py:Map.interpolant", "src/function.py:Nodal.eval"]}
{"id": "C69", "title": "The method solves a problem with polynomial solution exactly (patch test)", "statement": "For a positive polynomial diffusion coefficient k and a polynomial p of at most the degree of the (continuous) element, take the load f = -div(k grad p) and the values of p at the boundary nodes as Dirichlet data. On every refined and balanced mesh of strictly convex quadrilaterals, distribute_dofs, set_hanging_nodes, add_dirichlet, Assembler.assemble, consolidate and solve return exactly one vector of dof values, and the finite element function with these values equals p at every point of the mesh; the same with a LinearSystem. For every positive coefficient, load and boundary data the assembled matrix is invertible.", "quantifier": "every conforming initial mesh of convex quadrilaterals, refinement history, (rooted) submesh, element Q1-Q3, polynomial coefficient and solution, Gauss rule with enough points, dof numbering", "why_tests_cant": "the statement crosses every module; meshes, hanging nodes, coefficients and points range over infinite sets, and a test runs one grid up to rounding", "anchors": ["src/assembler.py:Assembler.assemble", "src/assembler.py:AssembledForm.consolidate", "src/assembler.py:Assembler.solve", "src/assembler.py:Form.eval", "src/assembler.py:GaussRule", "src/fem.py:DofHandler.distribute_dofs", "src/fem.py:DofHandler.set_hanging_nodes", "src/solver.py:LinearSystem.solve_system", "src/mesh.py:QuadMesh"]}
{"id": "C70", "title": "Degrees of freedom of a one-dimensional mesh identify exactly the common points", "statement": "On every interval mesh, periodic or not, after any history of refinements, flags and distribute_dofs calls: distribute_dofs returns and every cell of the (sub)mesh has all its dofs; dofs never change later; the dofs in use are exactly 0..n_dofs(all_dofs=True)-1; for continuous elements two cells use the same dof exactly where their nodes have the same coordinate (the two ends of a periodic mesh being one point), so the number of dofs is the number of points; for discontinuous elements only a cell and its descendants share dofs.", "quantifier": "every sorted list of initial vertices, refinement, marking and distribution history, every cell and every element type", "why_tests_cant": "histories, depths and flags are unbounded, and the order of distribution decides which cell gives the number", "anchors": ["src/fem.py:DofHandler.distribute_dofs", "src/fem.py:DofHandler.fill_dofs", "src/fem.py:DofHandler.share_dofs_with_neighbors", "src/fem.py:DofHandler.share_dofs_with_children", "src/mesh.py:Interval.get_neighbor", "src/mesh.py:RInterval", "src/mesh.py:Mesh1D"]}
{"id": "C71", "title": "Dof vertices, boundary regions and Dirichlet values of a one-dimensional mesh are those of the right points", "statement": "On every interval mesh and after any history of refinements, flags, distribute_dofs and set_dof_vertices calls: distribute_dofs returns; the vertex get_dof_vertices gives for a dof is the node of every cell that has this dof; after distribute_dofs every dof of the (sub)mesh has a vertex; two cell vertices are one object exactly if they have the same coordinate; get_region('vertex') returns exactly the vertices of the leaves (the two ends of the mesh, if on_boundary) with the flag, get_region_dofs their dofs without repetition; mark_region marks exactly the vertices where the function holds; add_dirichlet of the Assembler stores, and that of the LinearSystem appends, exactly one value g(x) for each dof at a vertex x of the region and changes nothing else.", "quantifier": "every sorted list of initial vertices, history, submesh, marker, element type and boundary function", "why_tests_cant": "histories, depths and markers are unbounded; the vertex stored for a dof depends on the order in which cells were visited over several distributions", "anchors": ["src/fem.py:DofHandler.set_dof_vertices", "src/fem.py:DofHandler.get_dof_vertices", "src/fem.py:DofHandler.get_region_dofs", "src/mesh.py:Mesh1D.get_region", "src/mesh.py:Mesh1D.mark_region", "src/mesh.py:Mesh1D.get_boundary_cells", "src/assembler.py:Assembler.add_dirichlet", "src/solver.py:LinearSystem.add_dirichlet_constraint"]}
{"id": "C72", "title": "One-dimensional boundary value problems are solved as well as the elements allow", "statement": "For -(k u')' = f on an interval with positive polynomial k and polynomial f, Dirichlet values at one end or both and fluxes (or nothing) at the other: on every interval mesh, with any history, and every continuous element, distribute_dofs, mark_region, add_dirichlet, Assembler.assemble (with dmu='dv' terms for the fluxes), consolidate and solve return exactly one vector of dof values. Its finite element function is continuous and has the prescribed values at the Dirichlet ends; if the solution is a polynomial of at most the degree of the element it is the solution; if k is constant it is equal to the solution at every vertex of the mesh, whatever the solution; and no other finite element function with the prescribed values has a smaller energy error.", "quantifier": "every sorted list of initial vertices, history, submesh, continuous element, polynomial k > 0 and f, boundary conditions with at least one Dirichlet end, Gauss rule with enough points, dof numbering", "why_tests_cant": "the statement crosses every module and ranges over all meshes, coefficients and solutions; the test of mixed conditions in the repository is commented out", "anchors": ["src/assembler.py:Assembler.assemble", "src/assembler.py:Form.eval", "src/assembler.py:Assembler.add_dirichlet", "src/assembler.py:AssembledForm.consolidate", "src/assembler.py:Assembler.solve", "src/fem.py:DofHandler.distribute_dofs", "src/mesh.py:Mesh1D.mark_region", "src/mesh.py:Interval"]}
{"id": "C73", "title": "One-dimensional approximations converge to the solution", "statement": "For every boundary value problem as in C72 and every tolerance there is a number R such that, whatever the initial mesh, its history, the continuous element and the (sufficiently accurate) quadrature rule, after R or more calls of refine the function that solve returns is within the tolerance of the solution at every point. The maximal error is at most a constant, given in terms of k and u'', times the length of the largest cell; after r calls of refine no cell is longer than the domain divided by 2^r.", "quantifier": "every problem, tolerance, initial mesh, history, continuous element and number of refinements", "why_tests_cant": "convergence is a statement about all meshes and a limit", "anchors": ["src/mesh.py:Forest.refine", "src/assembler.py:Assembler.solve", "src/fem.py:DofHandler.distribute_dofs"]}
{"id": "C74", "title": "Points may be given in any documented format", "statement": "Every method that takes points accepts a vertex, a number, a tuple, a list of any of these or of arrays, a vector or a matrix, and reads the same points from each: convert_to_array returns the array with the points as rows, (n, d) in every case; two inputs are converted to the same array exactly if they stand for the same points; a list of points with different numbers of coordinates, and a dimension given in advance that contradicts the input, are rejected. A function of several variables converts its arguments one by one and rejects the call exactly if they have different numbers of points.", "quantifier": "every input in a documented format, any number of points, both dimensions, any number of variables", "why_tests_cant": "formats, lengths and coordinates are unbounded, and special cases hide at particular lengths", "anchors": ["src/mesh.py:convert_to_array", "src/function.py:Map.parse_x"]}
{"id": "C75", "title": "Explicit functions keep their rules and parameters", "statement": "After any history of Explicit(f, parameters), set_rules, add_rule, set_parameters on any number of functions, and of changes by the user to his own lists, every function consists of exactly the rules and parameters given to it: n_samples is their number, and eval(x) has one column for each, the values of this rule with its parameters at all points. A call is rejected exactly if numbers of rules and parameters differ and neither is one, or the position does not exist. No call on one function changes another one or the user's lists.", "quantifier": "every history of calls, number of functions, list of rules and parameters, list of points", "why_tests_cant": "histories and aliases between lists are unbounded", "anchors": ["src/function.py:Explicit.set_rules", "src/function.py:Explicit.add_rule", "src/function.py:Explicit.set_parameters", "src/function.py:Explicit.eval", "src/function.py:Explicit.n_samples"]}
{"id": "C76", "title": "Integral operators are assembled correctly", "statement": "For a kernel k, a problem with an IPForm assembles the matrix of double quadratures of k(x,y) phi_i(x) phi_j(y) over all pairs of cells, the same with and without the shortcut for symmetric kernels; a problem with an IIForm assembles the quadratures of k(x_i,y) phi_j(y), x_i the vertex of dof i; also together with ordinary forms, with hanging nodes and with Dirichlet values. Symmetric and positive semi-definite kernels give symmetric and positive semi-definite matrices. On interval meshes and for polynomial kernels the entries are the integrals themselves. This holds for forms restricted to flagged cells or submeshes, several samples, and different test and trial functions.", "quantifier": "every mesh, kernel, quadrature rule, set of forms, hanging node table, Dirichlet data and pair of finite element functions", "why_tests_cant": "all pairs of cells and all kernels at once; the shortcut for symmetric kernels visits half of the pairs and depends on the order of the cells", "anchors": ["src/assembler.py:IIForm.eval", "src/assembler.py:IPForm.eval", "src/assembler.py:Assembler.assemble", "src/gmrf.py:Covariance.assemble"]}
{"id": "C77", "title": "Hanging nodes are those of the current mesh, and linear systems do not influence each other", "statement": "After any history of refinements, flags, distribute_dofs, set_hanging_nodes, get_hanging_nodes and linear systems: get_hanging_nodes(flag) returns the hanging nodes of the (sub)mesh as it is now, none for intervals and discontinuous elements; has_hanging_nodes(flag) says whether there are any; a LinearSystem imposes exactly the hanging nodes of its submesh and the boundary values added to it, whatever was done before with the same dofhandler.", "quantifier": "every history of calls and mesh changes, every submesh flag, mesh, element and boundary values", "why_tests_cant": "histories are unbounded; tables are cached and shared", "anchors": ["src/fem.py:DofHandler.set_hanging_nodes", "src/fem.py:DofHandler.get_hanging_nodes", "src/fem.py:DofHandler.has_hanging_nodes", "src/solver.py:LinearSystem.__init__", "src/solver.py:LinearSystem.add_dirichlet_constraint"]}
{"id": "C78", "title": "The solution is the best approximation in the energy norm", "statement": "On every mesh whose initial cells are parallelograms, refined in any way and with hanging nodes, for -div(k grad u) = f with polynomial k > 0 and f and the values of g prescribed at the boundary nodes: among all continuous finite element functions with these boundary values the function that solve returns has the smallest energy 1/2 int k|grad w|^2 - int f w, and is the only one; and if u is a classical solution, whatever it is, no other one has a smaller energy error int k|grad w - grad u|^2.", "quantifier": "every mesh of parallelograms, refinement history, (rooted) submesh, element Q1-Q3, polynomial coefficient and load, boundary values, competitor, smooth solution u", "why_tests_cant": "quantifies over all competitors and all (not only polynomial) solutions; a test compares with a few", "anchors": ["src/assembler.py:Assembler.assemble", "src/assembler.py:Assembler.solve", "src/assembler.py:Form.eval", "src/fem.py:DofHandler.set_hanging_nodes", "src/mesh.py:QuadMesh"]}
{"id": "C79", "title": "Two-dimensional approximations converge with the optimal order, also on locally refined meshes", "statement": "For every initial mesh of parallelograms, element of degree k, polynomial coefficient and solution u with k+1 continuous derivatives there is one constant K such that on every refined, balanced mesh - however uneven, with hanging nodes - the energy norm of the error of what solve returns is, squared, at most K times the sum over the leaves of area times h^(2k) (h = 2^-level); so it is at most K' 2^(-kR) if all leaves have level at least R, and tends to zero; such meshes and solutions exist for every R.", "quantifier": "every initial mesh of parallelograms, refinement history, (rooted) submesh, element, coefficient, smooth solution, tolerance", "why_tests_cant": "convergence is a statement about all meshes and a limit", "anchors": ["src/mesh.py:Forest.refine", "src/mesh.py:QuadMesh", "src/assembler.py:Assembler.assemble", "src/assembler.py:Assembler.solve", "src/fem.py:DofHandler.set_hanging_nodes"]}
{"id": "C80", "title": "Degrees of freedom of a periodic mesh identify exactly the points that are glued", "statement": "On every rectangular grid made periodic in one or both directions, with at least two cells in each periodic direction, and after any history of refinements, flags and distribute_dofs calls: get_neighbors(vertex) and distribute_dofs return, whatever the iteration order of the sets of periodic pairs; every cell of the (sub)mesh has all its dofs; dofs never change later; the dofs in use are exactly 0..n_dofs(all_dofs=True)-1; for continuous elements two cells use the same dof exactly where their nodes are the same point of the glued domain (equal dofs are always the same point, also when the mesh is refined between distributions), so neighbours through a periodic side share their dofs and the number of dofs is the number of points; for discontinuous elements only a cell and its descendants share dofs. This also holds with a single cell in a periodic direction.", "quantifier": "every rectangular periodic grid, every refinement, marking and distribution history, every iteration order of the sets, every cell and element type", "why_tests_cant": "histories and depths are unbounded; the vertices of a periodic mesh are identified through sets whose iteration order is not determined, so a test sees one order", "anchors": ["src/mesh.py:HalfEdge.pair_periodic_vertices", "src/mesh.py:Vertex.set_periodic_pair", "src/mesh.py:Cell.get_neighbors", "src/mesh.py:DCEL.make_periodic", "src/fem.py:DofHandler.distribute_dofs", "src/fem.py:DofHandler.fill_dofs", "src/fem.py:DofHandler.share_dofs_with_neighbors"]}
{"id": "C81", "title": "Hanging node constraints on a periodic mesh make functions periodic and continuous", "statement": "On every balanced rectangular grid made periodic in one or both directions (at least two cells in each periodic direction), refined in any way, for every continuous element and (full, rooted) submesh, after distribute_dofs: set_hanging_nodes returns; a dof is constrained exactly if its node is, on the glued domain, a point of a leaf that has no node there - so nodes on a periodic side hang too; no dof is constrained twice and no supporting dof is constrained; dof values satisfy the constraints exactly if the finite element function has one value wherever leaves meet, also across the periodic sides; the dofs of the leaves are all dofs; and every column of what LinearSystem.solve_system stores is such a function.", "quantifier": "every rectangular periodic grid, refinement and marking history, order of the sets of periodic pairs, continuous element, submesh and vector of dof values", "why_tests_cant": "the constraints must hold for all dof values and all refinement patterns; the periodic sides are reached through twins only", "anchors": ["src/fem.py:DofHandler.set_hanging_nodes", "src/fem.py:DofHandler.distribute_dofs", "src/mesh.py:Cell.get_neighbors", "src/mesh.py:DCEL.make_periodic", "src/assembler.py:Assembler.solve"]}
{"id": "C82", "title": "Renumbering the free dofs through a Python set does no harm", "statement": "assemble, consolidate and solve renumber the free dofs through list(set(dofs)) and take the last entry for the largest dof. With CPython's integer sets (open addressing, linear probes, tables that grow fourfold) this list has every dof exactly once, and for every problem assemble and solve behave exactly as if it were sorted: for every one-dimensional mesh, history and boundary condition; for every LinearSystem; for every two-dimensional mesh, uniform or locally refined, with any boundary data. In particular a well-posed problem on any mesh, small or large, is solved.", "quantifier": "every list of dofs (any length, order and repetitions), every mesh, refinement history, element, set of hanging and Dirichlet dofs", "why_tests_cant": "the order of a set depends on all elements and on the order of insertion; a test sees one set, and the failures occur only when the free dofs are a small part of all", "anchors": ["src/assembler.py:AssembledForm.consolidate", "src/assembler.py:Assembler.assemble", "src/assembler.py:Assembler.solve"]}
{"id": "C83", "title": "A coarsened mesh is the mesh that was never refined there", "statement": "After any history of splitting cells, deleting the children of cells (coarsen without a submesh flag) and marking on a quadrilateral mesh: a cell without children can always be split, also if it had children before; deleting removes exactly the descendants; and the mesh behaves like a mesh reached by splitting alone: it has the same cells, children, marks and half-edges, the vertices of every cell have the same coordinates, get_neighbors returns the same cells, is_balanced says whether the 2:1 rule holds, and a new DofHandler distributes the same dofs and finds the same hanging nodes.", "quantifier": "every initial mesh, history of splits, deletions and marks, cell and half-edge", "why_tests_cant": "histories are unbounded and the failures need a particular earlier refinement that no longer exists", "anchors": ["src/mesh.py:Forest.coarsen", "src/mesh.py:Tree.delete_children", "src/mesh.py:QuadCell.split", "src/mesh.py:Cell.get_neighbors", "src/mesh.py:QuadMesh.is_balanced", "src/fem.py:DofHandler.set_hanging_nodes"]}
{"id": "C84", "title": "Refining the mesh or raising the degree never makes the solution worse", "statement": "If -div(k grad u) = f with polynomial k > 0 and f and the same boundary values g is solved on a mesh of parallelograms and on a finer mesh (refined further in any way, or a larger submesh) with elements of at least the same degree, and g is on every boundary side of the initial mesh a polynomial of at most the degree of the coarser elements (for example zero), then the energy of what solve returns does not grow, and for every classical solution neither does the energy norm of the error; more precisely the squared error on the coarser mesh is that on the finer mesh plus the squared energy distance of the two computed functions.", "quantifier": "every mesh of parallelograms, every pair of refinement histories or (rooted) submeshes with one finer than the other, both with hanging nodes, every pair of elements Q1-Q3, coefficient, load, boundary values, smooth solution", "why_tests_cant": "quantifies over all refinements and all solutions; a test sees a few sequences of meshes", "anchors": ["src/assembler.py:Assembler.solve", "src/assembler.py:Assembler.assemble", "src/fem.py:DofHandler.set_hanging_nodes", "src/mesh.py:Forest.refine", "src/fem.py:QuadFE"]}
{"id": "C85", "title": "Triangular elements are Lagrange elements", "statement": "TriFE(dim, type) constructs the documented elements P1, P2, P3 on intervals and P1, P2, P3, Bubble on triangles: there is one basis function for every reference node, phi(n, x) is one at node n and zero at the others, every polynomial of the element's degree is the combination of the basis functions with its node values, and dphi is the partial derivative of phi at every point.", "quantifier": "every documented element, basis function, point, variable and polynomial", "why_tests_cant": "values at all points and all polynomials; the class has no tests at all", "anchors": ["src/fem.py:TriFE", "src/fem.py:Element"]}
{"id": "C86", "title": "What is assembled adds up", "statement": "Assembling one problem with hanging-node constraints and no Dirichlet values, for any forms over cells and edges: the entries of the assembled load vector of the integral of k v add up to the assembled constant form of k; row by row, the assembled matrix of k (Dv) u adds up to the load vector of k (Dv), and to zero if the trial function is differentiated, so that constants are in its kernel; all entries of the matrix of k v u add up to the assembled constant. On every refined mesh of convex quadrilaterals with hanging nodes, load vector and mass matrix of a polynomial k within the order of the rule add up to the integral of k over the domain, and to its area for k = 1.", "quantifier": "every mesh, refinement with hanging nodes, element, numbering, kernel and list of forms", "why_tests_cant": "a conservation statement over all meshes, all forms and all kernels; tests add up one matrix on one mesh", "anchors": ["src/assembler.py:Assembler.assemble", "src/assembler.py:AssembledForm.distribute", "src/assembler.py:Form.eval", "src/fem.py:DofHandler.set_hanging_nodes"]}
{"id": "C87", "title": "Every sample is treated as if it were alone", "statement": "A problem whose kernels and Dirichlet values have one or n samples can be assembled whenever the sample sizes agree, and sample j of the matrix, vector, scalar and Dirichlet correction is what the deterministic problem with sample j of every function gives; solve(i_matrix=i, i_vector=j) is the solution of the deterministic problem with these samples, including its boundary values.", "quantifier": "every list of forms, sample sizes, sample, mesh, hanging nodes, Dirichlet values", "why_tests_cant": "all combinations of sample sizes, meshes and forms; tests sample one form at a time", "anchors": ["src/assembler.py:AssembledForm.add_form", "src/assembler.py:AssembledForm.update_cellwise", "src/assembler.py:AssembledForm.consolidate", "src/assembler.py:Assembler.solve", "src/assembler.py:Assembler.get_matrix", "src/assembler.py:Kernel.set_sample_size"]}
{"id": "C88", "title": "Neumann, Robin and mixed boundary conditions are solved exactly for polynomial solutions", "statement": "On every connected mesh of convex quadrilaterals, refined in any way and with hanging nodes, for -div(k grad u) = f with Dirichlet values at a non-empty set of boundary nodes and boundary forms for k du/dn + a u = h (a >= 0, several forms with their own flags) on the other boundary sides: if a polynomial p of the degree of the element satisfies all of this and the quadrature is exact enough, solve succeeds exactly if some node neither hangs nor has a Dirichlet value, the answer is unique, and it is p at every point of every cell; the assembled matrix is always invertible. The flags of the boundary forms are read from the half-edges, the Dirichlet flag from the vertices.", "quantifier": "every connected mesh, refinement with hanging nodes, (rooted) submesh, element Q1-Q3, polynomial coefficients, list of boundary forms and flags, set of Dirichlet nodes", "why_tests_cant": "all meshes, all splittings of the boundary and all polynomials; Green's formula has to hold through hanging nodes and cells that are not rectangles; tests use one side of one rectangle", "anchors": ["src/assembler.py:Form.eval", "src/assembler.py:Assembler.assemble", "src/assembler.py:Assembler.add_dirichlet", "src/assembler.py:Assembler.solve", "src/mesh.py:HalfEdge.is_marked", "src/fem.py:DofHandler.set_hanging_nodes"]}
{"id": "C89", "title": "An elliptic Gaussian field has the precision matrix of its stochastic differential equation", "statement": "EllipticField(dofhandler, gamma, kappa, tau) constructs the Gaussian field that solves the discrete equation (kappa^2 - div(T grad))^{gamma/2} X = W for white noise W, for every positive integer gamma, every positive kappa and every positive semidefinite tensor T, on every mesh and for every element: the matrix of the operator is symmetric positive definite, the lumped mass is positive, the factor computed belongs to the unique precision matrix of the exponent gamma.", "quantifier": "every mesh of convex quadrilaterals with any refinement, element, coefficient functions, exponent gamma", "why_tests_cant": "all meshes, coefficients and exponents; the loop over the exponent is right or wrong for all of them at once; the class has no test", "anchors": ["src/gmrf.py:EllipticField.__init__", "src/gmrf.py:GaussianField.__init__", "src/assembler.py:Assembler.assemble", "src/assembler.py:Form.__init__"]}
{"id": "C90", "title": "Mapped quadrature rules and unit normals satisfy Gauss' theorem", "statement": "GaussRule.mapped_rule accepts a region exactly if the dimension of the rule fits it; on a half-edge the points lie on it and the weights are positive and add up to its length. HalfEdge.unit_normal is the vector of length one orthogonal to the half-edge and pointing to its right: opposite for the reversed half-edge and for the half-edge of the neighbouring cell, the same for all parts of the half-edge, and pointing out of every convex cell listed counter-clockwise. Together: for every polynomial vector field within the order of the rules, the flux through the sides of a cell computed with edge rules and normals is the integral of the divergence computed with the cell rule, and on every refined mesh, with or without hanging nodes, the flux through the half-edges on the boundary is the sum over the leaves.", "quantifier": "every convex cell, half-edge, mesh, refinement, rule up to five points per direction and polynomial field", "why_tests_cant": "all cells, meshes and fields; a wrong sign or a wrong length is only visible where the shape of the cell shows it", "anchors": ["src/assembler.py:GaussRule.mapped_rule", "src/mesh.py:HalfEdge.unit_normal", "src/mesh.py:HalfEdge.reference_map", "src/mesh.py:QuadCell.reference_map", "src/mesh.py:Cell.get_neighbors"]}
{"id": "C91", "title": "An assembler keeps several problems apart and assembles what its history says", "statement": "Assembler(problems, mesh) accepts a form, a list of forms (one problem) or a list of problems, and leaves the caller's list alone. Assembling several problems at once gives every problem exactly what it would get by itself, with its own Dirichlet values and hanging nodes. After any sequence of add_dirichlet, add_hanging_nodes and assemble(region_flag, keep_cellwise_data) calls, get_matrix, get_vector, get_scalar and the Dirichlet correction describe the problem as it stands, so that calling assemble again changes nothing, and solve returns the solution for the constraints in force; assembling region by region gives the sum.", "quantifier": "every list of problems, every sequence of calls on one assembler, cells, local matrices, constraints", "why_tests_cant": "histories are unbounded and problems share one cell loop; tests call assemble once", "anchors": ["src/assembler.py:Assembler.__init__", "src/assembler.py:Assembler.assemble", "src/assembler.py:Assembler.add_dirichlet", "src/assembler.py:Assembler.add_hanging_nodes", "src/assembler.py:AssembledForm.distribute", "src/assembler.py:AssembledForm.consolidate", "src/assembler.py:Assembler.solve", "src/assembler.py:Assembler.get_matrix"]}
{"id": "C92", "title": "An interrupted operation can be repeated", "statement": "If a call of Forest.root_subtrees, Forest.refine, QuadCell.split, Mesh2D balance or Assembler.assemble is left by an exception (an interrupt, lack of memory, an error in a user's function) at any point, the data structures stay consistent and the same call again gives the result an undisturbed call would have given: the same nodes and marks, the same balanced mesh, the same matrix and vector. This also holds after any number of interruptions.", "quantifier": "every forest, mesh and assembler state, arguments, crash point, number of interruptions", "why_tests_cant": "crash points are everywhere; tests only run calls that end", "anchors": ["src/mesh.py:Forest.root_subtrees", "src/mesh.py:Forest.refine", "src/mesh.py:Tree.split", "src/mesh.py:QuadCell.split", "src/mesh.py:HalfEdge.split", "src/mesh.py:QuadMesh.balance", "src/assembler.py:Assembler.assemble"]}
{"id": "C93", "title": "Points are located in the smallest cell", "statement": "mesh.locate_point(point, flag) returns a cell of the mesh that contains the point (and carries the flag, if one is given), namely a smallest one, and None exactly when no (flagged) cell contains the point; it agrees with bin_points: the bin of the point lies below the cell returned, and bin_points fails exactly where None is returned.", "quantifier": "every mesh of convex quadrilaterals, history of splitting, coarsening and marking, point, flag, tolerance", "why_tests_cant": "meshes, histories and points are unbounded; tests locate a few points on an unrefined mesh", "anchors": ["src/mesh.py:Mesh2D.locate_point", "src/mesh.py:Cell.contains_points", "src/mesh.py:QuadMesh.bin_points"]}
{"id": "C94", "title": "Flags of vertices obey set laws", "statement": "After any sequence of mark and unmark calls on a Vertex (or a Markable object), is_marked(flag) says whether the last call that concerned this flag set it, and is_marked() whether any flag is left; flags do not influence each other.", "quantifier": "every sequence of calls and every flag", "why_tests_cant": "sequences of calls are unbounded", "anchors": ["src/mesh.py:Vertex.mark", "src/mesh.py:Vertex.unmark", "src/mesh.py:Vertex.is_marked", "src/mesh.py:Markable"]}
{"id": "C95", "title": "Constant functions are constant, and a function knows its domain", "statement": "Constant(data, n_variables) accepts a number or a one-dimensional array and evaluates, at any points in any documented format and for any number of variables, to the given value in each sample; a wrong number of arguments or arguments with different numbers of points are rejected. A function constructed with a mesh, dofhandler, basis or subforest flag returns this mesh, dofhandler and flag.", "quantifier": "all data, points, formats, numbers of variables, combinations of constructor arguments", "why_tests_cant": "the space of inputs is infinite; constant functions are the default kernels of all forms", "anchors": ["src/function.py:Constant", "src/function.py:Map.__init__", "src/function.py:Map.parse_x", "src/function.py:Map.mesh", "src/function.py:Map.subforest_flag"]}
{"id": "C96", "title": "Nodal functions keep their data", "statement": "After any history of creating Nodal functions from data, set_data, modify_data, add_samples and data calls and of the user's own writes to arrays, each function has exactly the samples and nodal values it was given: modify_data changes the given dofs of one sample and nothing else, add_samples leaves the old samples alone, functions and arrays do not influence each other, calls that are rejected change nothing, and a kernel made from functions knows their number of samples.", "quantifier": "every basis, history of calls and of writes to arrays, on functions with any number of samples", "why_tests_cant": "histories are unbounded and arrays are shared; tests make one call and look at one function", "anchors": ["src/function.py:Nodal.set_data", "src/function.py:Nodal.modify_data", "src/function.py:Nodal.add_samples", "src/function.py:Nodal.data", "src/assembler.py:Kernel.set_sample_size"]}
{"id": "C97", "title": "Queries about children agree", "statement": "For every node: has_children(flag=f) holds iff has_children(position, f) holds for some position, and iff get_children(f) yields something; get_children yields exactly the (flagged) children, each once, in order of position, and reversed in the opposite order; has_children(position) says whether get_child(position) is a node rather than None, and one of the two calls rejects a position iff the other does, also for positions counted from the end.", "quantifier": "every node with any number of slots, every flag assignment, every integer position", "why_tests_cant": "the numbers of slots and patterns of missing children are unbounded; tests look at full nodes", "anchors": ["src/mesh.py:Tree.has_children", "src/mesh.py:Tree.get_child", "src/mesh.py:Tree.get_children"]}
{"id": "C98", "title": "Linear elements obey the maximum principle", "statement": "On a one-dimensional mesh, -(k u')' = f solved with linear elements, a positive coefficient k and a Dirichlet value at one end at least: if load, Dirichlet values and fluxes of one problem are at least those of another, the answer of solve is nowhere below the answer for the other. If no load or flux is negative, no value of the answer is below the smaller Dirichlet value; if none is positive, no value is above the larger one. Changing the Dirichlet values by at most epsilon changes the answer by at most epsilon everywhere. (For cubic elements this fails.)", "quantifier": "every increasing list of points, every history of refinement and dof distribution, every submesh, every quadrature rule, every positive coefficient, every load and fluxes, all Dirichlet values, every point of every leaf", "why_tests_cant": "meshes and data are infinite in number; a test compares two computed answers at a few points", "anchors": ["src/assembler.py:Assembler.assemble", "src/assembler.py:Assembler.add_dirichlet", "src/assembler.py:Form.eval", "src/assembler.py:Assembler.solve", "src/fem.py:QuadFE", "src/mesh.py:Mesh1D"]}
{"id": "C99", "title": "Irregular trees grow and shrink consistently", "statement": "On a Tree(regular=False), after any history of add_child, split(n), delete_children, delete_children(position), remove, mark and unmark calls, successful or not: the address of every node is the root's address followed by the child positions that lead to it, its depth their number, so no two nodes share an address; the address of a deleted node is never given to another one; without remove, a node other than the root is a BRANCH iff it has a child and a LEAF otherwise. add_child appends one leaf and split(n) makes n leaves, in order; a call on a node changes no node outside its subtree; a node without children can be split.", "quantifier": "every root position and every history of calls on any nodes", "why_tests_cant": "histories are unbounded; tests split one node", "anchors": ["src/mesh.py:Tree.__init__", "src/mesh.py:Tree.add_child", "src/mesh.py:Tree.split", "src/mesh.py:Tree.delete_children", "src/mesh.py:Tree.remove"]}
{"id": "C100", "title": "A problem's number of samples can be asked for", "statement": "assembler.n_samples(i, type) is the number of samples of the assembled form of that type of problem i, None if the problem has no form of that type; it does not depend on the order in which the forms of the problem are listed, on forms of other types or on other problems, and never raises for a problem the constructor accepted.", "quantifier": "every list of forms, of any types, with kernels of any numbers of samples, in any order", "why_tests_cant": "lists of forms and sample sizes are unbounded; the order of forms is one of many", "anchors": ["src/assembler.py:Assembler.n_samples", "src/assembler.py:AssembledForm.add_form"]}
{"id": "C101", "title": "Bilinear elements obey the maximum principle", "statement": "On a two-dimensional mesh of rectangles (in any position, the longer side at most sqrt 2 times the shorter one) on which no cell has a refined neighbour, -c Laplace(u) = f solved with bilinear elements, c a positive constant, Dirichlet values at all boundary nodes: if load and Dirichlet values of one problem are at least those of another, the answer of solve is nowhere below the answer for the other. If the load is nowhere negative, no value of the answer is below the smallest Dirichlet value; if it is nowhere positive, no value is above the largest one. Changing the Dirichlet values by at most epsilon changes the answer by at most epsilon everywhere. (On rectangles of sides 2 and 1 this fails.)", "quantifier": "every such initial mesh, every history of refinement that ends without hanging nodes, every submesh that covers the domain, every tensor Gauss rule of order at least two, every load, all Dirichlet values, every point of every leaf", "why_tests_cant": "meshes and data are infinite in number; a test compares two computed answers at a few points", "anchors": ["src/assembler.py:Assembler.assemble", "src/assembler.py:Assembler.add_dirichlet", "src/assembler.py:Form.eval", "src/assembler.py:Assembler.solve", "src/fem.py:DofHandler.set_hanging_nodes", "src/fem.py:QuadFE"]}
{"id": "C102", "title": "Superposition: the answer is linear in the data, and depends on nothing but the problem and the leaves", "statement": "For -div(k grad u) = f with k positive and Dirichlet values g at the boundary nodes, solved with elements of degree 1 to 3 and a sufficient Gauss rule: if f3 = a f1 + b f2 and g3 = a g1 + b g2 on the domain, the answer of solve for (f3, g3) is a times the answer for (f1, g1) plus b times the answer for (f2, g2) at every point of every cell, hanging nodes included, even if the three runs use mesh objects whose leaves came about in a different order, different dof numberings, different kernels with the same values on the domain, and different solver options. In particular two runs for the same problem on meshes with the same leaves agree everywhere, data outside the domain do not matter, and multiplying k and f by the same positive number changes nothing.", "quantifier": "every initial mesh of convex quadrilaterals, every history of refinement and numbering, every submesh that covers the domain, all loads, coefficients and Dirichlet values, every point of every leaf", "why_tests_cant": "meshes, histories and data are infinite in number; a test compares a few pairs of runs", "anchors": ["src/assembler.py:Assembler.assemble", "src/assembler.py:Assembler.solve", "src/assembler.py:Assembler.add_dirichlet", "src/fem.py:DofHandler.distribute_dofs", "src/fem.py:DofHandler.set_hanging_nodes", "src/mesh.py:QuadMesh.refine", "src/function.py:Function.eval"]}
{"id": "C103", "title": "The answer moves with the mesh", "statement": "Let the coordinates of the initial mesh be rotated, scaled by a positive factor and translated, with coefficient and Dirichlet values moved along and the load divided by the square of the factor. Then every cell of the refined moved mesh is the image of the cell with the same address, and the answer of solve on it has at the image of each point the value the original answer has at the point. In particular cells that are axis-parallel rectangles and take the simplified path of the shape functions give the same answer as their rotated copies, which do not.", "quantifier": "every initial mesh of convex quadrilaterals, every rotation, scaling and translation, every history of refinement and numbering on both sides, elements of degree 1 to 3, all positive coefficients, loads and Dirichlet values, every point of every leaf", "why_tests_cant": "meshes, motions and data are infinite in number; a test moves a few meshes", "anchors": ["src/assembler.py:Assembler.assemble", "src/assembler.py:Assembler.solve", "src/fem.py:QuadFE.shape", "src/mesh.py:QuadCell.reference_map", "src/mesh.py:QuadCell.split", "src/assembler.py:Form.eval"]}
{"id": "C104", "title": "Finite element functions as coefficients of forms", "statement": "If the kernel of a form contains finite element functions (Nodal) besides maps, then on every cell of the mesh every entry of the local matrix or vector, for every sample, is the one of the form whose kernel contains, in place of each Nodal, the function it represents: at each quadrature point its value, or the derivative of its basis or the derivative requested with Kernel(f, derivatives=...), in physical coordinates. This holds for functions of any element on the same mesh, also on a coarser submesh, and with functions of different numbers of samples, where deterministic ones are repeated; incompatible numbers raise an error.", "quantifier": "every mesh of convex quadrilaterals, every history of refinement and numbering, every element for function, test and trial, all data, any number of functions in a kernel and any way to combine them, every Gauss rule, every cell, entry and sample", "why_tests_cant": "meshes, numberings and data are infinite in number; a test evaluates a few forms", "anchors": ["src/function.py:Nodal.eval", "src/assembler.py:Kernel.eval", "src/assembler.py:Kernel.set_sample_size", "src/assembler.py:Form.eval", "src/assembler.py:Assembler.shape_eval", "src/fem.py:Basis.dofs", "src/mesh.py:Tree.nearest_ancestor"]}
{"id": "C105", "title": "Basis.eval", "statement": "basis.eval(x, cell) returns at every point of the reference cell the values of the shape functions of the element, for every element and every cell, and rejects points outside of the reference cell. With location='physical' and a point of the cell it returns the values at the reference coordinates of the point. For a basis with a derivative it returns the derivative of the shape functions of the cell.", "quantifier": "every mesh of convex quadrilaterals, every element, derivative, cell and point", "why_tests_cant": "the points and cells are infinite in number; a test evaluates a few, and on the unit square physical and reference coordinates agree", "anchors": ["src/fem.py:Basis.eval", "src/fem.py:QuadFE.shape", "src/mesh.py:QuadCell.reference_map", "src/mesh.py:Tree.nearest_ancestor"]}
{"id": "C106", "title": "Problems with finite element coefficients", "statement": "For -div(k grad u) = f with Dirichlet values, where the kernels of k and f contain finite element functions (Nodal) on the same mesh, or their derivatives, besides maps: the assembled entries of the matrix and of the load are the ones of the problem whose kernels contain the functions themselves, so a list is an answer of solve for the one problem iff it is for the other. If k is positive on the domain, then for every load solve returns exactly one answer, provided not all dofs are given or hanging.", "quantifier": "every mesh of convex quadrilaterals, every history of refinement and numbering, every element for the functions and for the solution, all data, any number of functions in a kernel and any way to combine them, every Gauss rule of sufficient order, every sample", "why_tests_cant": "meshes, numberings and data are infinite in number; a test solves a few problems", "anchors": ["src/function.py:Nodal.eval", "src/assembler.py:Kernel.eval", "src/assembler.py:Form.eval", "src/assembler.py:Assembler.assemble", "src/assembler.py:Assembler.solve", "src/assembler.py:Assembler.shape_eval"]}
{"id": "C107", "title": "Assembled matrices and vectors evaluate forms", "statement": "For finite element functions v and u of the space (with values at the dofs that satisfy the hanging node constraints), the assembled matrix A of a bilinear problem without Dirichlet values gives v^T A u = the assembled constant form of the same problem whose kernels are multiplied by v and u, or by the derivatives that test and trial function carry; the assembled vector b of a linear problem gives v^T b = the assembled constant form with kernels multiplied by v. In particular v^T M v is the integral of v squared that the assembler itself computes.", "quantifier": "every mesh of convex quadrilaterals, every history of refinement and numbering, hanging nodes included, every element, all data, every sum of forms with kernels of any functions, maps or finite element functions, and derivatives up to the second, every Gauss rule, every sample", "why_tests_cant": "meshes, data and kernels are infinite in number; a test compares a few integrals", "anchors": ["src/assembler.py:Assembler.assemble", "src/assembler.py:Form.eval", "src/assembler.py:Kernel.eval", "src/function.py:Nodal.eval", "src/assembler.py:AssembledForm.distribute", "src/assembler.py:AssembledForm.consolidate"]}
