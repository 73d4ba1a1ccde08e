# DESIGN

Formal model (Lean 4.33, Mathlib) of hvanwyk/quadmesh (`/repo/src/*.py`), read as text.

## Trusted base
* Lean's kernel; axioms at most `propext`, `Classical.choice`, `Quot.sound` (no own axioms, no compiled evaluation).
* The reading of the Python code: every model definition cites the file and lines it models and says where it simplifies.
* Floating point is replaced by exact arithmetic over a field (`ℚ`, `ℝ` or an arbitrary (ordered) field);
  rounding is not modelled.  Tolerances in the code are kept as explicit parameters or numbers.
* External numerics are parameters, with their documented contract as hypothesis:
  `numpy.linalg.solve`, `spsolve`, `splu` (the exact solution, when it exists), `eigh` (orthonormal, or M-orthonormal,
  eigenvectors), `cholesky` and CHOLMOD (triangular factor, permutation), `scipy.linalg.ldl` (block factorization with
  permutation), `solve_triangular`, `gamma`, and the modified Bessel function (its integral, DLMF 10.32.10).
* Python sets: wherever the code iterates over a set, pops from it or makes a list of it, the model takes the order as a
  parameter, and theorems hold for every order unless they say otherwise.  C82 is about the order CPython (3.7 to 3.13) gives to
  sets of integers; `Verif/PySet/Model.lean` is a model of `Objects/setobject.c`, written from memory of that file, which is
  not in /repo.
* Not modelled: plotting, diagnostics, gmsh input, docstrings/`info`, performance, random number generation (the drawn numbers
  are arguments).

## What is modelled
| directory | code | remarks |
|-----------|------|---------|
| `Forest` | mesh.py `Tree`, `Forest` (47-1750): traversal, marking, refine, coarsen, rooting, addresses, containment, depth, plant/remove | rose trees with optional children; flags as sets; histories of operations |
| `OneD` | mesh.py `Interval`, `Mesh1D`: split, neighbours, reference map, bin_points, locate | ordered field |
| `Geom`, `Quad` | mesh.py `Vertex`, `HalfEdge`, `QuadCell` geometry: area, split, contains_points, intersections, reference_map with Jacobians and Hessians, subcell_position, bin_points | ordered field; the branch for rectangles and the branch for general quadrilaterals are both modelled |
| `Dcel` | mesh.py `DCEL`: rectangular grids, connectivity, neighbours, boundary, make_periodic (inner loop; the whole function in `Per/MakePer`) | tables as lists; gmsh input not modelled |
| `Mesh` | mesh.py `HalfEdge.split`, `QuadCell.split`, `Cell.get_neighbors`, `QuadMesh.balance/is_balanced/remove_supports` | heap of half-edges with twin, cell and child pointers; vertices and half-edges are named by how they arose; the initial mesh is given by its twin table (`Base`) |
| `Fem` | fem.py `QuadFE` (all of DQ0-DQ3, Q1-Q3 in 1D and 2D): nodes, phi, dphi, d2phi, shape, constraint coefficients, parse_derivative_info | the Qk tables as polynomials over a field |
| `Dof` | mesh.py `RVertex`, `RHalfEdge`, `RQuadCell`; fem.py `DofHandler.distribute_dofs` with all helpers, `fill_dofs`, `share_dofs_with_children/neighbors`, `get_cell_dofs`, `set_hanging_nodes`, `get_hanging_nodes`, `has_hanging_nodes`, `clear_dofs`, and the constraints shared by linear systems (`Dof/Cache`) | two-dimensional meshes without periodic edges; the reference cells are built as in the code and evaluated by the kernel |
| `Phys` | mesh.py coordinates of new vertices in `HalfEdge.split`/`QuadCell.split`; `Mesh2D.__init__` from the DCEL tables, rectangular `QuadMesh`; fem.py `set_dof_vertices`, `get_dof_vertices` | `np.allclose` is an arbitrary relation |
| `Bnd` | mesh.py `get_boundary_segments`, `get_boundary_vertices` | half-edges of the initial mesh are numbered; deques are identified by content (all are different) |
| `Reg` | mesh.py `Mesh2D.mark_region`, `get_region`; fem.py `get_cell_dofs` with entities, `get_region_dofs` | flags of entities are a function `Ent -> Bool`, different from the subforest flag |
| `Dir` | solver.py `LinearSystem.add_dirichlet_constraint`; assembler.py `Assembler.add_dirichlet`, `add_hanging_nodes` | dictionaries as association lists; the dofs of the region in some order; a number `g` is a constant function; `Nodal` conditions not modelled |
| `Fn` | function.py `Nodal.eval` (one variable, without `cell`), `Nodal.set_data`, `Nodal.differentiate`, `Map.interpolant`; fem.py `Basis.__init__`, `Basis.d2i`; mesh.py `QuadCell.bin_points`, `Mesh2D.bin_points`, `QuadCell.reference_map` to the reference cell | exact arithmetic, the tolerance of `contains_points` is a parameter; the order of the dofs (a Python set) is a parameter; `is_rectangle` of the initial cells is a parameter; exceptions are `none` |
| `Gal` | the pipeline: assembler.py `assemble` (2363-2411) for `k ∇φ·∇φ` and `f φ` on the leaves of a mesh of `Mesh`/`Phys` with the dofs of `Dof`, the constraints of `Dir`, the solvers of `Asm`/`Linsys` | composition of the other models; no code of its own except the list of cells and linear forms |
| `Line` | fem.py `distribute_dofs`, `fill_dofs`, `share_dofs_with_neighbors`, `share_dofs_with_children`, `assign_dofs` (1178-1640) on interval meshes; mesh.py `Interval.get_neighbor` level-wise (2786-2846), `RInterval` (4565-4822) and periodic pairs of `Mesh1D` (6623-6648); `V*`: fem.py `set_dof_vertices`, `get_dof_vertices`, `get_region_dofs` (1998-2300), mesh.py `Mesh1D.get_region`, `mark_region` for vertices, `get_boundary_cells`, `get_boundary_vertices` (6720-6990), depth-first traversal and leaves, assembler.py `add_dirichlet`, solver.py `add_dirichlet_constraint` in one dimension | cells are named by paths; a vertex is the end of the cells next to it; coarsening after the creation of the dof handler is not modelled; coordinates in an ordered field; `V*`: a `Vertex` object is named by the cell whose midpoint it is; `np.allclose` is an arbitrary relation |
| `Bvp` | assembler.py 1177-1406, 2340-2440, 3330-3535 on interval meshes (forms `dx` and `dv`), composed with `Line`, `Form`, `Asm`; mesh.py `refine` 1651-1723 without flags on trees of intervals | exact reals instead of floats; one problem with one bilinear form and two linear forms; the sparse solver is the one of `Asm` |
| `Arr` | mesh.py `convert_to_array` (13-150); function.py `Map.parse_x` (219-258), `Explicit` (1346-1580) | arrays as shape and entries; Python lists of `Explicit` on a heap, with identity |
| `Intg` | assembler.py `IIForm` (1468-1586), `IPForm` (1588-1738), the cell loop of `assemble` for them (2363-2480), composed with `Asm`; on interval meshes with `Line`/`Bvp` | what `shape_eval` returns for a region (nodes, weights, shape functions) is given, on interval meshes computed; `Covariance.assemble` calls these forms with a symmetric kernel |
| `Per` | mesh.py `DCEL.make_periodic` in two dimensions (6422-6542), `Vertex.set_periodic_pair`, `get_periodic_pair` (1898-1990), `HalfEdge.pair_periodic_vertices` (2117-2144), its calls in `QuadCell.split` and `Mesh2D.__init__`, `Cell.get_neighbors(vertex)` (3481-3551); fem.py `distribute_dofs`, `fill_dofs` with own neighbours, `share_dofs_with_neighbors` (1221-1525) on periodic meshes | the iteration order of Python sets is arbitrary (a relation); `np.isclose` is any relation that tells grid lines apart; the `while True` walks have a bound that is proved not to be reached |
| `PySet` | CPython's `set` of integers (`set_add_entry`, `set_table_resize`, `set_insert_clean`, iteration), as used in assembler.py `consolidate` (4349-4364) | composed with `Asm`, `Gal`, `Line`, `Bvp`; machine words do not overflow |
| `Coarse` | mesh.py `delete_children` (772-792) and `QuadCell.split` (3664-3733) of cells that had children before, `get_neighbors`, `is_balanced`, `balance` on such meshes | extends `Mesh`: half-edges of deleted cells stay, names are used again when a cell is split again |
| `Tri` | fem.py `TriFE` (715-843) | the tables of `phi`/`dphi` as written, as functions on points; the constructor's failing call of the parent |
| `Sum` | assembler.py `assemble` (2363-2495), terms with any derivatives and measures | on top of `Form`, `Asm`, `Gal`; Dirichlet values absent |
| `Samp` | assembler.py `Assembler.n_samples` (3096-3138), `AssembledForm` (3907-4428), `get_matrix`/`get_vector`/`get_scalar`/`assembled_bnd` (2978-3093), `solve` (3711-3776) with several samples | arrays as lists; ragged `np.array` raises (NumPy 1.24 and later; before, the slices that follow raise); `spsolve` by contract |
| `Neu` | assembler.py boundary forms `dmu='ds'` with flags (984-1220) next to volume forms, `add_dirichlet` on a part of the boundary (3577-3640) | on top of `Form`, `Asm`, `Gal`; marks of half-edges as a function `mk flag entity` (see `Reg`) |
| `Ell` | gmrf.py `EllipticField.__init__` (2139-2294): forms, matrices, lumped mass, loop over the exponent, call of the base class | two dimensional meshes, no constraints, one sample; CHOLMOD is represented by its contract (factors are factors, positive definite matrices have one), the missing import by `none` |
| `Nrm` | assembler.py `GaussRule.mapped_rule` (666-764), mesh.py `HalfEdge.unit_normal` (2350-2359) | the derivatives of the inverse map (`jac_p2r`, `hess_p2r`) are left out here (C21, C49); `nan` for an edge of length zero is `none` |
| `Hist` | assembler.py `Assembler.__init__` (2062-2167, parsing of `problems`, initial state), `assemble` (2313-2509) for all problems and dimensions, `add_dirichlet`/`add_hanging_nodes` (3538-3670) once dofs and values are known, `get_matrix`/`get_vector`/`get_scalar` (2978-3093), `solve` (3711-3776), on top of `Asm` | what a form gives on a cell is an input of each call; `check_problem` only as far as it needs forms; a history ends with the first exception; python aliasing of the caller's list after construction is left out |
| `Crash` | the states in which an exception can leave mesh.py `root_subtrees` (1243-1273), `refine` (1651-1723), `balance` (7822-7891) and assembler.py `assemble` (2313-2509) | on top of `Forest`, `Mesh`, `Hist`; crash points between two changes of the data; `Crash/Split` adds the crash points inside `QuadCell.split` (3664-3716) and `HalfEdge.split` (2279-2330) for one cell; not modelled: crash points inside the constructor of the first child, the pairing of periodic vertices, `distribute`, `consolidate`; `balance` interrupted inside `split` and repeated as a whole |
| `Forest/Children` | mesh.py `Tree.has_children` (645-692), `get_child` (696-702), `get_children` (705-740) for any integer position | slots are a list; an index outside the list is `IndexError` |
| `Forest/Irregular` | mesh.py `Tree.__init__` with `regular=False` (245-349), `add_child` (758-769), `split` (794-819), `delete_children` (772-792), `remove` (750-755) | as `Forest`; histories of calls, exceptions included |
| `Max` | nothing new: `Bvp` (C72) with linear elements | as `Bvp` |
| `Max2` | nothing new: `Gal` (C69) with bilinear elements; `Conforming` is a specification (no refined neighbour) | as `Gal` |
| `Super` | nothing new: `Gal` (C69) for several runs; `Answer` bundles the computation, `SameLeaves` compares meshes | as `Gal` |
| `Motion` | nothing new: `Super` for two initial meshes with the same connectivity; `Sim` (rotation, scaling, translation) and `moved` are specifications | as `Gal` |
| `Coef` | (`Model`, `Props`, `BasisEval`, `Assemble`, `Measure`) function.py `Nodal.eval` with shape functions and dofs given (1835-1926, one variable), assembler.py `Kernel` with `derivatives` and `Kernel.eval` (770-993), `shape_info`/`shape_eval` for the bases of the kernel's functions (3148-3178, 3330-3535), `Form.eval` on cells (1246-1400), fem.py `Basis.dofs` (1065-1088), mesh.py `nearest_ancestor` (975-989); fem.py `Basis.eval` (1120-1176) | cell forms (`dx`) without flag; functions of one variable; the mesh of the function is the mesh of the form; numpy shapes are dropped |
| `Quad/Locate`, `Forest/VertexFlags` | mesh.py `Mesh2D.locate_point` (7127-7147), `Vertex` flags (1832-1881), `Markable` (152-188) | first root cell that is flagged and contains the point; flag sets as in `Forest` |
| `Arr/Constant` | function.py `Constant` (2374-2462), `Map.__init__`, `mesh`, `dofhandler`, `subforest_flag` (15-211) | on top of `Arr` (`parse_x`); a function's domain is what its accessors return |
| `Store` | function.py `Nodal.set_data`, `data`, `modify_data`, `add_samples`, `n_samples` (1587-1776); assembler.py `Kernel.set_sample_size` (857-884) | arrays have identities (heap of matrices as lists of columns), the user holds references; histories of function calls and of the user's own writes; one basis per history, one variable (`addShape` for two) |
| `Gauss` | assembler.py `GaussRule` (all orders), mapped rules on cells and edges | real square roots |
| `Form` | assembler.py `Kernel`, `Form.eval`, `Form.regions`, local forms on cells, edges, vertices; global positivity | one mesh cell at a time, then sums over cells |
| `Asm` | assembler.py `Assembler.assemble`, `AssembledForm.distribute/consolidate`, `hanging_node_matrix`, `solve` | |
| `Linsys` | solver.py `LinearSystem` | all public methods as state transitions |
| `Spd` | spd.py `EigenDecomposition`, `CholeskyDecomposition`, `modchol_ldlt`, `diagonal_pseudo_inverse` | |
| `Gmrf` | gmrf.py distances, covariance kernels, `Covariance`, `GaussianField` (sample, condition, KL) | |

## Findings
Where the code does not have the property, the negation is proved from a concrete witness that the model computes; such
theorems are named `..._violated` and are listed in MANIFEST.json under the property.  In addition, seen while reading and not
turned into theorems:
* assembler.py 540ff: `map_rule` with a basis cannot work; `quad_rules` expects three outputs of `mapped_rule`.
* assembler.py 2446-2480: double `IPForm` loop transposes a 3-D array for several samples.
* `Form` with a trial but no test basis raises.
* fem.py `shape`: the checks on `local_dofs` and on the variable of second derivatives are vacuous; orders above 2 give zeros.
* fem.py `get_cell_dofs(half_edge, interior=False)` starts at the wrong index for elements without vertex dofs (C65_DQ0_violated);
* assembler.py `add_dirichlet` asks for the dofs of vertices: with Q2/Q3 the dofs inside boundary sides stay free (C66_assembler_violated), and a flag of half-edges, as documented, has no effect (C66_marker_violated);
* function.py `Nodal.eval`: points within the tolerance of a cell, but outside, are put into this cell and the shape functions refuse them (C67_tolerance_violated);
* fem.py `Basis.__init__` takes `dofs[-1]` of `list(set)` for the largest dof: an exception if the set is iterated in another order, e.g. `{1, 8}` (C67_basis_order_violated);
* function.py `Nodal.differentiate` evaluates the discontinuous derivative at vertices shared by cells, in one of them only (C67_differentiate_violated), and fails on submeshes (C67_differentiate_submesh_violated);
* function.py `interpolant`: the values at hanging nodes are stored but not used by the coarser cell (C68_hanging_violated);
* assembler.py `consolidate` raises IndexError if all dofs are on the boundary or hanging (C69_no_inner_violated), and, with CPython's sets, on a 3×3 grid with bilinear elements and Dirichlet values: `list({2,5,8,10})` ends with 5 (C82_grid_violated);
* after `coarsen` on a `QuadMesh`, `get_neighbors` returns deleted cells, so `is_balanced` and `set_hanging_nodes` are wrong or raise (C83_neighbor_violated, C83_balanced_violated, C83_hanging_violated); the docstring (mesh.py 7730) says that half-edges are not deleted and advises submeshes;
* mesh.py `make_periodic` does not compare the numbers of half-edges in the second direction (C51_bottom_violated); `Cell.get_neighbors(vertex)` never returns on a mesh with one cell in a periodic direction and two in the other (C80_narrow_violated); fem.py `fill_dofs` on a one-cell torus removes interior dofs from a list while iterating over it and so lowers the dof count (C80_single_violated);
* fem.py `fill_dofs` on a periodic mesh with one cell subtracts its interior dofs from the dof count (C70_own_count_violated), and does not identify the ends if the cell has been refined (C70_periodic_refined_violated);
* fem.py `set_dof_vertices` returns early if the number of stored vertices is at least the number of leaf dofs, so in one dimension DQ0 dofs created after refinement, and dofs of a second submesh, get no vertex and `get_dof_vertices` raises `KeyError` (C71_complete_violated, C71_flags_violated); `Mesh1D.get_region(on_boundary=True)` raises on a periodic mesh, because `get_boundary_cells` returns `None` (C71_periodic_violated).
* assembler.py: a one-dimensional problem on one linear cell with Dirichlet values at both ends raises `IndexError` in `consolidate` (C72_no_inner_violated). (tests/test_solver/test_linear_system.py has its one-dimensional mixed problem commented out, "Sort out Neumann conditions"; the Assembler's `dmu='dv'` treatment of fluxes is proved right by C72.)
* gmrf.py `EllipticField`: `cholesky`/`cholesky_AAt` are not imported; `GaussianField.__init__` has no arguments `K`, `mode`; the loop starts one power too high (C89_*_violated).
* mesh.py `convert_to_array`: `type(xi) is numbers.Real` is never true, so lists of numbers raise (C74_numbers_violated); vectors of length one pass two branches (C74_single_violated);
* function.py `Explicit` stores the caller's lists and appends to them (C75_shared_violated); `set_rules(pos=...)` calls `n_sample`, which does not exist (C75_position_violated);
* assembler.py `IIForm.eval`/`IPForm.eval` return `None` on cells without the flag, which `update_cellwise` reshapes (C76_flag_violated); `IIForm` passes a flag as a list of dofs (C76_submesh_violated) and adds nothing after the first region (C76_regions_violated); the shortcut for symmetric kernels transposes although test and trial differ (C76_petrov_violated); samples (C76_samples_violated);
* gmrf.py 637, 2003, 2014-2015, 2037: the method 'collocation' reads `assembler.af`, which does not exist;
* fem.py `get_hanging_nodes` raises KeyError for intervals and discontinuous elements (C77_key_violated), is stale after refinement (C77_stale_violated); `DofHandler.constraints` is shared by all linear systems, so that boundary values of an earlier system are imposed on a later one (C77_boundary_violated, C77_submesh_violated); `has_hanging_nodes` (C77_has_violated);
* read, not modelled: bivariate `Nodal.set_data(f)` stores the transposed array;
  `get_hanging_nodes` raises KeyError for torn elements and one-dimensional meshes, and caches across refinements.
* mesh.py `get_boundary_segments`: a curve that closes is removed from the list (it finds itself), so that domains with holes lose
  boundary curves; removing unflagged half-edges while traversing skips the next one.
* fem.py `set_dof_vertices` uses `any(allclose)` where it should be its negation; `set_l2g_map` uses an unbound name when a
  subcell is met twice.
* gmrf.py: one-dimensional `e` broadcasts wrongly, `sample` with a support raises, `truncate` uses a missing API.
* mesh.py `Forest.get_children(reverse=True)` returns None; `Cell.get_neighbors(vertex)` ignores the flag after a full rotation;
  `tear_region` raises on boundary edges.

## Modelling plan per property
| id | model | proof |
|----|-------|-------|
| C01, C02 | `Verif/Forest/Model`: rose trees with optional children (`Tree`), queue/stack worklist loops as in the code | induction on total size of the worklist; specification = set of valid addresses, pre-order, depth order |
| C03, C04, C14 | the loops of `root_subtrees`, `subtrees_rooted`, `make_rooted_subtree`, `is_rooted_subtree` as folds over the visited addresses | closure invariant over the fold |
| C05, C06 | `refine`, `coarsen` function by function | induction over leaves list / over the tree; negation with witness where the code violates the claim |
| C07, C09-C12 | `mark`, `unmark`, `nearest_ancestor`, `contains`, `is_contained_in`, `tree_depth` | structural induction |
| C08, C13 | operations as an inductive `Op`, histories as lists | invariant induction |
| C15-C17 | interval trees over an ordered field | induction over the refinement |
| C18 | bin_points loops for intervals and quads | induction on tree |
| C19-C22 | quadrilaterals over an ordered field / reals | `ring`/`nlinarith`, induction over relative address |
| C23 | half-edge heap with twin pointers | invariant over split histories |
| C24-C26 | DCEL tables as lists/functions | arithmetic on indices, list induction |
| C27 | leaf sets of quadtrees with the balance worklist | invariant + measure |
| C28-C31 | polynomial tables of `fem.py` | `ring`/`field_simp`, finite basis tables and all points |
| C32, C33 | Gauss nodes/weights with real square roots | linearity + finite monomial check |
| C34 | dof tables of cells keyed by cell/entity | invariant over the distribution loop |
| C35, C36 | cellwise triplets, stack loop of `distribute` | refinement to linear-algebra spec |
| C37, C38 | constraint elimination of `solver.py` | matrix algebra over finite index types |
| C39-C41 | diagonal/orthogonal matrix algebra | `Matrix` lemmas |
| C42-C44 | scalar formulas over reals, matrix algebra for conditioning | inequalities, matrix algebra |
| C45 | string parser | case analysis over all strings |
| C46-C49 | interval neighbours, half-edge geometry | as C15, C19 |
| C50, C51 | merge loops of `get_boundary_half_edges`, pairing loop of `make_periodic` | loop invariants, witnesses |
| C52, C53 | half-edge heap with cells (`Mesh/Cells`), flags | invariant over split histories; `CInv` describes the heap in closed form |
| C54 | assembled system with hanging nodes (`Asm/Solve`) | matrix algebra; one-level constraints |
| C55 | `shape` with the Jacobians of `reference_map` | derivatives (Mathlib `HasDerivAt`) of the composed maps |
| C56, C61 | local forms as finite sums over Gauss points, integrals as Mathlib interval integrals | exactness of the rule, positivity of sums of squares, uniqueness of polynomials, graph connectivity |
| C57 | Gram matrices of kernels | positive-definiteness by Fourier/mixture integrals |
| C58-C60 | linear maps of the decompositions | matrix algebra |
| C34 | `Dof`: state = table of dofs per cell; abstract system of shared locations, concrete system from the mesh | invariant `NumInv`; the point of a node is an element of the glued unit squares (`SamePt`) |
| C62 | `Dof/Hang`: loop over leaves and sides; constraints as in `Linsys` | two leaves of a balanced mesh meet in a common side, in a half side or in a vertex (`meet`); C31 on the half sides |
| C63 | `Phys`: coordinates of all vertices of refined meshes (`Coords`, `Place`), dictionary of dof vertices, depth-first cell list | closed form of the coordinates by induction over splits; invariant over histories; C34 for sharing |
| C64 | `Bnd`: the merge loops of `get_boundary_segments` with the iterator positions, the refinement loop | measure and invariants over the loops; a simple loop is cut into arcs, the merge loop ends with one arc; twins in closed form (`vt`) |
| C65 | `Reg`: the loops of `mark_region`/`get_region`/`get_region_dofs`, the slices of `get_cell_dofs` | node tables by kernel evaluation over all elements; C64 for the boundary; every point lies in a leaf, a boundary corner is a node of a leaf with a boundary side, then C34_shared |
| C66 | `Dir`: the loops over the dofs of the marked boundary; the constraint lists fed to `Linsys`/`Asm` | C65 for the dofs, C63 for their vertices, C62 for the hanging nodes, C37/C54 for the solvers; boundary points are never inside a hanging side |
| C67 | `Fn`: binning, reference map, shape functions, the sparse evaluation matrix, contraction with the data | induction over the forest of cells for the bins; invariants of the loop that fills the matrix; C55 for the derivatives, C30 for polynomials, C62 for single-valuedness, C63 for the vertices |
| C68 | `Fn.Interp`: the data are the values at the new vertices | a coarse polynomial restricted to a subcell is a polynomial of the same degree, which the finer element reproduces; C67 on both meshes |
| C69 | `Gal`: all layers composed | divergence theorem on every convex cell (change of variables, fundamental theorem), exactness of the Gauss rule for the mapped integrands, fluxes through interior sides cancel also across hanging nodes (induction over the tree), definiteness from C56/C61 and connectedness through single-valuedness, C54/C37 for the algebra |
| C70 | `Line`: places, inheritance and neighbours on a line or a circle, independent of the refinement state | the abstract numbering argument of C34 (`Dof/Number`), instantiated with the line; because the system of places does not depend on the mesh the invariant survives refinement between distributions; same place iff same coordinate by induction over the trees; three violations from computed witnesses |
| C71 | `Line/VModel`: dictionaries of dof vertices, vertices named by midpoints, leaves and regions as lists | invariant: a stored point is the node of a cell with this dof, with C70 it is the node of all of them; completeness by counting stored keys against leaf dofs (every dof of a continuous element is a dof of a leaf); vertex names are injective in the coordinate because Q1 places are; the boundary cells of C16 are the only leaves at the ends |
| C72 | `Bvp`: C70/C71 meshes and dofs, C56 forms on intervals, vertex forms, C35/C54 assembly and solving | quadrature is exact for the entries, sums over leaves telescope to integrals over the domain; weak form from the fundamental theorem; definiteness from C56 and continuity; Galerkin orthogonality gives optimality; hat functions give exactness at vertices |
| C73 | `Bvp/Conv`, `Bvp/Refine` | the interpolant is a competitor in C72 (best); mean value inequality on each leaf, Cauchy-Schwarz along the domain from the Dirichlet end; refinement halves every leaf |
| C74 | `Arr/Model`: inputs as an inductive type, arrays with shapes; `Means` relates an input to the points it documents | cases of `Means`; the table determines the rows (injectivity) |
| C75 | `Arr/Explicit`: heap of lists; specification with values only | simulation relation (no list is reachable from two owners), induction on the history |
| C76 | `Intg`: contributions of the double loop over cells, in the order of the code, then `Asm` | the contributions of all cells add up to the double sum over nodes (the symmetric shortcut by induction on the list of cells: pairs before the diagonal are supplied by the other cell); C35 for the constraints; polynomial kernels: separate variables, exactness of the rule on each cell |
| C77 | `Dof/Cache`: dictionary of tables and list of constraints as state, events, C62 for the table of a mesh | induction on the history: entries change only when recomputed; adding the same constraints again changes nothing |
| C78 | `Cea` (`Core`, `Props`, `Best`): `Gal` on parallelograms; energy and error as integrals over the leaves | quadrature exact, so the system is the Galerkin system; weak form of a classical solution from the divergence theorem on each leaf and the fluxes of C69 (a continuous function with zero boundary values as weight); Pythagoras |
| C79 | `Cea` (`Taylor`, `Geo`, `Interp`, `Rate`, `Conv`) | Taylor polynomial in a cell, finite element interpolant with the hanging nodes interpolated from the coarse side (their error has the size of the neighbouring cell, at most twice as large), bound of the gradient from the node values, C78 |
| C80 | `Per`: names of C52, sets of periodic pairs as lists with arbitrary order (relations `SetPair`, `PairAll`), `get_neighbors(vertex)` with changing pivot, `fill_dofs`/`share_dofs_with_neighbors` for periodic meshes | a vertex name stands for one point of the glued domain; the pairs of a vertex are, up to containment, all cells around the point; the walk with changing pivot is the walk around the point, hence ends; then the numbering argument of C34; rectangular grids: `Grid`, `GridOk`, `MakePer`, `GridProps` |
| C81 | `Per/Hang`: the model of C62 on the states of C80 | the proofs of C62 rest on the numbering property alone (`Rdy` in Dof/Continuity.lean); C80 gives it for periodic meshes |
| C82 | `PySet`: hash table as a list, probing with fuel that is proved sufficient | invariant (every element is found by its probe sequence; fewer than three fifths are used), probes reach every entry because the perturbation dies out and `i ↦ 5i+1` runs through all residues mod 2^k; if all elements are below the table size every element is in its own entry and the list is sorted; then counting of dofs: grids have (d nx+1)(d ny+1) dofs, at most 2d(nx+ny) on the boundary |
| C83 | `Coarse`: `delKids`, `clear` (old objects whose names are used again), `reSplit` | invariant over the half-edges that includes the dead ones; every history is simulated by splits alone (prune the splits below a deleted cell); positions of vertices as a function of their names |
| C84 | `Cea` (`Nested`, `Refine`) | the coarse function is a competitor on the finer mesh (its values at the finer nodes; a node value on the boundary by interpolation along a side), C78 there; integrals over a coarse leaf are sums over the finer leaves below it (a quantity additive over children summed over all leaves) |
| C85 | `Tri`: the constructor with its call of the parent's one, the tables of functions as written, `phi`, `dphi` | every table against a separate list of nodes; derivatives with `HasDerivAt`; polynomials by coefficients; the constructor always raises (`C85_violated`) |
| C86 | `Sum`: the local matrices, vectors and constants `assemble` collects for forms with any derivatives, over `Form`, `Asm`, `Gal` | the assembled system applied to the constant function (C35, with hanging coefficients that add up to one); basis functions and their derivatives add up to 1 and 0 (C56); constants summed over the tree of cells (C56 exactness, telescoping) ; success of the calls in `C86_runs` |
| C87 | `Samp`: values as arrays of samples of possibly different lengths, `tile`, Fortran `reshape`, broadcasting, `np.array` of rows, `consolidate`, `solve`, `get_scalar` | a simulation: the call on arrays and the calls of `Asm` on single samples return or raise together; arrays meet with different lengths exactly in the cases of the `_violated` theorems |
| C88 | `Neu`: the forms of `Form` with edge terms, the marks of `Reg`, the constraints of `Dir`, the solver of `Asm` | Green's formula on every leaf (divergence theorem on the reference square), fluxes of neighbouring leaves cancel through hanging nodes (telescoping over the tree), exactness of the edge rule; definiteness: constant on every leaf, hence constant, hence zero |
| C89 | `Ell` on top of `Sum`, `Form`, `Asm` | positive definiteness from C56 cell by cell; the integral of every shape function over a convex cell is positive (moments of the 1D shape functions, the Jacobian at their barycentre); loop invariant `R Rᵀ = M (M⁻¹K)^count`; specification by the square root of the operator (CFC) |
| C90 | `Nrm` on top of `Gauss`, `Gal`, `Neu` | the divergence theorem in reference coordinates (`Gal/Flux`), exactness of the rules (C33), and the sum of the fluxes over inner sides (`Neu/Flux`) for the constant function one, which is single-valued on every mesh because the shape functions add up to one |
| C91 | `Hist` on top of `Asm` | `mapM`/`foldlM` over problems and cells commute problem by problem; a frame lemma for `distribute` (the aggregate only grows) and an induction over the history; idempotence is violated, so the theorems say what the arrays are instead |
| C92 | `Crash` | inductive relations `FoldCrash`, `RefineCrash`, `BalCrash` and the function `crashed` give every state at a crash point; invariants of these states (only forced marks; per leaf a tree between the old and the new one; balanced closure not exceeded), then the exact theorems C03, C05, C27, C91 applied to the call again; inside `QuadCell.split` (`CellCrash`): splitting half-edges commutes with making the interior half-edges, so the loop run again from the state left behind gives exactly the undisturbed state; violated parts have concrete witnesses |
| C93 | `Quad/Locate` | the loop over the coarse cells, compared with the documented result `LocateSpec` and with `meshBin` (C18); conforming histories from `run_conf`; refined unit square as counterexample |
| C94 | `Forest/VertexFlags` | flag sets after a history of calls against `present` (the last call that concerns the flag decides); counterexamples for `Markable.unmark` and `True == 1` |
| C95 | `Arr/Constant` | evaluation reduced to `parseX` (C74); constructor as a function of the arguments, compared with `Describes` |
| C96 | `Store` | refinement: without shared arrays every history corresponds to a history of independent tables (`Rel`, induction over the steps); violations: aliasing, rejected data stored, submesh `-1`, wrong axis |
| C97 | `Forest/Children` | the queries as functions of the list of slots; Python's indexing by integers as a function; each query characterised by the others; the position `-n` as counterexample |
| C98 | `Max`: the computation of C72 with the element `Q1` | test with the negative part of the difference: on a cell the product of the slopes is at most minus the square of the slope of the negative part, so its energy is zero and C56/C72 definiteness makes it zero; quadrature points and weights are positive, so no exactness is needed; cubic elements as counterexample (exact integrals) |
| C99 | `Forest/Irregular`: calls on nodes of an irregular tree, failed calls change nothing | invariant over all nodes, by induction on the path of the call and the history; a path that leads to an empty slot stays dead; the last clause is false (`split` refuses a node that ever had a child) and so is the clause on types with `remove`: counterexamples |
| C100 | `Samp/Count`: the loop of `Assembler.n_samples` over the forms of a problem, next to the sizes that `AssembledForm` collects | both folds are computed in closed form by induction on the list of forms and compared; the count depends on the first form of its type |
| C101 | `Max2`: the computation of C69 with the element `Q1` on rectangles with side ratio at most √2, no hanging nodes, constant diffusion, any load | the stiffness matrix of a rectangle in any position is computed exactly (the rule is exact for it); its off-diagonal entries are not positive for this ratio, so the test with the negative part gives zero energy, and definiteness (C78) makes it zero; the load is compared at the quadrature points, whose weights are positive; the ratio is preserved by refinement; a refined 2×1 rectangle with nonnegative boundary values and the value −1/5 at the centre as counterexample |
| C102 | `Super`: the computation of C69 for two or three runs with their own meshes (same leaves), numberings, kernels and options | both forms are written as sums over leaves and quadrature points of the cells cut from the initial mesh, which makes them independent of mesh object and numbers; dof values are carried from one numbering to the other; a combination of solutions solves the combined problem, and definiteness (C69) gives uniqueness |
| C103 | `Motion`: the computation of C69 on an initial mesh and on its image under rotation, scaling and translation, each refined, numbered and solved on its own | children of the image are images of the children, so every cell, Jacobian and gradient of the moved mesh is known; the product of two gradients scales with the inverse square, the Jacobian determinant with the square, so both forms agree cell by cell; then as C102 |
| C104 | `Coef`: linear, bilinear and constant forms whose kernels contain finite element functions, entry by entry | the dofs of a leaf are complete (C34) and in the basis, so the product of shape functions and data is the combination of shape functions, which is the function (or its physical derivative, C31, C69) at the quadrature point; then the form equals the form with maps. Two clauses fail in the code: a requested derivative is ignored, and a function on a coarser submesh is evaluated with the ancestor's dofs and the cell's own reference coordinates |
| C105 | `Coef.basisEval`: `Basis.eval` on a quadrilateral, one point and one shape function | reference points without derivative: the cases of `shape`. The other clauses fail in the code: physical points are mapped with the default `mapsto='physical'`, so away from the unit square they leave the reference cell and are rejected; a derivative needs a Jacobian that is never handed over |
| C106 | `Coef.contribsK`, `loadsK`, `SolvedK` (`Assemble.lean`): what `assemble` collects when the kernels contain finite element functions, then `Gal.Run` as for maps | cell by cell from `C104_form`: the factors of the kernels stand for functions inside every leaf (`MeansOn`), so all entries agree; one answer by C69. Simplified: an entry that raises is 0, as in `Form.contribs` (the two forms raise on the same entries) |
| C107 | `Coef.matsK`, `vecsK`, `constsK` (`Measure.lean`), assembled by `Asm.assemble2/1/0`; the kernels multiplied by functions are `BTermK.at`, `LTermK.at` | C35/C86 give `vᵀAu` as the sum of the local forms; on one cell sums over shape functions and quadrature points are exchanged (`cell_bil`, `cell_lin`). Simplified: an entry that raises is 0, and the integrand raises at the same points |
