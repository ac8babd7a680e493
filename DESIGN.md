# Formal model of pycomplex: design

The subject is the Python package in `/repo/pycomplex` (discrete exterior calculus on
simplicial, cubical and periodic stencil complexes).  The model is Lean 4 (`/verif/lean`,
modules under `Verif/`).  Properties are listed in `properties.jsonl`; the status of each is
in `MANIFEST.json`; mutation tests are in `seeded/LOG.jsonl`.

## Layout

| directory | content |
|---|---|
| `Verif/Model/*`  | executable transcription of the code, one comment with file and lines per definition |
| `Verif/Spec/*`   | small specifications that do not mention the model (signs, faces, flags, adjoints, circumcenters...) |
| `Verif/Lemmas/*` | helper lemmas |
| `Verif/Props/*`  | the property theorems `Cnn_*`, with a concrete non-trivial instance beside them |

`LOG.jsonl` has one line per wrong program that was tried: the edited definition, the edit, the claim
it breaks, the declarations that no longer compile (`first_errors`), the theorems of the manifest that
depend on them (`theorems_failed`) and the theorems that were added or tightened because a wrong
program survived.

## Trusted base

* Lean 4.33.0's kernel, and for every property theorem at most the axioms `propext`,
  `Classical.choice`, `Quot.sound` (checked by `#print axioms`).  No axiom is added, there is
  no `sorry`, `native_decide` or `bv_decide`.
* The reading of the Python source as text.  Nothing was run.
* The specifications in `Verif/Spec`, the statements of the theorems and the hypotheses about
  third-party code listed next.

### Data

* numpy arrays are lists (of lists), or functions on `Fin n` where the shape is fixed; `Except PyErr`
  carries raised exceptions.  Entries of index arrays are `Nat`; negative indices, which numpy counts
  from the end, are modelled only where the code uses them.
* Sign arrays are `Int`; where `int8` can overflow (topology matrices and their products, boundary
  chains) the wrap-around is modelled by `wrap8`, `mul8`, `abs8`.  The model compares
  values only; whether a zero is stored matters only for `nnz` in `check_chain`, see below.
* Floating point numbers are replaced by an arbitrary commutative ring, field, ordered field, or by the
  reals where a square root is taken.  Rounding, `inf` and `nan` are not modelled.  Where the code
  divides by zero and numpy would give `inf` or `nan`, the definition says what the model does instead,
  and the theorems exclude the case (`BlockArr.invert`, `normalizeL1`, `invertSingular`,
  `circumcenterBarycentricWeighted`; `Spherical` returns `none` for `nan`; the eigenvalue zero of `circumcenterBarycentric` is `inf` in numpy
  and is handled explicitly).
* Leading batch axes are dropped where a function treats the batch entries separately.  They are kept
  for `circumcenter_barycentric`, where they interact.
* Generators are the list of their items and the way they end (`Iter`), or just the list
  (`Combinatorial`).
* Cubes are rows of `2^n` vertices in C order; indices are lists of booleans.  `np.ndarray` with
  strides (`n_cube_grid`) is the index formula.  The broadcasting of `product` is flattened.

### Third-party code, as parameters or definitions with an assumed contract

* `npi.as_index`, `npi.unique`, `npi.group_by`, `npi.indices`: some enumeration without repetition of
  the distinct rows; for rows of length at least two the order is arbitrary and theorems quantify over
  it (`UniqSpec`: numpy-indexed orders rows by their bytes), for single numbers it is increasing; the
  representative of a group is its first occurrence; `npi.all_equal` of an empty array is true.
  Rows of floats are compared by their bits, and `return_inverse` gives the place of every row
  (`UniqueInverse`).
* `np.fromfile` returns the complete items that are left, at most as many as asked for; `tofile` writes
  the bytes without padding.
* `pycosat.solve`: sound and complete (`SatSpec`: a satisfying assignment, or 'UNSAT' only if there is
  none), otherwise arbitrary.
* `scipy.sparse` constructors, products and transposes: ordinary matrices, duplicate entries add up;
  the product of two sparse matrices stores no zeros (used for `nnz` in C89 only);
  `bmat` needs one block in every row and column.
* `np.pad(mode='wrap')` by one entry at the end, `np.remainder` (sign of the divisor) and
  `scipy.ndimage.map_coordinates(order=1, mode='constant')` (multilinear inside, 0 outside, `RuntimeError` when the
  numbers of axes differ): `Model/StencilSample.lean`.
* `scipy.ndimage.convolve1d/correlate1d(mode='wrap')`: the cyclic index formula in
  `Verif/Model/Stencil.lean`.
* `scipy.sparse.csgraph.connected_components(graph)`: labels `0, ..., n - 1`, all used, equal exactly for
  nodes connected by edges in either direction (`ComponentsSpec`; `findComponents` is a program that
  meets it); an entry of a product of sparse matrices that is zero is not an edge.
* `cKDTree.query`: a nearest neighbour, any of several (`NearestSpec`, `NearestSite`).
* `scipy.sparse.linalg.minres`: some exact solution of a symmetric system that has one (`MinresSpec`);
  `C62_parts` also uses that the solution has no part in the null space (`LeastNorm`).
* `np.linalg.det` is the determinant; `np.linalg.eigh`, `np.linalg.svd` are functions that satisfy
  `Spec.IsEigh`, `Spec.IsSvd` (existence over the reals is proved for `eigh`, and for `svd` of matrices with at least as many rows as columns).
* `np.linalg.eig` is a function that satisfies `Spec.IsEig`; for diagonalizable matrices the theorems ask that
  its eigenvectors are independent.
* `np.einsum` repeats axes of length one and raises a `ValueError` for other mismatches.
* Smoothers, coarse solvers, preconditioners, `deflate` and the inverse diagonals given to smoothers are
  parameters; what is assumed of them is stated in each theorem.

## What is modelled

| code | model | properties |
|---|---|---|
| `math/combinatorial.py`: permutations, combinations | `Combinatorial` | C01, C02 |
| `topology/simplicial.py`: permutation_map, generate_simplex_boundary, relative_simplex_parity, from_simplices; `topology/util.py`, `topology/primal.py`, `topology/base.py`: topology_matrix, parity conversions, check of the constructor | `Simplicial` | C03–C06 |
| `topology/base.py`: relative_parity, is_oriented; `topology/simplicial.py`: fix_orientation | `Orientation` | C07, C08 |
| `topology/primal.py`: select_subset, boundary, is_closed, find_correspondence, selectors; `topology/dual.py`: matrices of the dual | `Boundary` | C09–C13 |
| `topology/simplicial.py`: fundamental_domains, subdivide_fundamental | `Subdivide` | C14, C15 |
| `topology/simplicial.py`: subdivide_loop and its transfer matrices | `Loop` | C16, C49, C50 |
| `topology/cubical.py`: offsets of subdivide_cubical_relations, TopologyCubical2.subdivide_simplicial | `CubicalSub` | C17, C18 |
| `topology/cubical.py`: generate_cube_boundary, permutation_map, relative_cube_parity, from_cubes | `Cubical` | C19, C20 |
| `synthetic.py`: n_cube_grid; `topology/cubical.py`, `complex/cubical.py`: product | `Grid` | C21, C22 |
| `topology/base.py`: accumulated operators, averaging, degree; `sparse.py`: normalize_l1 | `Averaging` | C23, C24, C68 |
| `stencil/topology.py`, `stencil/util.py`: derivatives, transfers, averaging of grids | `Stencil` | C25–C31 |
| `stencil/operator.py` | `StencilOp` | C32–C34 |
| `block.py`, flattening of `stencil/block.py` | `Block` | C35, C36 |
| `stencil/block.py`, `stencil/linear_system.py` | `StencilBlock` | C37, C38 |
| `stencil/equation.py`, `BlockOperator.diagonal` | `StencilSmooth` | C40, C53 |
| `stencil/multigrid.py`, coarsening of complexes | `Multigrid` | C39, C41, C52 |
| `solvers.py`: solve_cg | `CG` | C42 |
| `math/linalg.py`: adjoint, null, inverse, inverse_transpose, rotation_from_plane | `Linalg` | C43, C51 |
| `complex/regular.py`: sample_primal_0; `complex/simplicial/base.py`: augment, pick_dual | `Sampling` | C44, C45 |
| `util.py`, `stencil/util.py`: pairs, accumulate, adjecent_pairs | `Iter` | C46 |
| `complex/simplicial/euclidian.py`: triangle normals, centroids, vertex normals, volume; `complex/base.py`: translate, transform, scale | `Triangles` | C47, C54 |
| `complex/simplicial/euclidian.py`: clip; `complex/base.py`: select_subset | `Clip` | C48 |
| `geometry/euclidian.py`: signed_volume, unsigned_volume, segment_normals; `complex/cubical.py`: ComplexCubical1Euclidian2.volume | `Euclid` | C55, C56 |
| `geometry/euclidian.py`: circumcenters; `complex/simplicial/euclidian.py`: primal_position; `math/linalg.py`: pinv | `Circumcenter` | C57, C58 |
| `complex/simplicial/euclidian.py`: metric, primal_barycentric | `Metric` | C59 |
| `geometry/euclidian.py`: triangle_angles; `complex/simplicial/euclidian.py`: compute_triangle_angles, compute_triangle_areas, compute_vertex_areas, compute_edge_ratio | `Angles` | C60 |
| `complex/simplicial/euclidian.py`: weights in primal_barycentric, primal_position; `complex/simplicial/base.py`: dual_edge_excess, remap_boundary_N, remap_boundary_0; `complex/base.py`: hodge_PD, hodge_DP, positive_dual_metric, is_well_centered, is_pairwise_delaunay | `Delaunay` | C61 |
| `complex/simplicial/base.py`: pick_primal_precomp, pick_primal, sample_primal_0; `complex/simplicial/euclidian.py`: homogenize | `Picking` | C62 |
| `geometry/spherical.py` | `Spherical` | C63 |
| `complex/simplicial/spherical.py`: `primal_barycentric`, `primal_position`, `metric` | `SphericalMetric` | C64 |
| `topology/base.py`: `label_connections`, `is_connected`, `regions_per_vertex`, `is_manifold`; `topology/primal.py`: `split_connected_components` (simplices; one example with squares) | `Components` | C65 |
| `topology/simplicial.py`, `complex/simplicial/base.py`: `subdivide_simplicial` | `Cone` | C66 |
| `topology/cubical.py`: `cubical_domains`, `subdivide_cubical` and its transfer matrices; `complex/cubical.py`: `primal_position`, `subdivide_cubical` without smoothing | `CubicalDomains`, `CubicalComplex` | C67 |
| `complex/base.py`: `smooth`, `smooth_operator`; `complex/cubical.py`: `subdivide_cubical` with smoothing, `subdivide_operator`; `complex/simplicial/euclidian.py`: `subdivide_loop_operator`. Creases are chains given as arrays; a zero row is zero where the code divides by zero and gets `nan`; grouping an empty array gives no groups | `Smooth` | C69 |
| `complex/regular.py`: `fundamental_domain_postions`, `metric`; `geometry/regular.py`: `hypervolume`. `npi.group_by(keys).sum` is modelled by the sums over equal keys in increasing order of the keys; exact arithmetic over an ordered field | `RegularMetric` | C70 |
| `complex/simplicial/euclidian.py`: `ComplexTriangularEuclidian3.extrude`; `complex/base.py`: `boundary`, `copy`. `self.topology is other.topology` is a parameter; exact arithmetic | `Extrude` | C71 |
| `complex/simplicial/euclidian.py`: `center_of_mass`, `area`, `vertex_areas`, `edge_lengths`. Real numbers; `nan` is `none` | `Mass` | C72 |
| `complex/simplicial/euclidian.py`: `save_STL`, `load_STL`. A file is the list of its bytes; a `<f4` number is its bit pattern, rounding to it is a parameter; the number of triangles is taken modulo `2 ^ 32` | `Stl` | C73 |
| `synthetic.py`: `n_simplex`. Real numbers | `Synthetic` | C74 |
| `synthetic.py`: `icosahedron`, `icosphere`; `complex/simplicial/spherical.py`: `subdivide_loop`. Real numbers; a position that is `nan` ends with an error | `Icosphere` | C75 |
| `topology/primal.py`: `select_subset`, `boundary` of a `TopologyCubical`, dimension two or more for the boundary | `CubicalBoundary` | C76 |
| `synthetic.py`: `circle`, `cylinder`; `complex/base.py`: `boundary` of a cubical complex | `Circle` | C77 |
| `complex/base.py`: `dual_flux_to_dual_velocity` of Euclidean simplicial complexes; `geometry/euclidian.py`: `simplex_normals`, `simplex_gradients` | `Velocity` | C78 |
| `math/linalg.py`: `orthonormalize`, `power`, `angle_from_rotation` | `Rotation` | C79 |
| `complex/regular.py`: `pick_primal_precomp`, `pick_primal`, `pick_fundamental_precomp`, `pick_fundamental`, `pick_dual`, `sample_primal_0` with the lookup of vertices. A hint of another length than the points is refused | `RegularPicking` | C80 |
| `stencil/complex.py`: `sample_0`, lines 173-203. `np.pad(mode=wrap)`, `np.remainder` and `ndimage.map_coordinates(order=1)` are written out; outside of the array the last returns 0 | `StencilSample` | C81 |
| `topology/simplicial.py`: `subdivide_cubical`, lines 257-333; `complex/simplicial/base.py`, `euclidian.py`: `subdivide_cubical` without weights. The array of cubes is a list over simplices and corners | `SimplexCubes`, `SimplexCubesComplex` | C82 |
| `topology/primal.py`: `dual`, lines 126-136, `selector_boundary`, lines 265-282; `topology/dual.py`: `matrices` of both classes, lines 28-30, 150-173, for all levels at once; `complex/regular.py`: `average_dual`, lines 202-217, and the same products with the operators of simplicial duals, which `sample_dual_0` of simplicial complexes starts from without weights | `DualAveraging` | C83 |
| `complex/regular.py`: `sample_dual_0`, lines 219-248, for values without further axes | `RegularDualSample` | C84 |
| `stencil/complex.py`: `smoothers`, `coarsen`, `refine`, lines 93-171; `stencil/util.py`: `smoother` in one dimension | `StencilCoarsen` | C85 |
| `stencil/diffusion.py`: `formulate`, lines 40-70, `coarse` (fields), `restrict`, `restrict_primal`, `interpolate`, lines 120-154; `stencil/linear_system.py`: `System.__getitem__` with one slice | `Diffusion` | C86 |
| `complex/simplicial/base.py`: `subdivide_fundamental`, lines 19-23, `optimize_weights_fundamental`, lines 179-212, `pick_fundamental_precomp`, `pick_fundamental`, lines 448-494, `sample_dual_0` with `weighted=False`, lines 496-529 | `FundamentalPick` | C87 |
| `complex/base.py`: `weighted_average_operators`, lines 261-342, for euclidian simplicial complexes; `complex/simplicial/base.py`: `sample_dual_0` with `weighted=True`, lines 496-529; `sparse.py`: `normalize_l1` along rows, lines 23-29 | `WeightedAveraging` | C88 |
| `topology/base.py`: `check_chain`, lines 198-205 | `CheckChain` | C89 |
| `synthetic.py`: `n_cube_dual`, lines 127-154; `topology/util.py`: `sparse_to_elements`, lines 147-170 | `CubeDual`, `DualPosition` | C90 |
| `complex/base.py`: `dual_position`, lines 120-141 | `DualPosition` | C91 |
| `topology/dual.py`: `n_elements`, `selector_interior`, `selector_boundary`, `matrices_2` of both classes, lines 24-26, 32-48, 76-80, 86-95, 102-147 | `DualSelectors` | C92 |
| `topology/dual.py`: `Dual.transfer_matrices`, lines 175-194 | `DualTransfer` | C93 |
| `block.py`: `norm_l1`, `as_diagonal`, `broadcasting_operator` with numbers; `balance` of `examples/linear_system.py` (the matrix) | `BlockNorm` | C94 |
| `block.py`: `shape`, `compatible`, `square`; `stencil/block.py`: `shape`, `is_compatible`, `is_square` | `BlockShape` | C95 |
| `stencil/block.py`: `__add__`, `__sub__`, `broadcasting_operator` of block operators | `StencilBlockAdd` | C96 |
| `stencil/util.py`: `checkerboard_2` | `Checkerboard` | C97 |
| `stencil/util.py`: `smoother` in any dimension | `Smoother` | C98 |

## How the properties are proved

| id | method |
|---|---|
| C01, C02 | induction on the list, inversion-count specification |
| C03–C06 | alternating cochains: each incidence row is an alternating function of corner lists, the coboundary of an alternating function is alternating, and the double coboundary vanishes |
| C07, C08 | satisfying assignment iff the signed chain cancels on interior faces; connectivity induction |
| C09–C13 | C03 plus relabelling lemmas; block matrix identities |
| C14, C15 | induction over dimension |
| C16, C49, C50 | chain identity per triangle; counting of half edges |
| C17, C18 | arithmetic of offsets; chain identity per quad |
| C19, C20 | hyperoctahedral group as signed permutations of the axes; alternating functions of cubes |
| C21, C22 | mixed radix arithmetic; Leibniz rule for the product of boundaries |
| C23, C24 | row sums of products in `int8` |
| C25–C31 | forms as functions on the periodic grid; finite sums |
| C32–C34 | induction over operator expressions; a measure that decreases |
| C35–C37 | list and finite-sum algebra |
| C38–C41, C52, C53 | linear algebra, induction over levels |
| C42 | loop invariants, A-orthogonality of directions |
| C43, C51 | polynomial identities |
| C44–C46 | induction over the axes; algebra; induction |
| C47, C48, C54 | pairing of directed edges with an alternating function; case analysis of cut triangles |
| C55, C56 | determinants; Lebesgue measure of the standard simplex; spectral theorem for the Gram matrix |
| C57, C58 | the bordered Gram system; eigenvectors of bordered matrices; Penrose conditions |
| C59 | triangular change of coordinates along a flag of faces; sums over orderings; block determinants for orthogonal faces |
| C60 | angles as in Mathlib's inner product geometry; grouping of boundary slots by edge; the linear system of the circumcenter |
| C61 | heights over faces: the way between two centers is the height scaled by a coordinate; powers of points beyond a face; chains of centers turn at right angles |
| C62 | the solution of the normal equations of the dual gradient is the potential of the edge excess; difference of two powers is affine and vanishes on the common face |
| C63 | volume of a wedge of the ball in polar coordinates, inclusion and exclusion of three half spaces (Girard); reflections; Cramer's rule |
| C64 | sums over flags as in C59; domains of a triangle tile it (C63); symmetry of isosceles triangles for the nearest corner; union of sets that meet in sets without area |
| C65 | common faces of two simplices never cancel in the product of the matrices (one face, or all with the same sign); paths in the graph are chains of simplices; renaming keeps faces; divisibility of factorials for the wrap-around |
| C66 | faces of the new simplices are old faces (one per simplex) or contain exactly one new vertex and lie in two of its simplices with opposite signs; counts by binomials; the volume is an alternating function of the list of corners |
| C67 | faces of a cube are grid points with coordinates 0, 1, 2, followed through all tables of faces; every fine element is a box of such points in exactly one stored element; boundary of a cut box telescopes; orientation of the first appearance for the signs near the top |
| C68 | chains of faces between two cubes counted by induction (`k!` of them), then as C23 and C24 |
| C69 | both programs reduced to one specification (lowest level with a crease at the vertex); entries of the averaging operators from C68, squared so that signs cancel; cells of C67 for the creases of the subdivision |
| C70 | the corners of a part are grid points of its cube; the sum over the parts of all cubes with an element at a corner is 2^k times a sum over the cubes around it; measures of faces of a box as products over axes; for the totals the grid points with k free axes are counted |
| C71 | directed edges: a coherent surface passes no directed edge twice, so its directed edges are the border and a balanced list; the directed edges of the result, up to order, are balanced lists; a closed surface is coherent; the copies are connected through the strip; the volume by summing an antisymmetric function over the border |
| C72 | the determinant, and the determinant times the sum of the corners, are alternating, so that sums over the surface are sums over the tetrahedra; four vectors of the space are dependent (Cramer), which leaves volume times centroid; areas from the Gram determinant (C55); groups of corners as in C47 |
| C73 | four bytes are read back as they are written; lists of equal length are found again in their concatenation, also in a part of it; the inverse of `unique` is the place of each row among the different rows |
| C74 | induction over the dimension; the volume from the Gram determinant (C55), its sign from the recursion of the determinant |
| C75 | induction over the refinements: a step keeps the surface closed, oriented and connected, and splits each cone into four; the twenty cones of the icosahedron cover the sphere and have area `π / 5`; sets that cover it and whose areas add up to `4π` do not overlap |
| C76 | relabelling corners keeps symmetries and their signs; the rows of the last boundary matrix are `-1`, `0` on coherent cubes, so the boundary cubes add up to the image of the matrix before it, whose columns add up to zero |
| C77 | one pass of the loop maps a closed polygon with evenly spaced vertices to one with twice as many; the smoothing keeps the angle of every vertex, the projection restores the radius; the quadrilaterals at each edge of a cylinder are listed |
| C78 | the columns of the pseudoinverse are the heights over the squares of their lengths; the second pseudoinverse inverts "area times component along the height" on the plane of the simplex; the dual edge is split at its face, and both parts give the same component by conservation |
| C79 | distances do not change under orthogonal factors, and the sum of singular values times diagonal entries of an orthonormal matrix is largest at one; `v f(w) v⁻¹` does not depend on `v`, so its conjugate is itself; the quarter turn satisfies `(R - 1)(R² + 1) = 0` |
| C80 | centers of cells of a grid: a center in another cell is farther in some coordinate and nearer in none, so the nearest center belongs to a cell with the point; the parts of the cells form a grid of half the spacing |
| C81 | induction over the axes: interpolation in the padded array at the remainder is the interpolation of the periodic continuation |
| C82 | the cubes are intervals between two sets of vertices; faces of intervals are intervals, so their agreement, number and orientation follow from those of the sets |
| C83 | the dual is the primal list of matrices with the boundary glued on; faces of dual cells are numbered, the chains to dual vertices are counted by induction on the level, and every vertex of a dual cell is the end of equally many chains |
| C84 | the mean over the cubes around a face is that over the cells half a step away in the axes normal to the face, which is exact for affine functions by induction on the axes; the rest is the multilinear interpolation of C44 in the part of a cube picked by C80 |
| C85 | smoothing along different axes commutes, so that one axis can be treated at a time; along one axis, refining is split into even and odd positions; the theorem for the dual derivative follows by testing with forms that vanish at all cells but one |
| C86 | the blocks are computed through `simplify`, whose rewriting of diagonal operators is shown to keep their action if no array is mistaken for zero or one; the weak form has a trivial kernel, and in finite dimension an injective map of the space to its dual is onto |
| C87 | a fundamental domain is an orthoscheme: the centers of its flag are joined by mutually orthogonal steps, so its weighted center has explicit coordinates, of which only those of the vertex, the edge and the top element can differ from zero. In the plane the sum over the faces opposite to parent vertices is computed with C61 |
| C88 | the unweighted operators of C83 have equal entries on the simplices around an element, so after `multiply` and `normalize_l1` only the summed weights of the domains remain. The steps of a domain are orthogonal, so its `unsigned_volume` is the product of their lengths over a factorial that cancels |
| C89 | the loop is a `mapM` over a predicate; the primal cases are C03 and C19, the closed dual is C13 |
| C90 | `CrossPolytope.Facets` describes the facets of a cube by axis and side; the corners are the functions from axes to sides, neighbours differ along one axis, and the parity of the number of second sides orients the simplices; C22 and C76 give the facets, C03, C07, C08 and C09 the rest |
| C91 | `Corresponds` of C09 and C76 says that the index lists of the boundary are in range and that a boundary element has the corners of the element it comes from, so the means agree |
| C92 | rows of the selectors have a single entry; `Glued.block` of C83 is the matrix of the dual written out, `matrices_2` its first columns; C12 gives the two ends of a dual edge |
| C93 | a selector times a matrix picks rows, times a transposed selector columns; C67 and C50 give the entries of the primal matrices |
| C94 | sums over merged indices are double sums over blocks (C36); a diagonal matrix scales rows |
| C95 | taking an index of an array of blocks drops an axis, so the last axis has no size |
| C96 | C33 and C37: simplification keeps the action of sums; the rows of the product add up |
| C97 | the weighted sum is the binary number of the parities of the index |
| C98 | induction on the dimension; sums over all indices of a product of weights are products of sums |

## Where the code does not do what one would expect

Each of these is a theorem (a negation with a concrete witness or in general), besides the theorem for
the restricted case.

| theorem | finding |
|---|---|
| `C02_combinations_not_shuffle_sign` | the parity returned by `combinations` is not the sign of the shuffle for n >= 2 |
| `C03_points_rejected` | a mesh of points is rejected |
| `C07_loose_last_rejected`, `C07_orientable_but_rejected` | `fix_orientation` raises for orientable meshes whose last simplex has no interior face |
| `C08_disconnected_not_exact` | `is_oriented` can be false for a coherently oriented disconnected mesh |
| `C09_one_dimensional_fails` | `boundary` of an open one-dimensional mesh raises an AssertionError |
| `C13_dual_3d_not_chain` | with boundary, the dual matrices of a 3-dimensional mesh do not form a chain complex |
| `C15_unoriented_opposes` | `oriented=False` gives neighbouring domains opposite orientation |
| `C19_unmirrored` | `mirror=False` rejects meshes that contain a mirrored face |
| `C21_same_corners` | the product of a topology with two cubes on the same corners can be rejected |
| `C22_rejected` | from dimension 8 on no cubical mesh can be built (AssertionError from the number of symmetries) |
| `C23_vertices_negated`, `C23_tops_negated` | six and seven levels apart, averaging returns minus the mean (`int8`) |
| `C24_degree_wraps`, `C24_overflow` | `degree` wraps around at 128 |
| `C29_sampling_changes_mean` | coarsening of sampled forms does not keep the mean |
| `C32_tolerance`, `C32_shape_coincidence` | `simplify` drops diagonals that are close to 0 or 1, and merges operators whose shapes coincide by accident |
| `C35_stencil_three_blocks` | flattening raises for three or more stencil blocks |
| `C94_equal_lengths`, `C94_balance_equal` | `as_diagonal` and `balance` raise if all block rows have the same height |
| `C95_matrices` | `shape`, `square`, `is_square` and `is_compatible` raise for every block matrix |
| `C96_sub` | the difference of two stencil block operators raises: operators have no `__sub__` |
| `C36_missing_block` | a product with a missing block is not the product of the merged matrices |
| `C38_normal_drops_small` | normal equations lose the squares of small Hodge factors |
| `C40_ne_grows`, `C40_ne_wrong_sign` | the NE block Gauss-Seidel step has the wrong sign and diverges |
| `C43_null_vanishes` | `null` returns zero for some singular matrices that are not zero |
| `C46_adjacent_all_iff` | `adjecent_pairs` is decided by truthiness |
| `C48_spare_vertex` | `clip` breaks if a position is not used by the topology |
| `C49_pillow` | the Euler characteristic changes for repeated triangles |
| `C53_odd` | the diagonal of a block operator is wrong on grids with an odd axis |
| `C56_not_directed` | the area of a planar curve depends on the directions of its edges |
| `C57_far`, `C57_batch`, `C57_small` | circumcenters of vertices far from the origin, beside such vertices, and of small simplices are wrong |
| `C58_wide`, `C58_row`, `C58_construction_raises`, `C58_construction_edge` | `pinv` of wide matrices raises or is not the pseudoinverse |
| `C59_obtuse_face` | `metric` gives a tetrahedron with an obtuse face a wrong volume |
| `C60_docstring` | `compute_edge_ratio` returns dual over primal length, the docstring says primal over dual |
| `C61_line` | in one dimension `dual_edge_excess` pairs faces with the wrong corners, so `is_pairwise_delaunay` is wrong; `metric` of a weighted complex takes its signs from the circumcenters without weights, so the measures do not add up |
| `C62_notch`, `C62_parts` | `pick_primal` can miss the simplex of a point if a mesh is pairwise Delaunay but not convex, or Delaunay but not connected |
| `C63_area_flat`, `C63_triangle_circumcenter`, `C63_intersect` | three equal corners get the spherical area `pi / 2`; `triangle_circumcenter` of counterclockwise corners is on the opposite side of the sphere; `intersect_edges` returns the opposite point if the second arc ends on the right of the first |
| `C64_rejects`, `C64_nan` | `metric` of a spherical complex rejects more than two dimensions and circumcenters that are not strictly inside; the position of an element whose circumcenter is the center of the sphere is `nan` |
| `C65_accepts_book` | `is_manifold` is true for three triangles on one edge: only the connections around vertices are tested |
| `C65_wraps`, `C65_rejects_simplex` | from dimension 10 on the `int8` incidences of vertices and simplices are zero: `regions_per_vertex` is 0 and `is_manifold` false for everything, even a single simplex |
| `C65_twisted_strip` | two squares that share two edges with a half twist count as two components: the common edges cancel in `TnN.T * TnN` |
| `C66_reversed`, `C66_volume`, `C66_boundary` | `subdivide_simplicial` reverses the orientation in odd dimensions: a tetrahedron of positive volume becomes four of negative volume |
| `C67_boundary_fails` | the transfer matrices of `subdivide_cubical` do not commute with the boundary of edges and squares of a three-dimensional cube (the FIXME in `topology/cubical.py` line 340 asks); they do near the top and for squares |
| `C68_vertices_negated`, `C68_tops_negated`, `C68_degree_wraps` | on cubes too, averaging six and seven levels apart returns minus the mean, and `degree` wraps around at 128 |
| `C69_operator`, `C69_smooth` | a vertex without creases stays under `smooth` and has an empty row (`nan`) in `smooth_operator` |
| `C69_subdivide_negated` | from six dimensions on, `subdivide_operator` gives minus the centers of the elements of six and seven dimensions |
| `C69_loop_fails` | `subdivide_loop_operator` stacks the averages over triangles too: its shape does not match `subdivide_loop`, and with smoothing it raises for every triangle mesh |
| `C69_right_triangle` | `smooth` of triangles averages circumcenters, `smooth_operator` centers of mass; the two differ |
| `C70_wraps`, `C70_negative` | the metric of regular complexes divides by an `int8` count: 128 to 255 squares around one edge give the edge a negative length |
| `C70_rotated_negated` | the metric of regular complexes ignores everything but the differences of coordinates: a square standing on a corner gets the area zero, without an error |
| `C71_volume`, `C71_square` | `extrude` turns the solid inside out: raising a surface along its normals gives a negative volume |
| `C71_weights` | `extrude` hands the weights on unchanged: the result has twice as many vertices as weights |
| `C71_pinched` | `extrude` of a surface whose border touches itself gives an edge with four triangles |
| `C71_unused_position` | `extrude` fails if there is a position that no triangle uses |
| `C72_away_negated` | `center_of_mass` takes volumes without sign: it is wrong, and can lie outside of a convex solid, if the origin is outside |
| `C72_vertex_areas` | `vertex_areas` misses a factor 1/2: the vertices together have twice the area of the surface |
| `C73_collapse_negated` | `load_STL` merges vertices with equal rounded positions: if they belong to one triangle, the result has an edge from a vertex to itself, without an error |
| `C73_truncated` | `load_STL` does not notice that a file ends too early |
| `C74_volume` | `n_simplex` of an even dimension is turned inside out |
| `C66_edges_fail` | `subdivide_simplicial` raises an `IndexError` for a topology of edges |
| `C77_volume` | the edges of `circle` run clockwise, so `volume()` is minus the area |
| `C77_circle`, `C77_cylinder_radius` | `circle(0)` has the radius `1/√2` and so has a cylinder without divisions (times `radius`) |
| `C78_gradients` | `simplex_gradients` promises volume gradients; its values are `n` times as long |
| `C78_boundary` | the boundary entries of the flux are ignored, as a `FIXME` in the code says |
| `C79_mirror_fails` | `orthonormalize` flips the first singular vector, not the last, when the axes are mirrored: the result is a rotation but not the closest |
| `C79_singular`, `C79_not_square` | with `demirror`, the default, singular axes give a singular result and axes that are not square raise, although the documentation has shape `[n, m]` |
| `C79_power_nan`, `C79_half_turn_nan` | `power` with real eigenvalues, one of them negative, and a fractional exponent is `nan`: a half turn has no half |
| `C79_angle_nan` | `angle_from_rotation` is `nan` for the point reflection of space of four dimensions, which is a rotation |
| `C80_fundamental_hint` | `pick_fundamental` of regular complexes only assigns `domain` if a hint has to be replaced: right hints raise `UnboundLocalError` |
| `C80_hint_beyond` | `pick_primal` of regular complexes only tests for negative coordinates, not for those above one: a wrong hint is kept |
| `C80_unequal` | the cube with the nearest center need not contain the point when the cubes differ in size |
| `C80_turned` | the coordinates of a point are those of space, but are used along the axes of the cube |
| `C81_assume_interior` | `sample_0(assume_interior=True)` does not take `f0[0]`: the array has one axis more than the points and `map_coordinates` raises `RuntimeError` |
| `C82_solid_not_oriented` | `subdivide_cubical` of tetrahedra never gives coherently oriented cubes, even for coherently oriented tetrahedra: the cubes at neighbouring corners have opposite orientation, and `is_oriented` is not `True` |
| `C83_order_needed` | `Dual.matrices` joins row `i` of `selector_boundary[k]`, which is the `i`-th boundary element in the numbering of the mesh, with column `i` of the boundary topology. If `npi.unique` numbers the boundary elements otherwise the dual has wrong incidence and `average_dual` wrong values. `npi.unique` compares rows of integers as bytes; on a little-endian machine this order need not agree before and after renumbering vertices once there are more than 256 of them, so meshes of dimension three and more can be affected |
| `C84_at_boundary` | `sample_dual_0` does not interpolate the boundary values of `d0`: at the middle of a boundary side it gives the mean of the value there and that of the cube, because `average_dual` gives a primal element the mean over its dual cell and the sampling uses only those; on one unit square with the values of `x` it gives 1/3 at the corner (0, 0) and 1/4 at (0, 1/2) |
| `C85_coarsen_derivative` | `coarsen` does not commute with the derivative, not even up to a factor: on a periodic line of eight cells there is a 0-form whose derivative is coarsened to zero although the derivative of the coarsened form is not zero; the smoothing of a component leaves out its own axes, so forms of different degree are smoothed along different axes (`refine` does commute, and so does `coarsen` with the dual derivative) |
| `C86_tolerance`, `C86_constraint_lost` | `simplify` replaces a diagonal that is within `1e-8` of zero everywhere by the zero operator, without regard to the scale of the problem: on a grid of three dimensions with spacing `1/1000` and constraint, conductance and resistance all equal to one the constraint is dropped and the system becomes singular |
| (reading of `stencil/diffusion.py`) | `System.__getitem__` indexes `B` with a list of slices, which only old versions of numpy take for a tuple; `BlockArray` of blocks of equal shape collapses into one numeric array, which happens for `N = 1` where potential and flux have the same shape; `restrict` is the transpose of `interpolate` only up to `4^n`. The model takes the intended reading of the first two |
| `C87_solid`, `C87_solid_case` | the weights of `optimize_weights_fundamental` are said to make the subdivision "strictly well-centered". In three or more dimensions the center of a domain always lies on the face opposite to its triangle center, so the check of `is_pairwise_delaunay` compares an exact zero with zero, and `pick_fundamental` and `sample_dual_0` always raise. In floating point the zero becomes rounding noise of either sign, so whether a mesh is accepted is accidental (meshes on the sphere are not covered) |
| `C87_acute_fails` | in the plane the same check refuses well-centered meshes of slender triangles, for example the one with the corners (-1, 0), (1, 0) and (0, 5) |
| `C88_boundary_unused` | `weighted_average_operators` multiplies by a matrix that has no entries for boundary faces, so the values that `d0` carries on the boundary are ignored: next to the boundary `sample_dual_0` returns the value at the nearest simplex center, with `weighted=False` it uses the boundary values |
| `C88_vertex_not_linear` | the docstring says that the averages are "equivalent to a mean-value barycentric interpolation". Such interpolations reproduce linear functions; at a vertex inside a hexagon of six acute triangles the averages do not: the weights divide by the distance to the corner once, where barycentric coordinates for this perimeter divide by its square |
| `C89_last_unchecked`, `C89_two_unchecked` | `check_chain` loops over `range(self.n_dim - 2)`, one short of the number of neighbouring pairs: the last boundary map is never looked at, and on complexes of at most two dimensions nothing is |

## Not modelled

Floating point rounding, plotting, random sampling, the numerical work inside ARPACK, AMG, convex hull and Delaunay calls,
the programs in `examples/` except `balance`, and:

* `block.py`: `__getitem__`, `__add__` and `__rtruediv__` of two block arrays, `__truediv__`,
  `identity_like`, `einsum`; nested block arrays.
* `solvers.py`: `solve_minres`.
* `sparse.py`: `inv_diag`, `sparse_zeros`, `zeros_like`, the classes `Axis` and `Sparse`.
* `synthetic.py`: `hexacosichoron`, `optimal_delaunay_sphere`, `delaunay_cube`.
* `complex/base.py`: `affine_transform` (it writes `np.ones_like[...]` and can only raise `TypeError`),
  `primal_metric`, `dual_metric`, `dual_metric_closed`, `multigrid_transfers`; `weighted_average_operators` of complexes
  that are not euclidian simplicial.
* `complex/simplicial/base.py`: `optimize_weights`, `pick_primal_brute`, hints of length one in `pick_primal`.
* `complex/simplicial/spherical.py`: `ComplexCircular.subdivide`, `multigrid_transfer_dual`, `coarse_to_fine`, `fine_to_coarse`.
* `complex/composite.py`: `boundary_info`, `stitcher_d2_flat`, `stitcher_d2`.
* `complex/cubical.py`: `multigrid_transfers`, the conversions `as_*`, `ComplexCubical1.to_simplicial` (it imports a class that does not exist).
* `geometry/euclidian.py`: `is_wellcentered`. `geometry`, `Triangles` and `Clip` with negative indices; weights in `clip`.
* `topology/cubical.py`: `subdivide_octohedral`. `topology/simplicial.py`: `subdivide_loop_direct`, `subdivide_loop_direct_transfer`.
* `stencil/block.py`: `aslinearoperator`;
  `np.asarray(blocks, object)` collapsing lists of equal shapes in `StencilSmooth`.
* `stencil/complex.py`: `from_shape`, `dual_position`, `explicit`, `segment`. `stencil/topology.py`: `explicit`.
  `stencil/operator.py`: `aslinearoperator`. `stencil/util.py`: `totuple`.
* `stencil/equation.py`: `solve_minres`, `solve_minres_normal`, `solve_qmr`, `projected_rows`, `inverse_sg_normal_diagonal`.
* `stencil/linear_system.py`: `allocate_x`, `allocate_y`, `eliminate` and `laplace_beltrami` (both raise
  `NotImplementedError`), `restrict_primal`, `restrict_dual` outside of `stencil/diffusion.py`.
* `stencil/diffusion.py`: `formulate_flux_only`, `formulate_all`. `stencil/experiment.py`.
