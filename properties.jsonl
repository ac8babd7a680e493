{"id": "C01", "title": "permutations enumerates every arrangement once with its true sign", "statement": "For every list L with at least one item, permutations(L) yields exactly len(L)! pairs; when the items are distinct the yielded arrangements are pairwise different and are exactly the rearrangements of L, and the parity yielded with each is the parity of the number of inversions of that arrangement relative to L.", "quantifier": "every non-empty finite list L, every yielded pair", "why_tests_cant": "The list length is unbounded and the sign claim is about all n! outputs for all n; tests check n = 2, 3.", "anchors": ["pycomplex/math/combinatorial.py: permutations"]}
{"id": "C02", "title": "combinations enumerates every subset once; its parity is the last-gap parity", "statement": "For every list L and every n <= len(L), combinations(L, n) yields exactly the length-n sublists of L, each once and in index order, C(len(L), n) of them. For n = 1 the parity is that of the index of the chosen item (the shuffle sign used when orienting cube faces); for n >= 2 the parity is only that of the last chosen index minus (n-1), which is not the shuffle sign in general; for n > len(L) a single spurious empty combination is produced.", "quantifier": "every list L, every n, every yielded pair", "why_tests_cant": "Unbounded list length and subset size; the sign deviation only appears for n >= 2 with non-trailing choices.", "anchors": ["pycomplex/math/combinatorial.py: combinations"]}
{"id": "C03", "title": "Incidence matrices of any simplicial mesh compose to zero", "statement": "For every array of simplices of dimension >= 1 whose rows have distinct corners, if TopologySimplicial.from_simplices succeeds then for every k the product of the k-th and (k+1)-th incidence matrices is the zero matrix (the boundary of a boundary is zero), whatever the order in which unique faces are discovered.", "quantifier": "every dimension, every simplex list (no manifold or connectivity assumption), every level k, every face ordering chosen by the grouping routine", "why_tests_cant": "Meshes are unbounded in size and dimension; the built-in check_chain even skips the top pair of matrices.", "anchors": ["pycomplex/topology/simplicial.py: TopologySimplicial.from_simplices, generate_simplex_boundary, relative_simplex_parity", "pycomplex/topology/base.py: BaseTopology.check_chain", "pycomplex/topology/util.py: topology_matrix"]}
{"id": "C04", "title": "The k-elements are exactly the distinct faces, each once", "statement": "For every simplex array accepted by from_simplices and every k, two different k-elements have different corner sets, every k-element's corner set is a (k+1)-subset of the corners of some input simplex, and every (k+1)-subset of the corners of every input simplex is the corner set of exactly one k-element.", "quantifier": "every simplex list, every k between 0 and the dimension", "why_tests_cant": "Quantifies over all meshes and over all faces; sharing patterns between simplices are unbounded.", "anchors": ["pycomplex/topology/simplicial.py: TopologySimplicial.from_simplices"]}
{"id": "C05", "title": "The c-th boundary of a simplex is the face opposite its c-th corner", "statement": "For every element of dimension k >= 1 produced by from_simplices and every corner c, the c-th boundary index refers to the (k-1)-element whose corners are those of the element with the c-th removed; consequently every incidence column has exactly k+1 entries, each +1 or -1.", "quantifier": "every mesh, level, element and corner", "why_tests_cant": "Picking and metric code rely on this pairing for every simplex; tests only look at a few fixed meshes.", "anchors": ["pycomplex/topology/simplicial.py: generate_simplex_boundary, TopologySimplicial.from_simplices", "pycomplex/topology/util.py: topology_matrix"]}
{"id": "C06", "title": "Incidence signs are the induced orientation signs", "statement": "For every mesh, the incidence entry between a k-element s and its face f opposite corner c is (up to one global sign per level: + at level 1, - above) (-1)^c times the sign of the permutation that takes the face with corner c deleted to the stored corner order of f.", "quantifier": "every mesh, level, element and corner", "why_tests_cant": "Orientation, Stokes' theorem and all DEC operators depend on each of unboundedly many signs.", "anchors": ["pycomplex/topology/simplicial.py: relative_simplex_parity, permutation_map, TopologySimplicial.from_simplices", "pycomplex/topology/util.py: parity_to_orientation"]}
{"id": "C07", "title": "fix_orientation returns a coherently oriented mesh with the same simplices, or fails", "statement": "If the SAT solver is sound and complete, then for every simplicial topology in which every face has at most two incident simplices: relative_parity yields a flip assignment iff an assignment exists making all interior faces cancel; the mesh rebuilt from the flipped simplices has the same simplex corner sets in the same order, and in it every interior face receives opposite induced orientations from its two simplices. Success is not guaranteed for every orientable mesh: it happens exactly if the mesh is orientable and either no two simplices share a face or the last simplex has a neighbour; otherwise ValueError.", "quantifier": "every dimension >= 2, every simplex mesh with at most two simplices on each face, every answer the solver may give", "why_tests_cant": "Solver answers are nondeterministic and meshes unbounded.", "anchors": ["pycomplex/topology/base.py: BaseTopology.relative_parity", "pycomplex/topology/simplicial.py: TopologySimplicial.fix_orientation"]}
{"id": "C08", "title": "is_oriented is exact on connected meshes and only there", "statement": "For a connected mesh (dual graph through interior faces) on which every simplex has an interior face, is_oriented is True iff the mesh is coherently oriented, for every solver answer. On any mesh, True implies coherent. For disconnected meshes a correct solver may make is_oriented False on a coherently oriented mesh.", "quantifier": "every mesh, every solver answer", "why_tests_cant": "Depends on an arbitrary solver's choice among exponentially many models.", "anchors": ["pycomplex/topology/base.py: BaseTopology.is_oriented, BaseTopology.relative_parity"]}
{"id": "C09", "title": "The boundary of a mesh is closed, and oriented if the mesh is", "statement": "For every simplicial mesh the signed sum of all simplex boundaries has itself zero boundary. For every mesh that is_oriented accepts and in which no face has three simplices, boundary is None exactly if every face has two simplices; otherwise it is the mesh of the faces with exactly one simplex, relabelled to consecutive vertices with parent_idx pointing back to the original elements; this mesh is coherently oriented and closed.", "quantifier": "every mesh of dimension >= 2 with a boundary", "why_tests_cant": "All meshes and all boundary shapes.", "anchors": ["pycomplex/topology/primal.py: PrimalTopology.boundary, is_closed, find_correspondence"]}
{"id": "C10", "title": "select_subset keeps exactly the selected simplices with a correct parent map", "statement": "For every mesh and every chain, select_subset keeps exactly the n-elements with non-zero chain value, in order; relabelled corners map back through parent_idx[0] to the original corners, the new vertex numbers are consecutive from 0 and every new vertex is used.", "quantifier": "every mesh, every selection chain", "why_tests_cant": "All chains over meshes of every size.", "anchors": ["pycomplex/topology/primal.py: PrimalTopology.select_subset, find_correspondence", "pycomplex/topology/util.py: element_indices"]}
{"id": "C11", "title": "Interior and boundary selectors split every level", "statement": "For every topology with boundary and every k, each k-element is picked by exactly one row of exactly one of selector_interior[k] and selector_boundary[k]; for a closed or non-oriented topology selector_interior is the identity and the boundary selector is empty; on an oriented mesh with boundary the boundary selector picks exactly the elements lying in a face that has a single simplex.", "quantifier": "every topology, every level and element", "why_tests_cant": "All topologies with arbitrary boundary subsets.", "anchors": ["pycomplex/topology/primal.py: PrimalTopology.selector_interior, selector_boundary"]}
{"id": "C12", "title": "Dual edges of a mesh with boundary always have exactly two ends", "statement": "For every coherently oriented simplicial mesh in which every face has one or two incident simplices, every column of the dual incidence matrix of dual edges to dual vertices (including the dual boundary elements) sums to zero: the dual gradient of a constant is zero.", "quantifier": "every such mesh of every dimension >= 2", "why_tests_cant": "All meshes; correctness depends on sign conventions of boundary elements appended to the dual.", "anchors": ["pycomplex/topology/dual.py: Dual.matrices", "pycomplex/topology/primal.py: PrimalTopology.boundary"]}
{"id": "C13", "title": "Closed dual matrices form a chain complex", "statement": "For every closed simplicial mesh the dual incidence matrices (transposes in reversed order) compose to zero; for a mesh with boundary two consecutive blocked dual matrices compose to zero if and only if the mesh's incidence matrix restricted to the boundary elements equals the boundary's own incidence matrix; this holds for every oriented triangle mesh, but fails for some oriented tetrahedral meshes.", "quantifier": "every mesh and level", "why_tests_cant": "All meshes, levels, and blockings.", "anchors": ["pycomplex/topology/dual.py: ClosedDual.matrices, Dual.matrices"]}
{"id": "C14", "title": "Fundamental domains are exactly the complete flags", "statement": "For every simplicial mesh, fundamental_domains lists for each n-simplex (n+1)! tuples; each tuple is a flag: entry k is a k-element that is a face of entry k+1; within a simplex all flags are distinct and every complete flag of faces of the simplex occurs.", "quantifier": "every mesh, simplex and flag", "why_tests_cant": "All dimensions; number of flags grows factorially.", "anchors": ["pycomplex/topology/simplicial.py: TopologySimplicial.fundamental_domains"]}
{"id": "C15", "title": "Fundamental subdivision with oriented=True alternates consistently", "statement": "For every mesh, the simplices returned by subdivide_fundamental(oriented=True) differ from the flags exactly by a swap of the last two columns in every odd-numbered domain, so that swapping the barycentric coordinates back for odd domain indices (as sample_dual_0 does) recovers the flag order; vertex numbers of level-k elements lie in disjoint consecutive ranges. A coherently oriented mesh gives a coherently oriented subdivision with oriented=True, and with oriented=False neighbouring flags of one simplex always induce the same orientation on the simplex between them.", "quantifier": "every mesh and domain", "why_tests_cant": "All meshes and dimension.", "anchors": ["pycomplex/topology/simplicial.py: TopologySimplicial.subdivide_fundamental", "pycomplex/complex/simplicial/base.py: sample_dual_0"]}
{"id": "C16", "title": "Loop subdivision quarters each triangle consistently", "statement": "For every triangle mesh, subdivide_loop produces 4 triangles per triangle on V + E vertices; the boundary chain of the four children equals the boundary of the parent with every edge replaced by its two half edges, so closed oriented meshes stay closed and oriented.", "quantifier": "every triangle mesh", "why_tests_cant": "All meshes; orientation must hold for all children simultaneously.", "anchors": ["pycomplex/topology/simplicial.py: TopologyTriangular.subdivide_loop"]}
{"id": "C17", "title": "Cubical subdivision of simplices and cubes counts and relations", "statement": "For every topology, decoding a vertex number of the subdivided topology yields the unique (level, element) pair it was encoded from: the parent relations computed by subdivide_cubical_relations invert the offset encoding.", "quantifier": "every list of level sizes and every vertex number in range", "why_tests_cant": "All sizes, including empty levels.", "anchors": ["pycomplex/topology/cubical.py: subdivide_cubical_relations, subdivide_cubical"]}
{"id": "C18", "title": "Splitting quads into triangles preserves orientation", "statement": "For every quad mesh, TopologyCubical2.subdivide_simplicial yields four triangles per quad around the quad centre; the boundary chain of the four triangles equals the boundary loop of the quad (the inner edges cancel), so coherently oriented quads give coherently oriented triangles, and parent maps send each triangle to its quad.", "quantifier": "every quad list", "why_tests_cant": "All meshes and degenerate index patterns.", "anchors": ["pycomplex/topology/cubical.py: TopologyCubical2.subdivide_simplicial"]}
{"id": "C19", "title": "Incidence matrices of any cubical mesh compose to zero", "statement": "For every array of n-cubes (n >= 1) with distinct corners, from_cubes with mirror=True succeeds exactly when the corners are numbered 0..m-1, the faces have fewer than 128 corners, and any two faces with the same corners are the same cube listed along permuted or reversed axes. The result then stores on every level each face of the cubes once; slots 2i and 2i+1 of a boundary row hold the two sides along axis i; the incidence entry is the sign of the stored face relative to that side, alternating over sides and axes, and zero for all other pairs; and the product of any two consecutive incidence matrices is zero. With mirror=False the product is not zero, already for one square.", "quantifier": "every dimension, every list of cubes with distinct corners, every level, every order in which the grouping routine finds the faces", "why_tests_cant": "All meshes in all dimensions; the built-in check_chain skips the top pair of matrices.", "anchors": ["pycomplex/topology/cubical.py: TopologyCubical.from_cubes, generate_cube_boundary, relative_cube_parity", "pycomplex/topology/util.py: topology_matrix, relative_permutations"]}
{"id": "C20", "title": "Cube symmetry lookup is complete and its sign is multiplicative", "statement": "For every dimension n >= 1 the permutation map of the n-cube has exactly 2^n n! distinct entries, one for every permutation of the axes and every set of reversed axes, and each reported parity is the parity of the axis permutation plus the number of reversed axes. For two listings of the same corners, relative_cube_parity gives the parity of the symmetry between them and raises ValueError exactly when there is none; the signs multiply under composition.", "quantifier": "every n (below the int8 guard), every cube symmetry, every pair of cubes with the same corners", "why_tests_cant": "2^n n! entries for every n and all pairs of cubes.", "anchors": ["pycomplex/topology/cubical.py: permutation_map, relative_cube_parity"]}
{"id": "C21", "title": "Product of cubical topologies pairs elements bijectively", "statement": "For every pair of vertex counts the vertex numbering s + o*n_s of TopologyCubical.product is a bijection between pairs and 0..n_s*n_o-1, the vertices of the product complex are listed in the same order, and there are n*m top elements with the corners of (i,j) being the product of the corners. If no factor has two cubes on the same corners and the dimensions add up to 1..7, the product is accepted (it can fail otherwise); its elements are, up to symmetry, exactly the products of elements, so the counts convolve and Euler characteristics multiply; the incidence entries obey the Leibniz rule; and the product of connected topologies that are oriented according to is_oriented is oriented according to is_oriented.", "quantifier": "every two topologies", "why_tests_cant": "All sizes.", "anchors": ["pycomplex/topology/cubical.py: TopologyCubical.product", "pycomplex/complex/cubical.py: ComplexCubical.product"]}
{"id": "C22", "title": "n_cube_grid lists every grid cube once with its own corners", "statement": "For every shape, n_cube_grid yields one cube per grid cell; the corner selected by a 0/1 offset vector o of the cube at cell c is the vertex whose coordinates are c + o, and all vertices are used. Centering moves every vertex by half the size of the grid. For up to seven dimensions the topology is accepted and is_oriented holds; it has as many k-elements as the grid has boxes of dimension k, so that its Euler characteristic is one. From eight dimensions on n_cube_grid raises.", "quantifier": "every tuple of positive cell counts, every cell, every corner", "why_tests_cant": "All shapes and dimensions; relies on a stride trick.", "anchors": ["pycomplex/synthetic.py: n_cube_grid"]}
{"id": "C23", "title": "Averaging operators take means, up to five levels", "statement": "For every simplicial topology, averaging_operators_0[k] applied to values on the vertices gives on every k-simplex the mean of the values on its corners, for k up to 5; averaging_operators_N[k] applied to values on the n-simplices gives on every k-simplex the mean over the n-simplices it is a face of, of which there is at least one, for n-k up to 5. So constants are reproduced. Six and seven levels apart the int8 path counts wrap around and both give minus the mean, for every topology that has these levels.", "quantifier": "every accepted list of simplices of every dimension, every level, element and chain of values", "why_tests_cant": "All topologies; wrap-around only appears at dimension 6 and above.", "anchors": ["pycomplex/topology/base.py: averaging_operators_0, averaging_operators_N, accumulated_operators_0", "pycomplex/sparse.py: normalize_l1"]}
{"id": "C24", "title": "degree counts incident n-simplices unless it overflows", "statement": "For every simplicial topology and every level k at most nine below the top, degree[k] is the number of n-simplices each k-simplex is a face of, as long as that number stays below 128; in general it is that number reduced to int8. A vertex with 128 edges gets degree -128, one with 256 edges degree 0.", "quantifier": "every accepted list of simplices, level and element; stars with any number of edges", "why_tests_cant": "A vertex of arbitrarily high valence.", "anchors": ["pycomplex/topology/base.py: BaseTopology.degree"]}
{"id": "C25", "title": "The stencil derivative table lists every face pair with the exterior derivative sign", "statement": "For every dimension N and every n, the generated table of the n-th derivative contains exactly the triples (n-subset s, (n+1)-subset t, axis d) with t = s + {d}, each once, and its parity is that of the number of axes of t beyond d, so that StencilTopology.primal computes the exterior derivative of the periodic grid.", "quantifier": "every N and n < N", "why_tests_cant": "All dimensions.", "anchors": ["pycomplex/stencil/util.py: generate", "pycomplex/stencil/topology.py: primal"]}
{"id": "C26", "title": "Stencil exterior derivative squares to zero", "statement": "For every grid shape, every degree n and every form f over any commutative ring of coefficients, applying the stencil derivative twice gives zero, on the periodic grid.", "quantifier": "every N, shape, n, form", "why_tests_cant": "All shapes, all data.", "anchors": ["pycomplex/stencil/topology.py: StencilTopology.primal"]}
{"id": "C27", "title": "Stencil dual derivative is the exact adjoint of the primal", "statement": "For every grid and forms f, g of degree n and n+1: <d f, g> = <f, d* g> where d* is the operator StencilTopology.dual pairs with the primal derivative.", "quantifier": "every N, shape, n and pair of forms", "why_tests_cant": "All data and shapes.", "anchors": ["pycomplex/stencil/topology.py: StencilTopology.primal, dual"]}
{"id": "C28", "title": "Stencil derivatives never read uninitialised output", "statement": "For every N and n, both inner functions write every component of their output before accumulating into it and leave no component uninitialised.", "quantifier": "every N and n", "why_tests_cant": "Depends on the loop order over an unbounded table.", "anchors": ["pycomplex/stencil/topology.py: StencilTopology.primal (initialized flags)"]}
{"id": "C29", "title": "Coarsen after refine is the identity; transfers are adjoint", "statement": "For every even grid shape and degree n, coarsening a refined n-form (transfers[n] after its transpose) returns it unchanged, and the two are adjoint up to the factor 2^n. util.binning preserves the mean of every array. coarse raises AssertionError exactly on grids with an odd axis and undoes fine. The transfer of forms of lower degree samples instead of averaging, so it need not preserve the mean.", "quantifier": "every shape, axis set, and field over a field of characteristic zero", "why_tests_cant": "All shapes and data.", "anchors": ["pycomplex/stencil/topology.py: StencilTopology.transfers", "pycomplex/stencil/util.py: binning"]}
{"id": "C30", "title": "Stencil coarsening commutes with the exterior derivative", "statement": "For every even grid and every form, restricting then differentiating equals (up to the constant scale factor 2) differentiating then restricting.", "quantifier": "every shape, degree and form", "why_tests_cant": "All data and shapes.", "anchors": ["pycomplex/stencil/topology.py: StencilTopology.transfers, primal"]}
{"id": "C31", "title": "Stencil averaging preserves constants and total", "statement": "For every N, degree and axis set, averaging_operators_0 maps constant 0-forms to constant n-forms, and preserves the sum over the grid of each component.", "quantifier": "every N, shape, component", "why_tests_cant": "All shapes and data.", "anchors": ["pycomplex/stencil/topology.py: StencilTopology.averaging_operators_0"]}
{"id": "C32", "title": "simplify never changes what a stencil operator computes", "statement": "For every stencil operator expression in which adjacent derivatives cancel (the type-correct compositions) and whose diagonal entries are told apart from 0 and 1 by np.allclose, products included, simplify returns an operator computing the same result on every field. The code does not keep this beyond those conditions: the product of two diagonals with entries of 1e-4 becomes the zero operator, and shape-compatible compositions such as d0 followed by d0 when N = 1 are replaced by zero.", "quantifier": "every operator expression, every input field", "why_tests_cant": "Unbounded expression trees.", "anchors": ["pycomplex/stencil/operator.py: ComposedOperator.simplify, ComposedOperator.is_zero, CombinedOperator.simplify, DiagonalOperator.simplify"]}
{"id": "C33", "title": "transpose of any composed stencil operator is its adjoint and an involution", "statement": "For every operator expression built by composition and addition from derivative, dual derivative, diagonal, identity, zero and symmetric operators, <A x, y> = <x, A.transpose() y> and A.transpose().transpose() computes the same as A.", "quantifier": "every expression tree and fields", "why_tests_cant": "Unbounded expressions.", "anchors": ["pycomplex/stencil/operator.py: StencilOperator.transpose, ComposedOperator.transpose, CombinedOperator.transpose"]}
{"id": "C34", "title": "Simplification terminates in a flat normal form", "statement": "For every expression simplify terminates without an exception, keeps the shapes, is idempotent, and its result contains no zero operator inside a sum or product, no identity factor inside a product, no product directly in a product, no sum directly in a sum, and no two adjacent diagonals or derivatives; this holds at every depth for everything computed with *, +, transpose and simplify.", "quantifier": "every expression", "why_tests_cant": "Unbounded expression trees; rewriting loop.", "anchors": ["pycomplex/stencil/operator.py: ComposedOperator.simplify, CombinedOperator.simplify"]}
{"id": "C35", "title": "Block array flattening round-trips", "statement": "For every list of blocks whose lengths are not all equal, pycomplex.block's split(merge(x)) = x and merge(split(v)) = v; blocks of equal length are collapsed by np.asarray into one matrix, so that merge returns a matrix and split raises IndexError. For stencil BlockArray, from_dense(to_dense(x)) = x holds with at most two blocks and raises ValueError for every array of three or more blocks whose first two are nonempty.", "quantifier": "every list of block sizes and data", "why_tests_cant": "All block structures.", "anchors": ["pycomplex/block.py: DenseBlockArray.split, merge", "pycomplex/stencil/block.py: BlockArray.to_dense, from_dense"]}
{"id": "C36", "title": "Sparse block algebra agrees with the merged matrices", "statement": "For every conforming pair of block matrices, merging the block product equals the product of the merged matrices; likewise for transpose; a block vector is a block matrix with one column. A None block counts as zero when merging, but makes the product raise TypeError.", "quantifier": "every block structure and entries", "why_tests_cant": "All block shapes.", "anchors": ["pycomplex/block.py: SparseBlockMatrix.__mul__, merge, T"]}
{"id": "C37", "title": "Stencil block operator product composes, transpose is adjoint", "statement": "For all conforming block operators (A*B)x = A(Bx), (A*x) distributes over blocks, and <A x, y> = <x, A.transpose() y>.", "quantifier": "every block shape and operators", "why_tests_cant": "All block shapes and data.", "anchors": ["pycomplex/stencil/block.py: BlockOperator.__mul__, vector_mul, transpose"]}
{"id": "C38", "title": "The canonical system is symmetric; normal equations are symmetric positive semidefinite", "statement": "For every complex and every n, the block operator built by System.canonical equals its own transpose, and <x, normal() x> = |A x|^2 >= 0; every solution of the system solves the normal equations. The part on normal() holds for the scales whose powers up to 2 n_dim are not mistaken for 0 or 1 by the tolerances of simplify, and fails for others.", "quantifier": "every complex, every right-hand side", "why_tests_cant": "All grids and data.", "anchors": ["pycomplex/stencil/linear_system.py: System.canonical, normal"]}
{"id": "C39", "title": "Multigrid cycles keep exact solutions fixed", "statement": "For every hierarchy depth and cycle, if x solves the fine equation exactly and the smoother and the linear coarse solver fix exact solutions (in particular zero for zero right-hand side), v_cycle returns x unchanged; solve_v_cycle likewise for every number of iterations.", "quantifier": "every hierarchy, number of cycles and smoothing steps", "why_tests_cant": "Unbounded recursion depth and iteration count.", "anchors": ["pycomplex/stencil/multigrid.py: v_cycle, solve_v_cycle"]}
{"id": "C40", "title": "Smoothers fix exact solutions; NR steps reduce the residual direction correctly, NE block step has the wrong sign", "statement": "jacobi, NR block Gauss-Seidel, NE block Gauss-Seidel and overrelax leave every exact solution unchanged for every operator, relaxation and knot sequence; for the NE block step on a one-by-one system the error is multiplied by 1.5 instead of being reduced.", "quantifier": "every system, iterate and parameter", "why_tests_cant": "All systems and data.", "anchors": ["pycomplex/stencil/equation.py: Equation.residual, NormalSmoothEquation.jacobi, NR_BLOCK_GS, NE_BLOCK_GS, overrelax, smooth"]}
{"id": "C41", "title": "Grid hierarchy halves until odd and coarse/fine are inverse", "statement": "For every shape and number of levels, hierarchy(levels) returns levels + 1 complexes, coarsest first, whose i-th entry from the end has each axis divided by 2^i and scale multiplied by 2^i; it raises AssertionError exactly if some axis is not divisible by 2^levels. coarse(fine(c)) = c in shape and scale, and fine(coarse(c)) = c whenever coarse succeeds.", "quantifier": "every shape and number of levels", "why_tests_cant": "All shapes.", "anchors": ["pycomplex/stencil/multigrid.py: MultiGridEquation.hierarchy", "pycomplex/stencil/topology.py: StencilTopology.coarse, fine", "pycomplex/stencil/complex.py: coarse, fine"]}
{"id": "C42", "title": "Conjugate gradient keeps its residual truthful", "statement": "For every linear operator, right-hand side, start and number of iterations, the residual solve_cg tracks equals rhs - A x, so a zero tracked residual certifies an exact solution. For symmetric positive semidefinite operators the energy of the result never exceeds that of the start, and for symmetric operators on a space of dimension n the loop ends by itself within n + 1 iterations, so that a larger iteration limit changes nothing (in exact arithmetic).", "quantifier": "every linear operator, every iteration count", "why_tests_cant": "Unbounded number of iterations.", "anchors": ["pycomplex/solvers.py: solve_cg"]}
{"id": "C43", "title": "3x3 adjoint, inverse and inverse_transpose are exact", "statement": "For every 3x3 matrix A over a field: rows of adjoint(A) are the cofactors, A * inverse(A) = 1 and inverse_transpose(A) = inverse(A)^T whenever det(A) is non-zero; null(A) is orthogonal to every row of a singular matrix.", "quantifier": "every 3x3 matrix", "why_tests_cant": "Infinite input domain.", "anchors": ["pycomplex/math/linalg.py: adjoint, inverse, inverse_transpose, null"]}
{"id": "C44", "title": "Multilinear sampling is exact on multilinear data and a partition of unity", "statement": "For every dimension and sample point the corner weights are non-negative in the cell, sum to one, and reproduce constants and each coordinate function exactly; at a corner the sampled value is the corner's value.", "quantifier": "every dimension, point and data", "why_tests_cant": "Infinite domain.", "anchors": ["pycomplex/complex/regular.py: sample_primal_0"]}
{"id": "C45", "title": "Weight lifting turns nearest neighbour into power diagram lookup", "statement": "For every finite list of weights and points, the squared distance in the augmented space equals the power distance plus the constant max(weights), so pick_dual's nearest neighbour query returns the site of least power distance.", "quantifier": "every weights, sites and query point", "why_tests_cant": "Infinite domain.", "anchors": ["pycomplex/complex/simplicial/base.py: weights_to_offsets, augment, pick_dual"]}
{"id": "C46", "title": "pairs and accumulate walk the whole sequence", "statement": "For every sequence, accumulate yields all running products (length preserved, last = total); pairs yields exactly the consecutive pairs before ending with the generator error; the stencil adjacent pair helper loses pairs after a falsy item.", "quantifier": "every sequence", "why_tests_cant": "Unbounded sequences.", "anchors": ["pycomplex/util.py: pairs, accumulate", "pycomplex/stencil/util.py: adjecent_pairs"]}
{"id": "C47", "title": "Surface area vector of a closed mesh vanishes and enclosed volume is translation invariant", "statement": "For every triangle mesh whose directed edges cancel, the sum of triangle normals is the zero vector and volume() does not change under translation of all vertices; for open meshes it may.", "quantifier": "every closed triangle mesh and every translation", "why_tests_cant": "All meshes, all positions.", "anchors": ["pycomplex/complex/simplicial/euclidian.py: ComplexTriangularEuclidian3.volume, triangle_normals, translate"]}
{"id": "C48", "title": "Clipping keeps exactly one side and puts new vertices on the plane", "statement": "For every triangle mesh whose positions are exactly the vertices of its topology and every plane: every vertex clip inserts lies on the plane and on an edge that crosses it; clip(clip=False) splits every crossing triangle into three that have its boundary (with the inserted vertices), its plane, its side and its area together, so closed surfaces stay closed and the volume does not change; clip(clip=True) keeps exactly the split triangles with no corner strictly on the positive side. With an unused position the claim fails.", "quantifier": "every mesh and plane", "why_tests_cant": "All meshes and planes including degenerate touching.", "anchors": ["pycomplex/complex/simplicial/euclidian.py: ComplexTriangularEuclidian3.clip"]}
{"id": "C49", "title": "Transfer of level sizes: Euler characteristic is preserved by subdivision", "statement": "For every triangle mesh, loop subdivision changes V - E + F by exactly three times the number of triangles that repeat the corner set of another; so it is preserved exactly if no two triangles have the same corners.", "quantifier": "every triangle mesh", "why_tests_cant": "All meshes.", "anchors": ["pycomplex/topology/simplicial.py: TopologyTriangular.subdivide_loop"]}
{"id": "C50", "title": "Loop transfer matrices commute with the boundary", "statement": "For every triangle mesh, with T0, T1, T2 = subdivide_loop_transfer: M0_fine T1 = T0 M0 and M1_fine T2 = T1 M1, i.e. transferring a chain and taking the boundary may be exchanged; column i of T1 has a one exactly at the two half edges of edge i.", "quantifier": "every triangle mesh", "why_tests_cant": "Depends on the orientation given to each half edge by the first triangle that contains it; all meshes.", "anchors": ["pycomplex/topology/simplicial.py: TopologyTriangular.subdivide_loop_transfer"]}
{"id": "C51", "title": "rotation_from_plane is a quarter turn of the plane and fixes its complement", "statement": "For all orthonormal u, v the matrix rotation_from_plane(u, v) is orthogonal, sends u to -v and v to u, and leaves every vector orthogonal to both unchanged.", "quantifier": "every dimension and every orthonormal pair over any field", "why_tests_cant": "All dimensions and all pairs of vectors.", "anchors": ["pycomplex/math/linalg.py: rotation_from_plane"]}
{"id": "C52", "title": "Multigrid with linear smoothers is a linear operator", "statement": "For every hierarchy of linear equations whose smoothers and coarse solver are linear, the multigrid preconditioner and one full cycle from zero are linear functions of the right-hand side, so they can serve as a preconditioner of a Krylov method.", "quantifier": "every hierarchy depth, number of cycles and right-hand sides", "why_tests_cant": "Linearity of a recursive algorithm over all depths cannot be tested on samples.", "anchors": ["pycomplex/stencil/multigrid.py: as_preconditioner, solve_full_cycle, v_cycle"]}
{"id": "C53", "title": "BlockOperator.diagonal computes row sums over a checkerboard; it is the diagonal on grids with even axes only", "statement": "For a square block operator of a stencil complex, diagonal() returns for every entry the sum of the row of the diagonal block over all entries of the same component whose grid index has the same parity. For the normal equations of the canonical system on a periodic grid with even axes this is exactly the diagonal: the squared length of the column of the system, which is positive, so inverse_normal_diagonal is its inverse. On a periodic grid with an odd axis it is not the diagonal.", "quantifier": "every grid shape with even axes, dimension, scale clear of the tolerances of simplify, component and cell; a witness with an odd axis", "why_tests_cant": "The pattern trick is exact or wrong depending on parity and wrap-around; tests run on a few even shapes.", "anchors": ["pycomplex/stencil/block.py: BlockOperator.diagonal, BlockArray.invert", "pycomplex/stencil/util.py: checkerboard", "pycomplex/stencil/equation.py: inverse_normal_diagonal"]}
{"id": "C54", "title": "vertex_normals is six times the gradient of the enclosed volume", "statement": "The docstring of vertex_normals says it 'corresponds to the volume-gradient of the complex'. On every closed triangle mesh it has one row per vertex, and moving vertex i by t changes volume() by exactly one sixth of the product of row i with t, for every t, not only small ones.", "quantifier": "every closed triangle mesh, vertex and displacement", "why_tests_cant": "An identity over all meshes and displacements; tests see a few meshes and floats.", "anchors": ["pycomplex/complex/simplicial/euclidian.py: ComplexTriangularEuclidian3.vertex_normals, volume, triangle_normals"]}
{"id": "C55", "title": "signed_volume and unsigned_volume are volumes: affine maps, subdivision, measure", "statement": "signed_volume(pts) of n + 1 points in n dimensions is alternating in the points, equals 1/n! on the unit corner, is multiplied by the determinant under every affine map, adds up exactly when a simplex is split at any point, vanishes exactly for degenerate simplices, and its absolute value is the Lebesgue measure of the convex hull of the points. unsigned_volume(pts), in any dimension at least n, equals its absolute value when the dimensions agree, depends on nothing but the distances between the points, equals the measure of a congruent copy of the simplex in n dimensions, and vanishes exactly for degenerate simplices. With the wrong number of points signed_volume raises and unsigned_volume does not.", "quantifier": "every dimension, every simplex, every affine map and splitting point", "why_tests_cant": "Quantifies over all dimensions and real simplices and speaks about measure; floats at sample points cannot show it.", "anchors": ["pycomplex/geometry/euclidian.py: signed_volume, unsigned_volume"]}
{"id": "C56", "title": "segment_normals is the generalised cross product; the area of a planar curve", "statement": "For every simplex of n corners in n dimensions segment_normals(pts) is orthogonal to all its edges, its product with the offset of any further point is the signed volume of the simplex with that point times a factorial and a fixed sign, it changes sign when two corners are exchanged, and its length is a factorial times unsigned_volume. The area that ComplexCubical1Euclidian2 computes from it by volume() is the enclosed (shoelace) area of the directed edges of a closed planar curve; since the edges need not be directed consistently it can be wrong for a curve with arbitrary edge directions.", "quantifier": "every dimension and simplex; every closed directed planar curve; a witness for undirected edges", "why_tests_cant": "All dimensions and all real simplices, and the sign convention in each dimension.", "anchors": ["pycomplex/geometry/euclidian.py: segment_normals", "pycomplex/complex/cubical.py: ComplexCubical1Euclidian2.volume"]}
{"id": "C57", "title": "Circumcenters: the point of equal power, as long as the tolerance does not interfere", "statement": "For points in general position with any weights there is exactly one point of their affine hull with the same power from all of them. If no nonzero eigenvalue of any simplex of the call is smaller than any eigenvalue of the call by more than the factor ratio = 1e6, circumcenter_barycentric returns its coordinates for every simplex that has one, and circumcenter returns it. circumcenter_barycentric_weighted returns its coordinates for all points in general position. The condition cannot be dropped: a vertex at squared distance 500 or more from the origin gets the coordinate 1/2, so primal_position puts it halfway to the origin; a vertex at the origin gets the coordinate 0 if another vertex of the call is far away; simplices with edges of about half a thousandth are given their centroid, whatever their shape and weights.", "quantifier": "every number of points, dimension, list of simplices and weights; every far vertex; every small simplex", "why_tests_cant": "The tolerance compares eigenvalues of different simplices of one call, so correctness depends on scale and on unrelated elements; tests use a few simplices of size one near the origin.", "anchors": ["pycomplex/geometry/euclidian.py: circumcenter_barycentric, circumcenter_barycentric_weighted, circumcenter", "pycomplex/complex/simplicial/euclidian.py: primal_barycentric, primal_position"]}
{"id": "C58", "title": "pinv is the pseudoinverse of tall matrices only; circumcenter_construction", "statement": "For every matrix with at least as many rows as columns whose singular values are zero or at least r times the largest, pinv satisfies the four Penrose conditions, which determine it, and for an invertible matrix it is the inverse. With it circumcenter_construction returns the weighted circumcenter whenever there are more points than dimensions and a circumcenter exists. For every matrix with more columns than rows and at least two rows pinv raises a ValueError, so circumcenter_construction raises for triangles in space; for a single row it returns a matrix that need not be the pseudoinverse, and the circumcenter of an edge in the plane need not lie on the edge.", "quantifier": "every shape and every matrix; every simplex; witnesses for rows", "why_tests_cant": "Quantifies over all matrices and the results of an external decomposition.", "anchors": ["pycomplex/math/linalg.py: pinv", "pycomplex/geometry/euclidian.py: circumcenter_construction"]}
{"id": "C59", "title": "metric: primal measures are volumes, dual measures are circumcentric volumes", "statement": "For every oriented simplicial complex without degenerate simplices, and without interference of the tolerance of the circumcenters, metric returns two lists with one array per dimension. The primal measure of every element is its unsigned volume if the circumcenters of its proper faces, and for elements below the top dimension of the element itself, lie inside; this needs no condition for curves and surfaces, nor for vertices and edges in any dimension. The dual measure of an element is the sum, over the simplices around it and the orders in which the missing corners can be added, of the volumes spanned by the circumcenters on the way, counted negative on a last step to the outside; it is not negative if all circumcenters lie inside. The dual measures of the vertices always add up to the primal measures of the simplices, and the products of primal and dual measures of the elements of dimension k add up to that total times n over k. In three dimensions the measure of a tetrahedron is its volume times an explicit factor, and a tetrahedron of volume 2 with an obtuse face is given 11/3. A complex that is not oriented raises an AssertionError.", "quantifier": "every dimension, every oriented non-degenerate complex, every embedding dimension; a witness for obtuse faces", "why_tests_cant": "Quantifies over all dimensions and all positions of all complexes; whether measures are right depends on where circumcenters lie, and tests look at a few well-centered meshes.", "anchors": ["pycomplex/complex/simplicial/euclidian.py: ComplexSimplicialEuclidian.metric, primal_barycentric, primal_position"]}
{"id": "C60", "title": "Angles, vertex areas and cotangent ratios of triangle meshes", "statement": "triangle_angles returns at position i the angle at corner i, for triangles in any dimension; the angles add up to pi unless the three corners coincide, and then to 3 pi / 2. compute_vertex_areas returns for every vertex a third of the areas of the triangles around it, and these add up to the area of the mesh. compute_edge_ratio returns for every edge, in the numbering of the edges of the topology, half of the sum of the cotangents of the angles opposite to it; for every oriented mesh, obtuse triangles included, this is the dual length of metric divided by the primal length (the docstring states the inverse), and for an edge between two triangles it is nonnegative exactly if the opposite angles add up to at most pi. With vertex weights it raises an AssertionError.", "quantifier": "every triangle in every dimension; every mesh without degenerate triangles; all positions", "why_tests_cant": "Real-valued identities over all meshes; a misnumbered edge or a wrong angle can stay hidden on the symmetric meshes used in tests, and obtuse triangles and signs are not compared with the metric.", "anchors": ["pycomplex/geometry/euclidian.py: triangle_angles", "pycomplex/complex/simplicial/euclidian.py: ComplexTriangularEuclidian.compute_triangle_angles, compute_triangle_areas, compute_vertex_areas, compute_edge_ratio"]}
{"id": "C61", "title": "Weighted circumcenters, dual edge excess, well-centered and pairwise Delaunay complexes", "statement": "primal_barycentric and primal_position are, for every element of every dimension and with or without vertex weights, the point of equal power and its coordinates in the order of the corners. In at least two dimensions dual_edge_excess is the squared distance of this point from that of the face opposite to a corner, negative exactly if it lies beyond the face. remap_boundary_N and remap_boundary_0 add the values of all slots of a face or vertex. is_pairwise_delaunay is true exactly if, for every face between two simplices that lie on different sides of it, the corner of the one lies outside the (weighted) circumsphere of the other, and for every face of one simplex the center lies on the inner side; without weights exactly if all dual edges have positive length. is_well_centered is true exactly if all centers of all elements lie strictly inside, which implies pairwise Delaunay and, without weights, a positive dual metric and positive hodges, volume over dual measure and its inverse. In one dimension the excess pairs faces with the wrong corners, and the measures of weighted complexes take their signs from the circumcenters without weights: a weighted line meets the condition and has positive dual measures, but is not pairwise Delaunay according to the code, and is measured 5/2 instead of 2.", "quantifier": "every dimension from two, every complex without degenerate simplices, all weights; a witness in one dimension", "why_tests_cant": "Tests compare a few meshes; the equivalence with the empty-sphere condition, for all weights and dimensions, and the pairing of faces and corners are not visible there.", "anchors": ["pycomplex/complex/simplicial/base.py: dual_edge_excess, remap_boundary_N, remap_boundary_0", "pycomplex/complex/base.py: is_pairwise_delaunay, is_well_centered, positive_dual_metric, hodge_PD, hodge_DP", "pycomplex/complex/simplicial/euclidian.py: primal_barycentric, primal_position, metric"]}
{"id": "C62", "title": "pick_primal finds the simplex with the least power; sample_primal_0 interpolates", "statement": "For every oriented, connected, pairwise Delaunay complex that fills its space (from two dimensions on, with or without vertex weights), the weights that pick_primal_precomp solves for are the squared radii of the circumspheres up to a common constant, and pick_primal returns for every point a simplex with the least power of the point with respect to its circumsphere, with the barycentric coordinates of the point in it. If the mesh is a Delaunay triangulation, this simplex contains every point of the mesh, so no coordinate is negative; pairwise Delaunay is enough for a point from whose simplex every other one can be reached through faces, each step away from the point. A hint is kept exactly if its simplex contains the point, and otherwise the search decides; a hint that names no simplex raises. Without weights the simplex with the nearest circumcenter is returned. sample_primal_0 combines the values at the corners with these coordinates: it reproduces affine functions at every point, and over a Delaunay triangulation stays between the extreme values at the vertices and returns the value of a vertex at the vertex. A complex that is not pairwise Delaunay raises an AssertionError. Pairwise Delaunay alone is not enough: over a connected mesh with a notch, and over a Delaunay mesh of two parts, pick_primal returns for a point inside of a triangle another triangle, with a negative coordinate.", "quantifier": "every dimension from two, every complex without degenerate simplices, all weights and all points, every solver and every nearest neighbour search; witnesses for the last part", "why_tests_cant": "Correctness is a statement about all points and about a lifted linear system that depends on the whole mesh; tests sample a few convex meshes, where the shortcut works.", "anchors": ["pycomplex/complex/simplicial/base.py: pick_primal_precomp, pick_primal, sample_primal_0", "pycomplex/complex/simplicial/euclidian.py: homogenize"]}
{"id": "C63", "title": "Lengths, areas, circumcenters and intersections on the sphere", "statement": "Between points of the unit sphere of any dimension edge_length is the angle between them: symmetric, zero only between equal points, with the triangle inequality; the result is nan exactly if the product of the vectors is larger than one in size. For three vectors of space that are not in a plane, triangle_area_from_corners and unsigned_volume return the area of the spherical triangle (the surface measure of the points of the unit sphere in their cone), positive and less than half of the sphere. Neither the order nor the lengths of the corners matter, rotations and reflections keep the area, and areas add up when a triangle is split at a point of an edge or inside. For corners in a plane the area is zero if one is on the arc between the others or two coincide, half of the sphere if the arcs make up a great circle, but pi / 2 if all three coincide. If the center is inside of the triangle and equally far from the corners, triangle_areas_around_center returns the areas of the points nearest to each corner, which add up to the triangle. edge_circumcenter is the middle of the arc (nan for opposite points). circumcenter of three or more points of the sphere is the nearest point of the sphere that is equally far from all of them, nan if the euclidian circumcenter is the origin. triangle_circumcenter returns the opposite point for corners in counterclockwise order. intersect_edges returns the point where two arcs cross if the second one ends on the left of the first one, and the opposite point otherwise. unsigned_volume raises a ValueError for triangles outside of three dimensions and returns None for four or more points.", "quantifier": "all points of the sphere, in every dimension where the code allows it; all triangles, degenerate ones included; all centers and all arcs", "why_tests_cant": "That the angle formula is the area is a theorem about surface measure; additivity and the nearest-corner parts quantify over all triangles and points, and which of two opposite points is returned depends on orientation.", "anchors": ["pycomplex/geometry/spherical.py: edge_length, triangle_area_from_normals, triangle_area_from_corners, triangle_areas_around_center, unsigned_volume, edge_circumcenter, triangle_circumcenter, circumcenter, intersect_edges"]}
{"id": "C64", "title": "The metric of complexes on the sphere", "statement": "For an oriented complex of triangles with the (weighted) circumcenters inside of all elements, and whose corners are independent so that no triangle contains the center of the sphere, metric returns for a sphere of radius r: as primal measures one for a vertex, the length of its arc for an edge and the area of its spherical triangle for a triangle; as dual measures one for a triangle, for an edge the sum of the arcs from its center to the centers of its triangles, and for a vertex the sum of the areas of the spherical triangles that it forms with the center of an edge and the center of a triangle. For edges, on a sphere of any dimension, the dual measure of a vertex is the sum of the arcs to the centers of its edges. The measures of the triangles and the dual measures of the vertices have the same total, the area of the sphere if the triangles tile it. Without weights, with all vertices on the sphere, the dual measure of a vertex is the area of those points of its triangles whose nearest corner is the vertex, the dual measure of an edge between two triangles on opposite sides is the length of the arc between their centers, and the center of an edge is the middle of its arc. metric raises an AssertionError for complexes without orientation, with a circumcenter that is not strictly inside of its element, or of more than two dimensions. primal_position is on the unit sphere, in the direction of the circumcenter, and nan exactly for a circumcenter at the center of the sphere.", "quantifier": "all complexes of triangles on the sphere and of edges on the spheres of all dimensions, all positions, weights and radii", "why_tests_cant": "The measures are sums over flags of corners grouped by element; that they are the areas and arcs of the cells, for every mesh, needs surface measure. A test sees one total.", "anchors": ["pycomplex/complex/simplicial/spherical.py: primal_barycentric, primal_position, metric"]}
{"id": "C65", "title": "Connected components, splitting and the test for manifolds", "statement": "For every list of simplices, label_connections gives two simplices the same label exactly if one gets from one to the other through simplices with a common face; the labels are 0, ..., n_components - 1 and n_components is the number of these classes. is_connected is true exactly if there is one class. split_connected_components succeeds and returns the classes, from the largest to the smallest and together all simplices, each with the simplices of its class in their order up to a renumbering of the vertices, with correct parent indices, and connected. Up to dimension nine regions_per_vertex counts the classes among the simplices around a vertex that are linked without leaving them, and is_manifold is true exactly if there is one around every vertex; so three triangles on one edge are accepted. From dimension ten on the int8 incidences wrap around to zero, and everything is rejected, even a single simplex. For squares the claim about labels fails: in a strip of two squares with a half twist the common edges cancel.", "quantifier": "all dimensions below 255, all lists of simplices (also with repeated ones), every program that finds the components of a graph; witnesses for the findings", "why_tests_cant": "Connectivity is a statement about paths of any length; that signed incidences never cancel for simplices, but do for squares, and the overflow in high dimensions are not reached by examples.", "anchors": ["pycomplex/topology/base.py: regions_per_vertex, label_connections, is_connected, check_manifold, is_manifold", "pycomplex/topology/primal.py: split_connected_components, select_subset"]}
{"id": "C66", "title": "Subdivision of simplices by a vertex in the middle", "statement": "For every topology of triangles, tetrahedra, ... subdivide_simplicial succeeds. It replaces simplex j by one simplex for each of its corners: number (n_dim + 1) j + c has the corners of j except number c, and last the new vertex n_vertices + j; on the complex this vertex is at the primal position of simplex j and the others stay. On level k below n_dim there are the old elements and binomial(n_dim + 1, k) new ones for each simplex, so the Euler characteristic is unchanged. The boundaries of the simplices that replace one simplex add up to its boundary, times (-1)^n_dim, and so do their signed volumes, wherever the vertices are put: in odd dimensions the orientation of everything is reversed, and a tetrahedron of positive volume becomes four of negative volume. The result is oriented coherently exactly if the original is, has the same boundary faces, no face in more than two simplices exactly if the original has none, and is connected exactly if the original is; is_connected, and for connected complexes is_oriented, give the same answers. For edges it raises an IndexError.", "quantifier": "every dimension from two, every list of simplices, all positions; a witness for the reversal", "why_tests_cant": "The statements are about all complexes of all dimensions; the reversal in odd dimensions is a sign that no test looks at.", "anchors": ["pycomplex/topology/simplicial.py: TopologySimplicial.subdivide_simplicial", "pycomplex/complex/simplicial/base.py: BaseComplexSimplicial.subdivide_simplicial"]}
{"id": "C67", "title": "Subdivision of cubes into halves", "statement": "For every topology of edges, squares, cubes, ... subdivide_cubical succeeds. It puts one vertex into every element of every dimension, numbered dimension by dimension, and cuts cube j into 2^n_dim cubes, one for each of its corners: number 2^n_dim j + p, whose corner b is the vertex of the face of j spanned by the axes where b and p differ. There are sum_m n_elements(m) binomial(m, k) 2^k elements of dimension k, so the Euler characteristic is unchanged. transfer_matrices[k] has a one exactly where a fine element is a part of a coarse one of the same dimension (all of its vertices lie in it), and every coarse element has 2^k parts. With a choice of signs, which is trivial in dimension 0, n_dim - 1 and n_dim, the transfers commute with the boundary; so the matrices as returned do for the top dimension, and in all dimensions for squares. They do not for edges and squares of a three-dimensional cube. On the complex every vertex is at the mean of the corners of its element, old vertices stay, and an affine cube is cut in half along every axis.", "quantifier": "every dimension, every list of cubes that from_cubes accepts, every order in which the faces are numbered, all positions; a witness for the failure", "why_tests_cant": "A fine cube finds its vertices through tables of faces of all dimensions; that these agree for every mesh and every numbering, and which signs agree, is not settled by grids.", "anchors": ["pycomplex/topology/cubical.py: cubical_domains, subdivide_cubical, subdivide_cubical_relations, subdivide_cubical_transfers", "pycomplex/complex/cubical.py: ComplexCubical.primal_position, ComplexCubical.subdivide_cubical"]}
{"id": "C68", "title": "Averages and degrees on cubical topologies", "statement": "For every topology of squares, cubes, ... averaging_operators_0[k] turns values on the vertices into the mean over the 2^k corners of every k-cube, and averaging_operators_N[k] turns values on the n-cubes into the mean over those that have the k-cube as a face (a side of a side ...), of which there is at least one; on the top level it changes nothing. degree[k] counts these cubes as long as there are fewer than 128. Six and seven levels apart (the most from_cubes accepts) both operators return minus the mean, since 6! and 7! wrap around in int8, and degree wraps around at 128.", "quantifier": "every dimension, every list of cubes that from_cubes accepts, every order in which the faces are numbered, all values", "why_tests_cant": "An accumulated product counts chains of faces; that there are k! of them from every corner, for all meshes, is an induction over dimensions, and the overflow is out of reach of examples.", "anchors": ["pycomplex/topology/base.py: accumulated_operators_0, accumulated_operators_N, averaging_operators_0, averaging_operators_N, degree"]}
{"id": "C69", "title": "Smoothing with creases, and the operators of smoothing and subdivision", "statement": "On every cubical complex, smooth(creases) moves a vertex to the mean of the centers of the creases at the vertex, of the lowest dimension that has creases there, where the center is the mean of the corners; without a chain of cubes all cubes are creases, and a vertex without creases stays. smooth_operator(creases) is the matrix of the same map: its entries are not negative, the rows add up to one, and row v takes the mean over the same creases of the means of their corners (for simplices too, up to dimension nine). After subdivide_cubical an element is a crease exactly if it is a part of a crease. Up to dimension five, subdivide_operator(creases, smooth) applied to the vertices gives the vertices of subdivide_cubical(creases, smooth). Where this fails: the row of a vertex without creases is empty while smooth keeps the vertex; from dimension six on, subdivide_operator gives minus the centers of the six- and seven-dimensional elements; smooth of a right triangle uses the circumcenter where the operator uses the center of mass; and subdivide_loop_operator has rows for the triangles, so its shape does not match subdivide_loop, and with smooth=True it raises a ValueError for every triangle mesh.", "quantifier": "every dimension, every list of cubes that from_cubes accepts, every order in which the faces are numbered, all creases given as chains of the right length, all positions; all triangle meshes for the last finding", "why_tests_cant": "That two programs, one that walks over levels and groups, and one that multiplies sparse matrices, agree for every mesh and every choice of creases is a statement about all of them; the example of the library compares them on one mesh.", "anchors": ["pycomplex/complex/base.py: smooth, smooth_operator", "pycomplex/complex/cubical.py: subdivide_cubical, subdivide_operator", "pycomplex/complex/simplicial/euclidian.py: subdivide_loop_operator"]}
{"id": "C70", "title": "Metric of regular complexes", "statement": "For every regular complex whose cubes are boxes with sides along the coordinates (any sizes, any order and direction of the axes) and that is oriented, metric succeeds: PM[k] holds the product of the side lengths of every k-cube, DM[0] ones, and DM[n_dim - k] the measure of the cell dual to every k-cube: over all n-cubes around it, the product of half the side lengths across it. For every k the products PM[k] DM[n_dim - k] add up to binomial(n_dim, k) times the volume; the cells dual to the vertices fill the domain. For n_cube_grid in one to seven dimensions, with any injective function applied to each coordinate, nothing has to be assumed. Fewer than 128 cubes meet in an element that is neither a vertex nor a cube: with 128 to 255 of them, as for that many squares around one edge, its measure is negative. If the topology is not oriented an AssertionError is raised. A square that does not lie along the coordinates gets a wrong area; standing on a corner it gets zero.", "quantifier": "every dimension, every list of cubes that from_cubes accepts, every order in which the faces are numbered, all positions of boxes; witnesses for the two failures", "why_tests_cant": "The measures are sums over the parts of all cubes, taken from tables of faces and divided by counts; that each part is counted the right number of times for every mesh, in every dimension, is not settled by grids of a few cells.", "anchors": ["pycomplex/complex/regular.py: ComplexRegularMixin.metric, fundamental_domain_postions", "pycomplex/geometry/regular.py: hypervolume", "pycomplex/topology/cubical.py: cubical_domains", "pycomplex/topology/base.py: degree"]}
{"id": "C71", "title": "Extruding a surface gives a closed surface", "statement": "c.extrude(other) of an edge-connected oriented triangulated surface with a border, in which every vertex belongs to a triangle, succeeds: the result has the vertices of c followed by those of other, the triangles of c, their reversed copies, and two triangles for each border edge, joining it to its copy. The result is oriented, every edge is passed as often in one direction as in the other, and its boundary is None. Every edge lies in exactly two triangles if and only if no vertex is the start of two border edges. If other is c translated by m, the signed volume of the result is minus the dot product of m with the vector area of c (half the sum of its normals): extruding along the normals gives a solid turned inside out. If the two complexes do not share their topology object, if c is not oriented or has no border, an AssertionError is raised; if some position belongs to no triangle, extrude fails. The weights are handed on unchanged, so that the result has twice as many vertices as weights.", "quantifier": "every triangle mesh with at most two triangles at an edge, all positions and translations, every SAT solver and every unique within their contracts", "why_tests_cant": "A test looks at a picture of one extruded square; that the strip closes the surface for every border, and with which orientation, is a statement about all surfaces.", "anchors": ["pycomplex/complex/simplicial/euclidian.py: ComplexTriangularEuclidian3.extrude", "pycomplex/complex/base.py: BaseComplex.boundary, copy"]}
{"id": "C72", "title": "Center of mass, areas and edge lengths of triangle meshes", "statement": "If the origin sees all triangles of a closed surface from the same side (so for a star-shaped solid around it), center_of_mass() is the centre of mass of the enclosed solid: for every way of filling the solid with tetrahedra, the mean of their centroids weighted with their volumes. It is nan exactly if all triangles lie in planes through the origin. In other positions it is wrong, since the volumes are taken without sign: for a tetrahedron with all corners at x >= 1 it returns a point with x = 27/28. area() is the sum of the areas of the triangles. vertex_areas() gives each vertex two thirds of the area of the triangles around it, so that the vertices together have twice the area of the surface. edge_lengths() are the distances between the ends of the edges, in the order of topology.elements[1], in every dimension; a ValueError is raised if the numbers of positions and vertices differ.", "quantifier": "all triangle meshes, all positions, all fillings by tetrahedra; all simplicial complexes for the edge lengths", "why_tests_cant": "That the sum over the surface is the centre of mass of the interior is a theorem about all solids; tests on a sphere around the origin do not show where it fails.", "anchors": ["pycomplex/complex/simplicial/euclidian.py: ComplexTriangularEuclidian3.center_of_mass, area, vertex_areas, edge_lengths"]}
{"id": "C73", "title": "The round trip of a mesh through an STL file", "statement": "For every triangle mesh with fewer than 2^32 triangles, load_STL of the file that save_STL writes has the same triangles in the same order. Its vertices are the positions that triangles use, rounded to four bytes and each listed once: two vertices become one exactly if their rounded positions have the same bits, and unused positions are gone. A closed surface stays closed, also if vertices are merged. This requires that no two corners of one triangle are rounded to the same position: otherwise the loaded complex has an edge from a vertex to itself, without an error. The file has 84 + 50 n bytes; bytes that follow are ignored; a file that is cut off loads the complete records without an error, and raises an IndexError if the count is missing.", "quantifier": "every mesh, every rounding function, every unique within its contract, every length of the file", "why_tests_cant": "The renumbering depends on all positions; a bit pattern in the wrong place shows only for some values; tests compare one sphere.", "anchors": ["pycomplex/complex/simplicial/euclidian.py: save_STL, load_STL"]}
{"id": "C74", "title": "n_simplex generates a regular simplex", "statement": "For every N >= 1, n_simplex(N) has one simplex with the N + 1 vertices in order, and binomial(N + 1, k + 1) elements of dimension k. Its vertices have length one, any two of them have the inner product -1/N, so that all edges have the length sqrt(2 (N + 1) / N), and they add up to zero. The signed volume is sqrt((N + 1) ((N + 1) / N)^N) / N!, positive in odd dimensions and negative in even ones: the regular triangle is turned clockwise. With equilateral=False the vertices are the origin and the unit vectors in order, and the signed volume is 1 / N!.", "quantifier": "every dimension N >= 1, every unique within its contract", "why_tests_cant": "The vertices are generated by recursion over the dimension; that every level is regular, and which way it is turned, is an induction.", "anchors": ["pycomplex/synthetic.py: n_simplex"]}
{"id": "C75", "title": "icosphere is a regular tiling of the sphere at every refinement", "statement": "icosahedron() has twelve points on the unit sphere, thirty edges with the inner product 1/sqrt(5) between their ends, and twenty triangles of area pi/5. For every n, icosphere(n) succeeds and has 10 * 4^n + 2 vertices, 30 * 4^n edges and 20 * 4^n triangles: a connected closed oriented surface with Euler characteristic 2, with is_oriented True and boundary None. All its vertices have length one, its triangles are not degenerate, cover the unit sphere, and any two overlap in a set without area, so that their areas add up to 4 pi. icosphere(n + 1) has the vertices of icosphere(n) in front, followed by one for each edge, in the order of the edges: the point of the sphere above the middle of the edge. No edge of icosphere(n) is longer than sqrt(2) / 2^n.", "quantifier": "every number of refinements, every SAT solver, eigensolver and unique within their contracts, every tolerance of at least 12 for the circumcenters (1e6 in the code)", "why_tests_cant": "Refinement is an iteration without bound; tests look at the first few levels, and at pictures of them.", "anchors": ["pycomplex/synthetic.py: icosahedron, icosphere", "pycomplex/complex/simplicial/spherical.py: ComplexSpherical2.subdivide_loop", "pycomplex/topology/simplicial.py: TopologyTriangular.subdivide_loop, fix_orientation"]}
{"id": "C76", "title": "Orientation, subsets and boundaries of cubical topologies", "statement": "If is_oriented of a cubical topology is True, every side that two cubes share receives opposite orientations from them; for cubes connected through shared sides the converse holds too. select_subset of a chain of the right length never fails: the subset has exactly the cubes with a non-zero chain value, in order, its vertices are numbered without gaps in the order of the original numbers, and parent_idx points to the original elements with the same corners on every level; a wrong length raises ValueError. The boundary of an oriented cubical topology of dimension two or more, no side of which has three cubes, never fails; it is None exactly if no side belongs to one cube only, and otherwise consists of exactly the sides that belong to one cube, in their stored order and orientation. These are coherently oriented, so that the boundary of the boundary is None if it is oriented, as it is if it is connected. Cubes that are not coherently oriented are refused with a ValueError.", "quantifier": "every dimension, every list of cubes from_cubes accepts, every chain, every SAT solver and unique within their contracts", "why_tests_cant": "The source itself notes that it is not clear whether the orientation of the boundary is preserved ('in practice, this appears to be very much the case'); that it is, is an argument about all cubes and all symmetries.", "anchors": ["pycomplex/topology/primal.py: PrimalTopology.select_subset, boundary, find_correspondence", "pycomplex/topology/base.py: BaseTopology.is_oriented", "pycomplex/topology/cubical.py: TopologyCubical.from_elements"]}
{"id": "C77", "title": "Circles and cylinders", "statement": "For every n, circle(n) succeeds and is one closed polygon with 4 * 2^n edges, which follow one another clockwise; it is oriented and has no boundary. Its vertices divide a circle about the origin evenly, beginning with the angle 5 pi / 4. The radius is one, except for circle(0), whose radius is 1 / sqrt(2). From the first subdivision on, the vertices of circle(n) come first among those of circle(n + 1), unmoved. All edges have the length 2 r sin(pi / (4 * 2^n)). volume() is minus the area of the polygon. For every length and radius, cylinder(length, radius, d) succeeds and consists of 2^d + 1 copies of the circle, equally spaced along the first axis from -length / 2 to length / 2 and multiplied by radius, and of exactly the quadrilaterals between consecutive copies of each edge; it is oriented, and its boundary is exactly the first and the last copy. With d = 0 all vertices have the distance radius / sqrt(2) from the axis.", "quantifier": "every number of subdivisions, every length and radius, every SAT solver and unique within their contracts", "why_tests_cant": "Subdivision smooths, refines and projects without bound; that the points stay evenly spaced at every level, and that the product is coherent, is an induction.", "anchors": ["pycomplex/synthetic.py: circle, cylinder", "pycomplex/complex/cubical.py: ComplexCubical.subdivide_cubical, product", "pycomplex/topology/primal.py: PrimalTopology.boundary"]}
{"id": "C78", "title": "Velocities from fluxes", "statement": "On a pairwise Delaunay Euclidean simplicial complex of dimension two or more, embedded in at most one dimension more, dual_flux_to_dual_velocity inverts taking fluxes: if a velocity is constant on each simplex, parallel to it, and carries as much into a face as out of it, then the integrals of the velocity along the dual edges are mapped to exactly this velocity at the dual vertices of the simplices. In particular over a complex of full dimension one and the same velocity everywhere is recovered. For every flux, on a simplex with no net inflow the velocity is parallel to the simplex and carries hodge_PD times the flux through each face. Fluxes along boundary dual edges have no effect and the velocity at boundary dual vertices is zero. A complex that is not pairwise Delaunay raises an AssertionError and a flux of a wrong length a ValueError. simplex_gradients gives, for each corner, a vector at a right angle to the opposite face, pointing to the corner, as long as the face is large; the vectors add up to zero and are n times the gradients of the volume.", "quantifier": "every mesh, every choice of singular vectors and eigenvectors, every flux and velocity", "why_tests_cant": "The singular value decomposition is not unique, and the identity needs the hodge star, the dual edges on both sides and the inverse on the plane to match slot by slot on every mesh.", "anchors": ["pycomplex/complex/base.py: BaseComplex.dual_flux_to_dual_velocity", "pycomplex/geometry/euclidian.py: simplex_normals, simplex_gradients"]}
{"id": "C79", "title": "Rotations, their powers and angles", "statement": "orthonormalize(axes, demirror=False) returns an orthonormal matrix of the shape of axes, and no other orthonormal matrix is closer to axes. With demirror, a square matrix of nonzero determinant is mapped to a rotation, and if the determinant is positive to the closest orthonormal matrix. It is not the closest rotation when the determinant is negative (unless the largest and smallest singular values agree), the result is singular for a singular matrix, and a matrix that is not square raises although its shape is documented. For a diagonalizable matrix power(m, k) is the k-th product for natural k and power(m, -1) the inverse; if no eigenvalue is a negative number the fractional powers are real, power(m, 1/k) is a k-th root, and the powers of an invertible matrix satisfy power(m, p) power(m, q) = power(m, p + q). The power p of rotation_from_plane(u, v) turns the plane by p right angles and fixes what is orthogonal to it, and angle_from_rotation returns this angle for at most a half turn. With only real eigenvalues, one of them negative, a fractional power is nan; so is the angle of the point reflection of space of four dimensions.", "quantifier": "every matrix, every choice of singular vectors and eigenvectors, every exponent", "why_tests_cant": "Neither decomposition is unique, and tests see only the matrices and exponents they try; the defect for mirrored axes still gives a rotation.", "anchors": ["pycomplex/math/linalg.py: orthonormalize, power, rotation_from_plane, angle_from_rotation"]}
{"id": "C80", "title": "Points of regular complexes are found and sampled exactly", "statement": "On a regular complex whose cubes are cells of one grid (any spacing along each axis, any position, any numbering and direction of the axes of a cube), for every point of the complex: pick_primal returns a cube that contains the point and its coordinates in the cube, between 0 and 1; pick_fundamental returns a fundamental domain that contains the point, with its coordinates from the vertex to the center of the cube; pick_dual returns a vertex that no other vertex is nearer than. If the cubes are also upright, sample_primal_0 reproduces every function that is affine in each coordinate. On n_cube_grid, scaled and moved, all this holds for every point between the ends of the grid. A given cube that contains the point is kept, and one whose first corner the point lies behind is replaced by what is found without it. The limits: a given cube is also kept when the point is beyond its last corner; pick_fundamental raises UnboundLocalError when the domains given are right for all points; with cubes of different size a cube that does not contain the point can be picked and sampled; with turned axes the coordinates are exchanged in sampling.", "quantifier": "every dimension, every set of cells of a grid, every point, every choice among equally near cubes", "why_tests_cant": "Tests pick on one grid without a given cube; points between cells, turned axes, hints and cubes of different size do not occur in them.", "anchors": ["pycomplex/complex/regular.py: pick_primal_precomp, pick_primal, pick_fundamental_precomp, pick_fundamental, pick_dual, sample_primal_0"]}
{"id": "C81", "title": "Forms on periodic grids are sampled by periodic multilinear interpolation", "statement": "sample_0 of a stencil complex with periodic boundary returns the values of one function g at the points: at a grid point, wrapped around the grid, g is the value stored there; g has the length of the grid as period along every axis, in both directions; within a cell g is affine along every axis; g stays between the bounds of the stored values. With assume_interior=True the axis of components is left in place and every call with points raises RuntimeError.", "quantifier": "every dimension, every shape, every scale, every form and every list of points", "why_tests_cant": "Tests sample a few points inside one grid and only plot the result; points behind the seam and negative coordinates are a separate case in the code.", "anchors": ["pycomplex/stencil/complex.py: StencilComplex.sample_0"]}
{"id": "C82", "title": "Triangles and tetrahedra are subdivided into one cube per corner", "statement": "subdivide_cubical of every simplicial topology of dimension 2 or 3 succeeds, and of every other dimension raises NotImplementedError. Cube number (n+1)*j+i is attached to corner i of simplex j; its corner with index b is the vertex put into the element spanned by that corner and the ends of the axes along which b is 1, and its last corner is the vertex put into simplex j. The number of k-elements of the result is the sum over the elements of the original of the number of ways to choose k of their corners, but not all; the Euler characteristic is kept. The vertices of the subdivided complex are the circumcenters of the elements, in the order of those numbers. The squares of triangles are coherently oriented exactly if the triangles are, and is_oriented says so for connected triangles. (The cubes of tetrahedra never are: see DESIGN.md.)", "quantifier": "every simplicial topology with distinct corners, of every size, and every unique function with its documented behaviour", "why_tests_cant": "Tests subdivide a few meshes and plot them; whether faces of neighbouring cubes agree in all cases depends on the order of corners in both simplices.", "anchors": ["pycomplex/topology/simplicial.py: TopologySimplicial.subdivide_cubical", "pycomplex/complex/simplicial/base.py: subdivide_cubical", "pycomplex/complex/simplicial/euclidian.py: subdivide_cubical"]}
{"id": "C83", "title": "Dual 0-forms are averaged over the vertices of the dual cells", "statement": "For every coherently oriented simplicial or cubical mesh, average_dual(d0) returns d0 itself and then, for every dual k-cell, the mean of d0 over all dual vertices of the closed cell: one for each top element around the primal element, and, if that lies on the boundary, one more for each boundary face around it; a dual cell in the boundary gets the mean over the boundary faces alone. The dual cells of a level are in the order of the primal elements followed by those of the boundary. A d0 of any other length raises ValueError. Constant forms stay constant. This holds up to level 5; at levels 6 and 7 the sign is wrong because of int8 wrap-around. For meshes with a boundary it holds if the boundary elements are numbered in the order of the mesh elements they come from, which is so in two dimensions and whenever unique sorts its rows lexicographically; without that it fails (see DESIGN.md).", "quantifier": "every simplicial and cubical mesh of every dimension and size, open or closed, and every dual 0-form", "why_tests_cant": "Tests plot averaged fields on a few meshes; the weights count chains of elements through boundary and interior blocks, and depend on an ordering that no small mesh violates.", "anchors": ["pycomplex/complex/regular.py: average_dual", "pycomplex/topology/primal.py: dual, selector_boundary", "pycomplex/topology/dual.py: Dual.matrices, ClosedDual.matrices", "pycomplex/topology/base.py: averaging_operators_0"]}
{"id": "C84", "title": "Dual 0-forms of regular complexes are sampled by multilinear interpolation", "statement": "On a complex of axis-aligned boxes on a grid, of dimension two to five, sample_dual_0(d0, points) works for any points and any d0 with one value for each cube and one for each side at the boundary; d0 of another length raises ValueError. The value at a point is between the smallest and the largest of the values of d0 in the dual cell of one vertex of the mesh, which for a point of the complex is a corner of a cube with the point, at most half a cell away; constants are kept. At all points more than half a cell inside, a function affine in each coordinate is recovered exactly from its values at the middles of the cubes, whatever the boundary values are. At the boundary the given boundary values are not kept but averaged with those of the cubes (see DESIGN.md).", "quantifier": "every grid-like regular complex of dimension 2 to 5, in particular every n_cube_grid with any spacings, every dual 0-form and every list of points", "why_tests_cant": "Tests plot sampled fields on one grid; exactness depends on dual averages of every order, on picking the right part of a cube and on the order of corners together.", "anchors": ["pycomplex/complex/regular.py: sample_dual_0, average_dual, pick_fundamental"]}
{"id": "C85", "title": "Coarsening and refining periodic grids are adjoint, interpolate and respect the derivative", "statement": "On a periodic grid of even shape, refine[n] interpolates multilinearly normal to the cells: along the axes of a component each coarse cell is split into two with the same value, along the others even cells keep the value and odd ones get the mean of both neighbours. coarsen[n] and refine[n] are transposes of each other up to the factor 2 ** n_dim, the same in every degree; both keep constant components, and coarsen keeps the mean of every component. The smoothers are symmetric, as their class SymmetricOperator claims. Differentiating a refined form gives half of the refined derivative, and the dual derivative of a coarsened form is twice the coarsened dual derivative. coarsen does not commute with the derivative (see DESIGN.md).", "quantifier": "every even shape, dimension, degree, form and content of uninitialised arrays", "why_tests_cant": "Multigrid tests only look at convergence on one grid; an error in the kernel, the axes or the scale slows convergence without failing, and the identities quantify over all forms and shapes.", "anchors": ["pycomplex/stencil/complex.py: smoothers, coarsen, refine", "pycomplex/stencil/util.py: smoother", "pycomplex/stencil/topology.py: transfers"]}
{"id": "C86", "title": "Steady diffusion on a periodic grid in first order form is uniquely solvable, also after coarsening", "statement": "formulate builds the operator of the weak form of the equations constraint * potential = div(conductance * flux), grad(potential) + resistance * flux = 0 with the metric of the grid. If the conductances in both rows agree the operator is symmetric, and with positive conductances and resistances and a nonnegative constraint that is positive somewhere there is exactly one potential and flux for every right hand side. coarse keeps all these conditions, since coarsened fields stay between the bounds of the fine ones; restrict is 2 ** (n_dim - 2 n) times coarsen in degree n, and transpose to interpolate up to 4 ** n. All this presumes that no field is so close to zero or one, after multiplication with the metric, that simplify replaces it; otherwise a constraint may be lost (see DESIGN.md).", "quantifier": "every dimension, shape, spacing, field, right hand side and content of uninitialised arrays", "why_tests_cant": "The example solves one equation to some residual; solvability and the weak form quantify over all fields and right hand sides.", "anchors": ["pycomplex/stencil/diffusion.py: formulate, coarse, restrict, interpolate", "pycomplex/stencil/linear_system.py: canonical, __getitem__", "pycomplex/stencil/operator.py: simplify"]}
{"id": "C87", "title": "Fundamental domains of a triangle mesh can be looked up exactly if the weights of neighbouring vertices are small against the edge between them, and those of a mesh in space never", "statement": "optimize_weights_fundamental gives every vertex of the parent a quarter of the mean squared length of the edges at it in the subdivision, and zero to the other vertices. In three or more dimensions the subdivision with these weights is never pairwise Delaunay, so pick_fundamental always raises an AssertionError and sample_dual_0 never returns. In two dimensions it is pairwise Delaunay exactly if for every edge of the parent the weights of both ends add up to less than half of its squared length. Then pick_fundamental returns for each point a flag of vertex, edge and triangle and the coordinates of the point with respect to their centers, and sample_dual_0 combines with these the value at the triangle and the means of the values at the corners of the dual cells of edge and vertex; constants are reproduced.", "quantifier": "every simplicial complex with nondegenerate fundamental domains, every point, field, least squares solver and nearest neighbour search", "why_tests_cant": "A test picks points on one mesh; that all meshes in space are refused, and which planar ones are, quantifies over all meshes.", "anchors": ["pycomplex/complex/simplicial/base.py: subdivide_fundamental, optimize_weights_fundamental, pick_fundamental_precomp, pick_fundamental, sample_dual_0"]}
{"id": "C88", "title": "Weighted averages of dual 0-forms are positive weighted means over the simplices around each element, and ignore the boundary values", "statement": "On a well-centered oriented simplicial mesh, the weighted_average_operators applied to d0 give on each dual element of at most five dimensions the mean of the values on the simplices around it. The weight of a simplex is positive: the sum, over all ways to add its remaining corners one by one, of the product of the distances between successive centers after the first, divided by the product of the distances from the center of the element. So every result lies between the least and the largest value around the element and constants are reproduced; on a dual edge it is linear interpolation if the center of the face lies between the two simplex centers. Values of d0 on boundary faces are not used and dual cells of the boundary get zero. A mesh that is not oriented or not well-centered raises AssertionError, a d0 of wrong length ValueError. On planar meshes sample_dual_0 with its default arguments combines these means with the coordinates of the point.", "quantifier": "every euclidian simplicial complex without degenerate simplices, closed or with a boundary, weighted or not, and every d0", "why_tests_cant": "A test averages one field on one mesh; the formula, its bounds and the missing influence of the boundary concern all meshes and fields.", "anchors": ["pycomplex/complex/base.py: weighted_average_operators", "pycomplex/complex/simplicial/base.py: sample_dual_0", "pycomplex/sparse.py: normalize_l1"]}
{"id": "C89", "title": "check_chain accepts every complex whose boundary maps compose to zero, but never looks at the last boundary map", "statement": "topology.check_chain() returns without error if and only if every matrix but the last two fits the next one and gives with it a product that is zero in int8 arithmetic, that is modulo 256; otherwise it raises ValueError. So it accepts every topology made by from_simplices or by from_cubes with mirror=True and the dual of every closed simplicial topology, and it notices any product before the last that has a nonzero entry between -255 and 255. Its result does not depend on the last matrix, and on complexes of at most two dimensions it accepts everything. On the dual of two tetrahedra with a common face it raises.", "quantifier": "every list of integer matrices; every simplicial and mirrored cubical mesh", "why_tests_cant": "The tests call check_chain on a few cubes and simplices and take the absence of an error as evidence; what it does not look at cannot be seen from that.", "anchors": ["pycomplex/topology/base.py: check_chain", "pycomplex/topology/dual.py: ClosedDual.matrices", "pycomplex/topology/primal.py: matrices"]}
{"id": "C90", "title": "n_cube_dual makes cross-polytopes", "statement": "For 2 <= n_dim <= 7 n_cube_dual(n_dim).topology is built without error: it has 2 n_dim vertices, two on every one of n_dim axes, and 2**n_dim simplices, each with one vertex of every axis and every choice of sides occurring in exactly one of them. Every face belongs to exactly two simplices, the simplices are coherently oriented, is_oriented is True, and for n_dim >= 3 boundary is None. Its vertices are the unit vectors of the axes and their negatives: both vertices of an axis lie on that axis, on opposite sides. From n_dim = 8 on the call fails. sparse_to_elements, on the incidence of elements and vertices, lists for every vertex the elements around it in increasing order, and raises ValueError exactly if their number differs between vertices.", "quantifier": "every number of dimensions; every list of elements whose vertices are numbered without gaps; every behaviour of the external solver and of unique that meets its specification", "why_tests_cant": "The tests build the dual of a cube in a few dimensions and only look at the number of elements or plot it.", "anchors": ["pycomplex/synthetic.py: n_cube_dual", "pycomplex/topology/util.py: sparse_to_elements"]}
{"id": "C91", "title": "dual_position lists one position for every dual element", "statement": "dual_position[n - k] of an n-dimensional complex with boundary lists the positions of the primal k-elements in their order, and after them those of the boundary elements of dimension k - 1 in the order of the boundary complex; it has as many entries as the complex has k-elements and the boundary has (k-1)-elements, and no entry for the boundary at k = 0. For an oriented simplicial complex the numbers of entries of dual_position[0] and [1] are those of the rows and columns of the matrix of the dual. For an oriented cubical complex the appended positions are those that complex.boundary.primal_position lists, and for a closed complex dual_position is primal_position in reverse order.", "quantifier": "every oriented simplicial or cubical complex of dimension at least two with at most two elements at every face, every position of its vertices; every behaviour of the external solver and of unique that meets its specification", "why_tests_cant": "The one test of dual_position prints the positions of a single cube; that the boundary entries agree with the numbering of the boundary complex is about every complex.", "anchors": ["pycomplex/complex/base.py: dual_position", "pycomplex/complex/cubical.py: primal_position"]}
{"id": "C92", "title": "the selectors of the dual split dual forms, and matrices_2 takes differences along dual edges", "statement": "On a complex with boundary, dual.selector_interior[k] times a dual form of n_elements[n-k] values keeps the values on the duals of the k-elements, in their order, and dual.selector_boundary[k] the remaining ones, on the duals of the boundary elements of dimension k - 1; the transposes put values back where they came from and zeros elsewhere. On a closed complex the first keeps everything and the second nothing. dual.n_elements is the number of entries of dual_position. dual.matrices_2[n-1-k] has a column for every k-element and a row for every dual element, holds the incidence of k- and (k+1)-elements and below it which k-element each boundary element is, without overflow of int8; on a closed complex matrices_2 is matrices. For an oriented simplicial complex the transpose of matrices_2[0] takes on every face the difference of the values at the two ends of its dual edge, so gradients of constants vanish.", "quantifier": "every complex for the selectors; for matrices_2 every oriented simplicial or cubical complex of dimension at least two whose boundary is numbered in the order of the complex; all values; every behaviour of the external solver and of unique that meets its specification", "why_tests_cant": "The selectors are tested only through a few examples that are plotted; no test looks at matrices_2.", "anchors": ["pycomplex/topology/dual.py: Dual.selector_interior", "pycomplex/topology/dual.py: Dual.selector_boundary", "pycomplex/topology/dual.py: Dual.n_elements", "pycomplex/topology/dual.py: Dual.matrices_2", "pycomplex/topology/dual.py: ClosedDual"]}
{"id": "C93", "title": "transfer matrices of the dual of a subdivision relate fine to coarse dual elements", "statement": "After complex.subdivide_cubical() of a cubical complex with boundary, fine.topology.dual.transfer_matrices is a list with one matrix per dimension. Matrix n - k has dual.n_elements[n - k] of the fine complex as number of rows and that of the coarse complex as number of columns. The entry of a fine and a coarse primal element is 1 if the fine one lies in the coarse one and 0 if not; the entry of two boundary elements likewise; entries of a primal and a boundary element are 0. No product of int8 matrices overflows. The same holds after subdivide_loop of triangles, where an edge lies in an edge if it is one of its halves and a vertex in itself only. For other subdivisions the same blocks appear whenever the transfer matrices of the primal have entries 0 and 1.", "quantifier": "every cubical complex of dimension at least two and its subdivision, with boundaries numbered in the order of the complexes; every behaviour of the external solver and of unique that meets its specification", "why_tests_cant": "The tests look at the shapes of the matrices of two examples, not at their entries.", "anchors": ["pycomplex/topology/dual.py: Dual.transfer_matrices", "pycomplex/topology/cubical.py: subdivide_cubical", "pycomplex/topology/primal.py: selector_boundary"]}
{"id": "C94", "title": "norm_l1 and as_diagonal of block matrices agree with the merged matrix, and balancing normalizes rows", "statement": "For a SparseBlockMatrix A with at least one block in every direction, A.norm_l1(axis=1) is a DenseBlockArray with one block per block row, of its height, and all blocks one after the other are the sums of the absolute values of the rows of A.merge(); norm_l1(axis=0) likewise for columns. If two blocks of a DenseBlockArray d have different lengths, as_diagonal(d).merge() is the diagonal matrix of d.merge(). Then as_diagonal(1 / A.norm_l1(axis=1)) * A, the balancing used by the linear systems of the examples, divides every row by its norm, and if no row is zero every row has norm one. If all blocks have the same length, as_diagonal and with it the balancing raises AssertionError.", "quantifier": "every block matrix with conforming blocks, none missing; numbers in any ordered field (norms: any ordered ring)", "why_tests_cant": "The only check in block.py prints the norms of one matrix. A test of one block pattern says little about others: whether balancing works depends on the heights of the block rows, because numpy collapses blocks of equal length.", "anchors": ["pycomplex/block.py: BlockMatrix.norm_l1, BlockMatrix.as_diagonal, BlockArray.broadcasting_operator", "examples/linear_system.py: balance"]}
{"id": "C95", "title": "shape of a block vector lists the lengths of its blocks; shape and squareness of block matrices cannot be queried", "statement": "For a one-dimensional BlockArray, shape is a list with one list, the lengths of the blocks, and is_compatible is True. For every BlockArray with two or more axes and at least one block, in particular every SparseBlockMatrix and BlockOperator, shape raises IndexError, and so do compatible or is_compatible and square or is_square, even if the matrix and all its blocks are square.", "quantifier": "every array of blocks that are not block arrays themselves, of any number of axes, with blocks of any shapes", "why_tests_cant": "The assertions that would use these properties are commented out in the code. A test of one array cannot show that no block matrix at all has a shape.", "anchors": ["pycomplex/block.py: BlockArray.shape, BlockArray.compatible, BlockMatrix.square", "pycomplex/stencil/block.py: BlockArray.shape, BlockArray.is_compatible, BlockOperator.is_square"]}
{"id": "C96", "title": "sums of stencil block operators act as sums; differences are not available", "statement": "For two stencil BlockOperators A and B with the same block shapes, A + B is a BlockOperator with these shapes, and (A + B) * x equals A * x + B * x for every block vector x that fits, although the blocks are simplified when they are added. If the numbers of block rows differ and neither is one, A + B raises ValueError. A - B raises TypeError for all block operators with at least one block, because operators have no subtraction.", "quantifier": "all block operators made of derivatives, duals, diagonals, identities, zeros and their sums and products, and all block vectors; entries of diagonals that np.allclose does not confuse with 0 or 1", "why_tests_cant": "A test adds two given operators and applies them to one vector; simplification depends on the kinds of all blocks.", "anchors": ["pycomplex/stencil/block.py: BlockArray.__add__, BlockArray.__sub__, BlockArray.broadcasting_operator", "pycomplex/stencil/operator.py: StencilOperator.__add__"]}
{"id": "C97", "title": "the masks of checkerboard_2 split a grid into independent parts", "statement": "For a grid with n axes, every grid point is True in exactly one of the masks checkerboard_2(shape, offset) with offset in range(2 ** n), and in no mask with another offset. Two grid points are True in the same mask exactly if their indices differ by an even number on every axis. If all entries of shape are even, two different points of one mask are never neighbours on all axes at once, also not around the ends of the grid, so a stencil that reaches one point in every direction does not connect them. With an odd entry the first and the last point can be neighbours in one mask.", "quantifier": "all grid shapes of any number of axes, all indices and all offsets", "why_tests_cant": "A test prints or compares the masks of one shape; the claim is about all shapes, dimensions and pairs of points.", "anchors": ["pycomplex/stencil/util.py: checkerboard_2"]}
{"id": "C98", "title": "the smoothing kernel averages, keeps linear functions and removes alternating patterns", "statement": "For every ndim >= 1 (within the recursion limit), smoother(ndim) is an array with ndim axes of length three whose entry at an index is the product over the axes of 1/4, 1/2, 1/4. All entries are positive and add up to one. The average of the offset from the middle with these weights vanishes on every axis, so smoothing reproduces linear functions. The weighted sum of a pattern that alternates in sign along any non-empty set of axes vanishes, so a smoothed checkerboard is zero. For ndim < 1 the call never returns an array: it recurses until RecursionError.", "quantifier": "all numbers of dimensions, all entries, all sets of axes, all recursion limits", "why_tests_cant": "A test looks at the arrays of a few dimensions; the claim is about all dimensions.", "anchors": ["pycomplex/stencil/util.py: smoother"]}
